import Verif.Poly.BandProps

/-!
# The size of the uncertainty bands at the samples: C230
-/

namespace EQ.Poly
open EQ.Basis Matrix

variable {X : Type} {M N : ℕ}

/-- The regularised projection: its rows have squared length at most its diagonal, the diagonal is at most one, and the trace at most the number of columns. -/
theorem ridge_projection (A : Matrix (Fin M) (Fin N) ℝ) :
    let H := A * ((Aᵀ * A + (1 / 10 ^ 10 : ℝ) • (1 : Matrix (Fin N) (Fin N) ℝ))⁻¹ * Aᵀ)
    (∀ i, ∑ j, H i j ^ 2 ≤ H i i) ∧ (∀ i, H i i ≤ 1) ∧ ∑ i, H i i ≤ N := by
  intro H
  set G := Aᵀ * A + (1 / 10 ^ 10 : ℝ) • (1 : Matrix (Fin N) (Fin N) ℝ) with hG
  set R := G⁻¹ with hR
  have hdet : IsUnit G.det := (isUnit_iff_isUnit_det _).1 (posDef_ridge A).isUnit
  have hRG : R * G = 1 := nonsing_inv_mul _ hdet
  have hGt : Gᵀ = G := by simp [hG, transpose_add, transpose_mul]
  have hRt : Rᵀ = R := by rw [hR, transpose_nonsing_inv, hGt]
  have hHt : Hᵀ = H := by
    show (A * (R * Aᵀ))ᵀ = A * (R * Aᵀ)
    simp only [transpose_mul, transpose_transpose, hRt, Matrix.mul_assoc]
  have hRAA : R * (Aᵀ * A) = 1 - (1 / 10 ^ 10 : ℝ) • R := by
    have : R * (Aᵀ * A) + (1 / 10 ^ 10 : ℝ) • R = 1 := by
      rw [← hRG, hG, Matrix.mul_add, Matrix.mul_smul, Matrix.mul_one]
    rw [← this, add_sub_cancel_right]
  have hHH : H * H = H - (1 / 10 ^ 10 : ℝ) • ((A * R) * (A * R)ᵀ) := by
    have e1 : H * H = A * ((R * (Aᵀ * A)) * (R * Aᵀ)) := by
      show A * (R * Aᵀ) * (A * (R * Aᵀ)) = _
      simp only [Matrix.mul_assoc]
    have e2 : (A * R) * (A * R)ᵀ = A * (R * (R * Aᵀ)) := by
      rw [transpose_mul, hRt, Matrix.mul_assoc]
    rw [e1, e2, hRAA, Matrix.sub_mul, Matrix.one_mul, Matrix.mul_sub, Matrix.smul_mul, Matrix.mul_smul]
  have hrow : ∀ i, ∑ j, H i j ^ 2 = (H * H) i i := fun i => by
    rw [Matrix.mul_apply]
    refine Finset.sum_congr rfl fun j _ => ?_
    have : H j i = H i j := congrFun (congrFun hHt i) j
    rw [this, sq]
  have h1 : ∀ i, ∑ j, H i j ^ 2 ≤ H i i := fun i => by
    rw [hrow, hHH, Matrix.sub_apply, Matrix.smul_apply, Matrix.mul_apply, smul_eq_mul]
    have : 0 ≤ ∑ j, (A * R) i j * (A * R)ᵀ j i := Finset.sum_nonneg fun j _ => by rw [transpose_apply]; exact mul_self_nonneg _
    linarith
  refine ⟨h1, fun i => ?_, ?_⟩
  · have h2 : H i i ^ 2 ≤ ∑ j, H i j ^ 2 := Finset.single_le_sum (fun j _ => sq_nonneg (H i j)) (Finset.mem_univ i)
    nlinarith [h1 i]
  · have htr : ∑ i, H i i = (H.trace) := rfl
    have hR0 : 0 ≤ R.trace := by
      have hRR : R = (A * R)ᵀ * (A * R) + (1 / 10 ^ 10 : ℝ) • (Rᵀ * R) := by
        calc R = R * G * R := by rw [hRG, Matrix.one_mul]
          _ = _ := by
            rw [hG, transpose_mul, hRt, Matrix.mul_add, Matrix.add_mul]
            simp only [Matrix.mul_assoc, Matrix.mul_smul, Matrix.smul_mul, Matrix.mul_one]
      rw [hRR, trace_add, trace_smul]
      have p : ∀ {a b : ℕ} (B : Matrix (Fin a) (Fin b) ℝ), 0 ≤ (Bᵀ * B).trace := fun B =>
        Finset.sum_nonneg fun k _ => by
          rw [diag_apply, Matrix.mul_apply]
          exact Finset.sum_nonneg fun j _ => by rw [transpose_apply]; exact mul_self_nonneg _
      have := p (A * R)
      have := p R
      rw [smul_eq_mul]
      positivity
    rw [htr]
    show (A * (R * Aᵀ)).trace ≤ N
    rw [trace_mul_comm, Matrix.mul_assoc, hRAA, trace_sub, trace_smul, trace_one, smul_eq_mul, Fintype.card_fin]
    linarith

/-- **C230.** At the samples of a fit, for variances of the data of at most `V`: the squared band times the weight of the sample is at most `1.96² V`, and the sum of
these over all samples is at most `1.96² V` times the number of basis functions. -/
theorem c230_size (chol : Matrix (Fin N) (Fin N) ℝ → Option (Matrix (Fin N) (Fin N) ℝ)) (hchol : CholContract chol) (φ : X → Fin N → ℝ) (c : Fin N → ℝ)
    (s : Fitted X M) (hw : ∀ i, 0 ≤ s.weights i) (v : Fin M → ℝ) (hv : s.dataVariance φ c = .ok v) (h0 : ∀ j, 0 ≤ v j) (V : ℝ) (hV0 : 0 ≤ V)
    (hV : ∀ j, v j ≤ V) :
    ∃ band : Fin M → ℝ, s.polystd chol φ c (List.ofFn s.points) = .ok (List.ofFn band) ∧
      (∀ i, s.weights i * band i ^ 2 ≤ 1.96 ^ 2 * V) ∧ ∑ i, s.weights i * band i ^ 2 ≤ 1.96 ^ 2 * V * N := by
  set A := s.design φ with hA
  obtain ⟨h1, h2, h3⟩ := ridge_projection A
  set R := (Aᵀ * A + (1 / 10 ^ 10 : ℝ) • (1 : Matrix (Fin N) (Fin N) ℝ))⁻¹ with hR
  refine ⟨fun i => 1.96 * √(∑ j, v j * (φ (s.points i) ᵥ* (R * Aᵀ)) j ^ 2), ?_, ?_⟩
  · rw [polystd_eq chol hchol φ c s v hv, List.map_ofFn]
    rfl
  have key : ∀ i, s.weights i * (1.96 * √(∑ j, v j * (φ (s.points i) ᵥ* (R * Aᵀ)) j ^ 2)) ^ 2 ≤ 1.96 ^ 2 * V * (A * (R * Aᵀ)) i i := fun i => by
    have hrow : ∀ j, (A * (R * Aᵀ)) i j = √(s.weights i) * (φ (s.points i) ᵥ* (R * Aᵀ)) j := fun j => by
      rw [Matrix.mul_apply, vecMul, dotProduct, Finset.mul_sum]
      refine Finset.sum_congr rfl fun k _ => ?_
      rw [hA, Fitted.design, mul_assoc]
    have hs : 0 ≤ ∑ j, v j * (φ (s.points i) ᵥ* (R * Aᵀ)) j ^ 2 := Finset.sum_nonneg fun j _ => mul_nonneg (h0 j) (sq_nonneg _)
    rw [mul_pow, Real.sq_sqrt hs]
    have e : s.weights i * ∑ j, v j * (φ (s.points i) ᵥ* (R * Aᵀ)) j ^ 2 = ∑ j, v j * (A * (R * Aᵀ)) i j ^ 2 := by
      rw [Finset.mul_sum]
      refine Finset.sum_congr rfl fun j _ => ?_
      rw [hrow, mul_pow, Real.sq_sqrt (hw i)]
      ring
    have e2 : ∑ j, v j * (A * (R * Aᵀ)) i j ^ 2 ≤ V * (A * (R * Aᵀ)) i i := by
      calc ∑ j, v j * (A * (R * Aᵀ)) i j ^ 2 ≤ ∑ j, V * (A * (R * Aᵀ)) i j ^ 2 :=
            Finset.sum_le_sum fun j _ => mul_le_mul_of_nonneg_right (hV j) (sq_nonneg _)
        _ = V * ∑ j, (A * (R * Aᵀ)) i j ^ 2 := by rw [Finset.mul_sum]
        _ ≤ _ := mul_le_mul_of_nonneg_left (h1 i) hV0
    calc _ = 1.96 ^ 2 * (s.weights i * ∑ j, v j * (φ (s.points i) ᵥ* (R * Aᵀ)) j ^ 2) := by ring
      _ ≤ 1.96 ^ 2 * (V * (A * (R * Aᵀ)) i i) := by rw [e]; exact mul_le_mul_of_nonneg_left e2 (by norm_num)
      _ = _ := by ring
  constructor
  · intro i
    calc _ ≤ 1.96 ^ 2 * V * (A * (R * Aᵀ)) i i := key i
      _ ≤ 1.96 ^ 2 * V * 1 := mul_le_mul_of_nonneg_left (h2 i) (by positivity)
      _ = _ := mul_one _
  · calc _ ≤ ∑ i, 1.96 ^ 2 * V * (A * (R * Aᵀ)) i i := Finset.sum_le_sum fun i _ => key i
      _ = 1.96 ^ 2 * V * ∑ i, (A * (R * Aᵀ)) i i := by rw [Finset.mul_sum]
      _ ≤ _ := mul_le_mul_of_nonneg_left h3 (by positivity)

/-- **C230, estimated variance.** If no variances are given and the weights are equal, the mean square of the bands at the samples is at most `1.96²` times the number of
basis functions times the mean square of the residuals. -/
theorem c230_estimated (chol : Matrix (Fin N) (Fin N) ℝ → Option (Matrix (Fin N) (Fin N) ℝ)) (hchol : CholContract chol) (φ : X → Fin N → ℝ) (c : Fin N → ℝ)
    (s : Fitted X M) (hw : ∀ i, s.weights i = 1 / M) (y : Fin M → ℝ) (hin : s.inputs = true) (hout : s.outputs = some y) (hvar : s.variances = none) :
    ∃ band : Fin M → ℝ, s.polystd chol φ c (List.ofFn s.points) = .ok (List.ofFn band) ∧
      (∑ i, band i ^ 2) / M ≤ 1.96 ^ 2 * N * ((∑ i, (y i - ∑ k, φ (s.points i) k * c k) ^ 2) / M) := by
  have hv : s.dataVariance φ c = .ok fun _ => (∑ i, (y i - ∑ k, φ (s.points i) k * c k) ^ 2) / M := by
    unfold Fitted.dataVariance
    simp only [hvar, hin, hout, if_true]
    rfl
  have h0 : (0 : ℝ) ≤ (∑ i, (y i - ∑ k, φ (s.points i) k * c k) ^ 2) / M := by positivity
  obtain ⟨band, h1, -, h3⟩ := c230_size chol hchol φ c s (fun i => by rw [hw]; positivity) _ hv (fun _ => h0) _ h0 fun _ => le_rfl
  refine ⟨band, h1, ?_⟩
  simp only [hw, ← Finset.mul_sum] at h3
  calc _ = 1 / M * ∑ i, band i ^ 2 := by ring
    _ ≤ _ := h3
    _ = _ := by ring

/-- The constant basis function with two samples and variance `4`: the hypotheses hold. By `c126_band_violated` both bands are `1.96 · 2 / (1 + 1e-10)`, so the
bound of the sum is attained up to the regularisation. -/
example (chol : Matrix (Fin 1) (Fin 1) ℝ → Option (Matrix (Fin 1) (Fin 1) ℝ)) (hchol : CholContract chol) :
    let s : Fitted ℝ 2 := ⟨![0, 1], fun _ => 1 / 2, true, some ![1, 5], some (.scalar 4), some ![1, 5]⟩
    ∃ band : Fin 2 → ℝ, s.polystd chol (fun _ _ => 1) (fun _ => 3) (List.ofFn s.points) = .ok (List.ofFn band) ∧
      (∀ i, (1 / 2 : ℝ) * band i ^ 2 ≤ 1.96 ^ 2 * 4) ∧ ∑ i, (1 / 2 : ℝ) * band i ^ 2 ≤ 1.96 ^ 2 * 4 * (1 : ℕ) := by
  intro s
  exact c230_size chol hchol _ _ s (fun _ => by norm_num [s]) (fun _ => 4) rfl (fun _ => by norm_num) 4 (by norm_num) fun _ => le_rfl

/-- Without variances: the residuals `±2` of the same data. -/
example (chol : Matrix (Fin 1) (Fin 1) ℝ → Option (Matrix (Fin 1) (Fin 1) ℝ)) (hchol : CholContract chol) :
    let s : Fitted ℝ 2 := ⟨![0, 1], fun _ => 1 / (2 : ℕ), true, some ![1, 5], none, some ![1, 5]⟩
    ∃ band : Fin 2 → ℝ, s.polystd chol (fun _ _ => 1) (fun _ => 3) (List.ofFn s.points) = .ok (List.ofFn band) ∧
      (∑ i, band i ^ 2) / (2 : ℕ) ≤ 1.96 ^ 2 * (1 : ℕ) * 4 := by
  intro s
  obtain ⟨band, h1, h2⟩ := c230_estimated chol hchol (fun _ _ => 1) (fun _ => 3) s (fun _ => rfl) ![1, 5] rfl rfl rfl
  refine ⟨band, h1, h2.trans_eq ?_⟩
  simp [Fin.sum_univ_two]
  norm_num

end EQ.Poly
