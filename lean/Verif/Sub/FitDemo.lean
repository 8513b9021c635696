import Verif.Sub.FitNewton
import Mathlib.Analysis.Matrix.Spectrum
import Mathlib.Analysis.Calculus.LocalExtr.Basic
import Mathlib.Tactic.FinCases

/-!
# Problems that meet the hypotheses of C136-C139
-/

namespace EQ.Sub
open EQ.Basis EQ.Param EQ.Sampling EQ.Poly Matrix MvPolynomial
variable {K m n : ℕ}

/-- Symmetric matrices have a symmetric pseudo-inverse. -/
theorem penrose_symm {b : ℕ} (H : Matrix (Fin b) (Fin b) ℝ) (hH : Hᵀ = H) :
    ∃ H' : Matrix (Fin b) (Fin b) ℝ, H'ᵀ = H' ∧ H * H' * H = H ∧ H' * H * H' = H' ∧ (H' * H)ᵀ = H' * H := by
  have hA : H.IsHermitian := by rw [IsHermitian, conjTranspose_eq_transpose_of_trivial, hH]
  have h1 := hA.spectral_theorem
  rw [Unitary.conjStarAlgAut_apply] at h1
  have h2 : (star (hA.eigenvectorUnitary : Matrix (Fin b) (Fin b) ℝ)) * hA.eigenvectorUnitary = 1 := Unitary.coe_star_mul_self _
  have e3 : star (hA.eigenvectorUnitary : Matrix (Fin b) (Fin b) ℝ) = (hA.eigenvectorUnitary : Matrix (Fin b) (Fin b) ℝ)ᵀ := by
    rw [star_eq_conjTranspose, conjTranspose_eq_transpose_of_trivial]
  rw [e3] at h2
  rw [e3] at h1
  generalize (hA.eigenvectorUnitary : Matrix (Fin b) (Fin b) ℝ) = Q at h1 h2
  generalize (RCLike.ofReal ∘ hA.eigenvalues : Fin b → ℝ) = S at h1
  have key : ∀ s t : Fin b → ℝ, Q * diagonal s * Qᵀ * (Q * diagonal t * Qᵀ) = Q * diagonal (fun i => s i * t i) * Qᵀ := fun s t => by
    rw [← diagonal_mul_diagonal]
    calc Q * diagonal s * Qᵀ * (Q * diagonal t * Qᵀ) = Q * diagonal s * (Qᵀ * Q) * diagonal t * Qᵀ := by simp only [Matrix.mul_assoc]
      _ = _ := by rw [h2, Matrix.mul_one]; simp only [Matrix.mul_assoc]
  have tr : ∀ s : Fin b → ℝ, (Q * diagonal s * Qᵀ)ᵀ = Q * diagonal s * Qᵀ := fun s => by
    rw [transpose_mul, transpose_mul, transpose_transpose, diagonal_transpose, Matrix.mul_assoc]
  refine ⟨Q * diagonal (fun i => (S i)⁻¹) * Qᵀ, tr _, ?_, ?_, ?_⟩
  · rw [h1, key, key]
    congr 3
    ext i
    by_cases h : S i = 0
    · simp [h]
    · field_simp
  · rw [h1, key, key]
    congr 3
    ext i
    by_cases h : S i = 0
    · simp [h]
    · field_simp
  · rw [h1, key, tr]

/-- Every matrix has a pseudo-inverse. -/
theorem penrose_exists {a b : ℕ} (A : Matrix (Fin a) (Fin b) ℝ) : ∃ B, Penrose A B := by
  obtain ⟨H', h1, h2, h3, h4⟩ := penrose_symm (Aᵀ * A) (by rw [transpose_mul, transpose_transpose])
  have hA : A * (H' * (Aᵀ * A)) = A := by
    have h5 : Aᵀ * (A * (H' * (Aᵀ * A)) - A) = 0 := by
      rw [Matrix.mul_sub, sub_eq_zero]
      simpa only [Matrix.mul_assoc] using h2
    have h6 : (A * (H' * (Aᵀ * A)) - A)ᵀ * (A * (H' * (Aᵀ * A)) - A) = 0 := by
      have e : A * (H' * (Aᵀ * A)) - A = A * (H' * (Aᵀ * A) - 1) := by rw [Matrix.mul_sub, Matrix.mul_one]
      conv_lhs => rw [e, transpose_mul, Matrix.mul_assoc, ← e, h5, Matrix.mul_zero]
    have h7 : A * (H' * (Aᵀ * A)) - A = 0 := by
      generalize A * (H' * (Aᵀ * A)) - A = M at h6
      ext i j
      have h8 := congrFun (congrFun h6 j) j
      rw [mul_apply, Matrix.zero_apply] at h8
      simp only [transpose_apply] at h8
      exact mul_self_eq_zero.1 ((Finset.sum_eq_zero_iff_of_nonneg fun i _ => mul_self_nonneg _).1 h8 i (Finset.mem_univ i))
    exact sub_eq_zero.1 h7
  refine ⟨H' * Aᵀ, ?_, ?_, ?_, ?_⟩
  · simpa only [Matrix.mul_assoc] using hA
  · have := congrArg (· * Aᵀ) h3
    simpa only [Matrix.mul_assoc] using this
  · rw [transpose_mul, transpose_mul, transpose_transpose, h1, Matrix.mul_assoc]
  · simpa only [Matrix.mul_assoc] using h4

/-- The uniform parameter of subspaces.py:300; its rules are not used. -/
noncomputable def unitParam : MParam := ⟨jacobiRow 0 0 (-1) 1, some (-1), some 1, 0, fun _ _ => 0, fun _ => 0, fun _ => 1⟩

/-- A pseudo-inverse. -/
noncomputable def somePinv {a b : ℕ} (A : Matrix (Fin a) (Fin b) ℝ) : Matrix (Fin b) (Fin a) ℝ := (penrose_exists A).choose

/-- A problem with given samples and decomposition of the Jacobian. -/
noncomputable def fitWith (X : Matrix (Fin K) (Fin m) ℝ) (f : Fin K → ℝ) (p : ℕ) (sv : Matrix (Fin K) (Fin m × Fin n) ℝ →
    Matrix (Fin K) (Fin (min K (m * n))) ℝ × (Fin (min K (m * n)) → ℝ) × Matrix (Fin (min K (m * n))) (Fin m × Fin n) ℝ) : FitData K m n :=
  ⟨X, f, p, unitParam, somePinv, somePinv, id, sv, fun A => (A, 1, 1)⟩

theorem fitWith_ok (X : Matrix (Fin K) (Fin m) ℝ) (f : Fin K → ℝ) (p : ℕ) (sv) : FitOK (fitWith (n := n) X f p sv) where
  ab := rfl
  pinv := fun A => (penrose_exists A).choose_spec
  pinv' := fun A => (penrose_exists A).choose_spec
  orth := fun A _ => ⟨1, 1, by simp, by simp, by simp [fitWith]⟩
  svd := fun A => ⟨by simp [fitWith], by simp [fitWith]⟩

/-- One direction: more than `p` different projections determine the fit. -/
theorem determined_one (X : Matrix (Fin K) (Fin m) ℝ) (U : Matrix (Fin m) (Fin 1) ℝ) (p : ℕ)
    (h : p < (Finset.univ.image fun i => (X * U) i 0).card) : Spec.Determined X U p := by
  intro q hq h0
  have hd : (aeval (fun _ : Fin 1 => (Polynomial.X : Polynomial ℝ)) q).natDegree ≤ p := by
    rw [aeval_def, eval₂_eq]
    refine Polynomial.natDegree_sum_le_of_forall_le _ _ fun s hs => ?_
    refine (Polynomial.natDegree_C_mul_le _ _).trans ?_
    rw [Finset.prod_pow_eq_pow_sum, Polynomial.natDegree_X_pow]
    exact (le_totalDegree hs).trans hq
  have he : ∀ x : Fin 1 → ℝ, (aeval (fun _ : Fin 1 => (Polynomial.X : Polynomial ℝ)) q).eval (x 0) = eval x q := fun x => by
    generalize q = q'
    induction q' using MvPolynomial.induction_on with
    | C a => simp
    | add a b ha hb => rw [map_add, map_add, Polynomial.eval_add, ha, hb]
    | mul_X a k ha =>
      rw [map_mul, map_mul, Polynomial.eval_mul, ha, aeval_X, Polynomial.eval_X, eval_X, Subsingleton.elim k 0]
  have hz := Polynomial.eq_zero_of_natDegree_lt_card_of_eval_eq_zero' (aeval (fun _ : Fin 1 => (Polynomial.X : Polynomial ℝ)) q)
    (Finset.univ.image fun i => (X * U) i 0) (fun x hx => by
      obtain ⟨i, -, rfl⟩ := Finset.mem_image.1 hx
      rw [he ((X * U) i), h0]) (hd.trans_lt h)
  refine MvPolynomial.funext fun x => ?_
  rw [map_zero, ← he, hz, Polynomial.eval_zero]

/-- If a family of ridge functions along a path does better than the residual at its start, the subspace is not stationary. -/
theorem path_slope [NeZero K] {d : FitData K m n} (hO : FitOK d) (hn : 0 < n) (hp : 1 ≤ d.p) (U E : Matrix (Fin m) (Fin n) ℝ)
    (hU : Spec.Determined d.X U d.p) (e : ℝ → ℝ) (e' : ℝ) (he : HasDerivAt e e' 0) (h0 : e 0 = d.R U ^ 2)
    (q : ℝ → MvPolynomial (Fin n) ℝ) (hq : ∀ t, (q t).totalDegree ≤ d.p)
    (hle : ∀ t, ∑ i, (d.f i - eval ((d.X * (U + t • E)) i) (q t)) ^ 2 = e t) : vdot (d.G U) E = e' / 2 := by
  have hW : ∀ j k, HasDerivAt (fun t : ℝ => (U + t • E) j k) (E j k) 0 := fun j k => by
    simp only [Matrix.add_apply, Matrix.smul_apply, smul_eq_mul]
    refine (((hasDerivAt_id (0 : ℝ)).mul_const (E j k)).const_add (U j k)).congr_deriv ?_
    simp
  have hU0 : U + (0 : ℝ) • E = U := by rw [zero_smul, add_zero]
  have hR : ∀ W, d.R W ^ 2 = ∑ i, d.res W i ^ 2 := fun W => Real.sq_sqrt (by positivity)
  have hd : HasDerivAt (fun t : ℝ => d.R (U + t • E) ^ 2) (2 * vdot (d.G U) E) 0 := by
    simp only [hR]
    have h3 := fun i => (c136_jacobian hO hn hp _ E 0 hW (by rw [hU0]; exact hU) i).pow 2
    refine (HasDerivAt.fun_sum fun i _ => h3 i).congr_deriv ?_
    rw [hU0]
    simp only [vdot, FitData.G, Finset.sum_mul, Finset.mul_sum]
    rw [Finset.sum_comm]
    refine Finset.sum_congr rfl fun j _ => ?_
    rw [Finset.sum_comm]
    refine Finset.sum_congr rfl fun k _ => Finset.sum_congr rfl fun i _ => ?_
    norm_num
    ring
  have hmax : IsLocalMax (fun t : ℝ => d.R (U + t • E) ^ 2 - e t) 0 := by
    have hev := det_eventually hO hn hp _ E 0 hW (by rw [hU0]; exact hU)
    filter_upwards [hev] with t ht
    rw [hU0, h0, sub_self, sub_nonpos, ← hle t]
    have h4 := (c137_fit hO hn _ (spread_of_det hp ht)).2 ⟨q t, hq t, rfl⟩
    have h5 : 0 ≤ d.R (U + t • E) := Real.sqrt_nonneg _
    calc d.R (U + t • E) ^ 2 ≤ (√(∑ i, (d.f i - eval ((d.X * (U + t • E)) i) (q t)) ^ 2)) ^ 2 := pow_le_pow_left₀ h5 h4 2
      _ = _ := Real.sq_sqrt (by positivity)
  have := hmax.hasDerivAt_eq_zero (hd.fun_sub he)
  linarith

/-! ## One direction of two, four samples, degree one -/

/-- The corners of the unit square. -/
def dX : Matrix (Fin 4) (Fin 2) ℝ := Matrix.of ![![0, 0], ![1, 0], ![0, 1], ![1, 1]]

/-- The first axis. -/
def dU : Matrix (Fin 2) (Fin 1) ℝ := Matrix.of ![![1], ![0]]

/-- The second axis. -/
def dE : Matrix (Fin 2) (Fin 1) ℝ := Matrix.of ![![0], ![1]]

/-- A decomposition of a Jacobian whose first column vanishes. -/
noncomputable def dSvd (A : Matrix (Fin 4) (Fin 2 × Fin 1) ℝ) : Matrix (Fin 4) (Fin (min 4 (2 * 1))) ℝ × (Fin (min 4 (2 * 1)) → ℝ) ×
    Matrix (Fin (min 4 (2 * 1))) (Fin 2 × Fin 1) ℝ :=
  let s := √(∑ i, A i (1, 0) ^ 2)
  (Matrix.of fun i a => (if a.val = 0 then A i (1, 0) else ![-A 1 (1, 0), A 0 (1, 0), -A 3 (1, 0), A 2 (1, 0)] i) / s,
    fun a => if a.val = 0 then s else 0, Matrix.of fun a jk => if (a.val = 0 ↔ jk.1 = 1) then 1 else 0)

theorem dSvd_ok (A : Matrix (Fin 4) (Fin 2 × Fin 1) ℝ) (h0 : ∀ i, A i (0, 0) = 0) (h1 : ∃ i, A i (1, 0) ≠ 0) : SvdOK A (dSvd A) := by
  obtain ⟨i0, hi0⟩ := h1
  have hs : 0 < ∑ i, A i (1, 0) ^ 2 :=
    Finset.sum_pos' (fun i _ => sq_nonneg _) ⟨i0, Finset.mem_univ _, by positivity⟩
  have hsq := Real.sq_sqrt hs.le
  have hs0 := Real.sqrt_pos.2 hs
  generalize hS : √(∑ i, A i (1, 0) ^ 2) = s at hsq hs0
  rw [Fin.sum_univ_four] at hsq
  refine ⟨?_, ?_, ?_, ?_, ?_⟩
  · ext i ⟨j, k⟩
    rw [mul_apply]
    show A i (j, k) = ∑ a : Fin 2, _
    rw [Fin.sum_univ_two]
    simp only [dSvd, hS, mul_diagonal, of_apply]
    fin_cases k
    fin_cases j
    · simp [h0]
    · simp
      field_simp
  · ext a b
    rw [mul_apply, Fin.sum_univ_four]
    simp only [dSvd, hS, transpose_apply, of_apply]
    have ha := a.2
    have hb := b.2
    by_cases h1 : a.val = 0 <;> by_cases h2 : b.val = 0
    · have : a = b := Fin.ext (h1.trans h2.symm)
      subst this
      simp only [h1, if_true, one_apply_eq]
      field_simp
      linarith
    · have : a ≠ b := fun h => h2 (h ▸ h1)
      simp only [h1, h2, if_true, if_false, one_apply_ne this]
      simp
      field_simp
      ring
    · have : a ≠ b := fun h => h1 (h ▸ h2)
      simp only [h1, h2, if_true, if_false, one_apply_ne this]
      simp
      field_simp
      ring
    · have : a = b := Fin.ext (by omega)
      subst this
      simp only [h1, if_false, one_apply_eq]
      simp
      field_simp
      linarith
  · ext a b
    rw [mul_apply, Fintype.sum_prod_type, Fin.sum_univ_two]
    simp only [dSvd, transpose_apply, of_apply, Finset.univ_unique, Finset.sum_singleton]
    have ha := a.2
    have hb := b.2
    by_cases h1 : a.val = 0 <;> by_cases h2 : b.val = 0
    · have : a = b := Fin.ext (h1.trans h2.symm)
      subst this
      simp [h1]
    · have : a ≠ b := fun h => h2 (h ▸ h1)
      simp [h1, h2, one_apply_ne this]
    · have : a ≠ b := fun h => h1 (h ▸ h2)
      simp [h1, h2, one_apply_ne this]
    · have : a = b := Fin.ext (by omega)
      subst this
      simp [h1]
  · intro a
    simp only [dSvd, hS]
    split <;> linarith
  · intro a b hab
    simp only [dSvd, hS]
    have : a.val ≤ b.val := hab
    by_cases h1 : a.val = 0
    · rw [if_pos h1]
      split <;> linarith
    · rw [if_neg h1, if_neg (by omega)]

/-- The outputs `c (x₁ + x₂)`. -/
noncomputable def dFit (c : ℝ) : FitData 4 2 1 := fitWith dX (fun i => c * (dX i 0 + dX i 1)) 1 dSvd

theorem dFit_scale (b c : ℝ) : (dFit b).scale c = dFit (c * b) := by
  simp only [FitData.scale, dFit, fitWith, mul_assoc]

theorem dX_path (t : ℝ) (i : Fin 4) : (dX * (dU + t • dE)) i = fun _ => dX i 0 + t * dX i 1 := by
  ext k
  fin_cases k
  simp [mul_apply, Fin.sum_univ_two, dU, dE, mul_comm]

theorem dX_U (i : Fin 4) : (dX * dU) i = fun _ => dX i 0 := by
  have := dX_path 0 i
  simpa using this

theorem dFit_det (c : ℝ) : Spec.Determined (dFit c).X dU (dFit c).p := by
  refine determined_one dX dU 1 ?_
  have : ({0, 1} : Finset ℝ) ⊆ Finset.univ.image fun i => (dX * dU) i 0 := by
    intro x hx
    rw [Finset.mem_insert, Finset.mem_singleton] at hx
    rw [Finset.mem_image]
    rcases hx with rfl | rfl
    · exact ⟨0, Finset.mem_univ _, by rw [dX_U]; simp [dX]⟩
    · exact ⟨1, Finset.mem_univ _, by rw [dX_U]; simp [dX]⟩
  refine lt_of_lt_of_le ?_ (Finset.card_le_card this)
  rw [Finset.card_pair (by norm_num)]
  norm_num

theorem dFit_ok (c : ℝ) : FitOK (dFit c) := fitWith_ok _ _ _ _

/-- The line `c (y + (1 - t) / 2)`. -/
noncomputable def dQ (c t : ℝ) : MvPolynomial (Fin 1) ℝ := C c * X 0 + C (c * (1 - t) / 2)

theorem dQ_degree (c t : ℝ) : (dQ c t).totalDegree ≤ 1 := by
  refine (totalDegree_add _ _).trans (max_le ((totalDegree_mul _ _).trans ?_) ?_)
  · rw [totalDegree_C, totalDegree_X]
  · rw [totalDegree_C]
    omega

theorem dQ_error (c t : ℝ) : ∑ i, ((dFit c).f i - eval (((dFit c).X * (dU + t • dE)) i) (dQ c t)) ^ 2 = c ^ 2 * (1 - t) ^ 2 := by
  have : ∀ i, (dFit c).f i - eval (((dFit c).X * (dU + t • dE)) i) (dQ c t) =
      c * (dX i 0 + dX i 1) - (c * (dX i 0 + t * dX i 1) + c * (1 - t) / 2) := fun i => by
    have e : (dFit c).X = dX := rfl
    rw [e, dX_path]
    simp [dQ, dFit, fitWith]
  simp only [this]
  rw [Fin.sum_univ_four]
  simp [dX]
  ring

theorem dFit_R {c : ℝ} (hc : 0 ≤ c) : (dFit c).R dU = c := by
  obtain ⟨⟨q, hq, h1⟩, h2⟩ := c137_fit (dFit_ok c) one_pos dU (spread_of_det le_rfl (dFit_det c))
  have h1 : (dFit c).R dU = _ := h1
  apply le_antisymm
  · have h3 := h2 ⟨dQ c 0, dQ_degree c 0, rfl⟩
    have h4 := dQ_error c 0
    rw [zero_smul, add_zero] at h4
    rw [h4, sub_zero, one_pow, mul_one, Real.sqrt_sq hc] at h3
    exact h3
  · rw [h1]
    refine Real.le_sqrt_of_sq_le ?_
    have e : (dFit c).X = dX := rfl
    have e2 : (dFit c).f = fun i => c * (dX i 0 + dX i 1) := rfl
    rw [e, e2, Fin.sum_univ_four]
    simp only [dX_U]
    have v : dX 0 0 = 0 ∧ dX 0 1 = 0 ∧ dX 1 0 = 1 ∧ dX 1 1 = 0 ∧ dX 2 0 = 0 ∧ dX 2 1 = 1 ∧ dX 3 0 = 1 ∧ dX 3 1 = 1 := by
      simp [dX]
    obtain ⟨v1, v2, v3, v4, v5, v6, v7, v8⟩ := v
    rw [v1, v2, v3, v4, v5, v6, v7, v8]
    generalize eval (fun _ => (0 : ℝ)) q = a
    generalize eval (fun _ => (1 : ℝ)) q = b
    nlinarith [sq_nonneg (2 * a - c), sq_nonneg (2 * b - 3 * c)]

theorem dFit_slope {c : ℝ} (hc : 0 ≤ c) : vdot ((dFit c).G dU) dE = -c ^ 2 := by
  have h : HasDerivAt (fun t : ℝ => c ^ 2 * (1 - t) ^ 2) (-2 * c ^ 2) 0 := by
    refine ((((hasDerivAt_id (0 : ℝ)).const_sub 1).pow 2).const_mul (c ^ 2)).congr_deriv ?_
    simp
    ring
  have := path_slope (dFit_ok c) one_pos le_rfl dU dE (dFit_det c) _ _ h (by rw [dFit_R hc]; ring) (dQ c) (dQ_degree c) (dQ_error c)
  rw [this]
  ring

theorem dFit_G {c : ℝ} (hc : 0 < c) : (dFit c).vp.G dU ≠ 0 := by
  intro h
  have h1 := dFit_slope hc.le
  have h : (dFit c).G dU = 0 := h
  rw [h] at h1
  simp [vdot] at h1
  exact hc.ne' h1

theorem dFit_generic {c : ℝ} (hc : 0 < c) : FitGeneric (dFit c) dU := by
  have hg := gauge (dFit_ok c) one_pos le_rfl dU (dFit_det c) 1
  have h0 : ∀ i, (dFit c).vecJ dU i (0, 0) = 0 := fun i => by
    have := congrFun hg i
    rw [vecJ_vec, Fin.sum_univ_two] at this
    have e : (dFit c).J dU i 0 0 = 0 := by simpa [dU] using this
    exact e
  have h1 : ∃ i, (dFit c).vecJ dU i (1, 0) ≠ 0 := by
    by_contra hne
    push Not at hne
    have h2 := dFit_slope hc.le
    simp only [vdot, Fin.sum_univ_two] at h2
    simp [dE] at h2
    have h3 : (dFit c).G dU 1 0 = 0 := by
      simp only [FitData.G]
      exact Finset.sum_eq_zero fun i _ => by
        have : (dFit c).J dU i 1 0 = 0 := hne i
        rw [this, mul_zero]
    rw [h3] at h2
    have := pow_pos hc 2
    linarith
  refine ⟨dFit_ok c, one_pos, le_rfl, dFit_det c, by norm_num, dSvd_ok _ h0 h1, fun E hE => ?_⟩
  obtain ⟨i, hi⟩ := h1
  have h2 := hE i
  rw [Fin.sum_univ_two] at h2
  have h3 : (dFit c).J dU i 0 0 = 0 := h0 i
  simp only [Finset.univ_unique, Finset.sum_singleton, Fin.default_eq_zero] at h2
  rw [h3, zero_mul, zero_add] at h2
  have h4 : E 1 0 = 0 := (mul_eq_zero.1 h2).resolve_left hi
  refine ⟨Matrix.of ![![E 0 0]], ?_⟩
  ext j k
  fin_cases k
  fin_cases j
  · simp [dU, mul_apply]
  · simp [dU, mul_apply, h4]

/-- C136: the straight path towards the second axis. -/
example (i : Fin 4) : HasDerivAt (fun t : ℝ => (dFit 1).res (dU + t • dE) i) (∑ j, ∑ k, (dFit 1).J (dU + (0 : ℝ) • dE) i j k * dE j k) 0 :=
  c136_jacobian (dFit_ok 1) one_pos le_rfl (fun t : ℝ => dU + t • dE) dE 0 (fun j k => by
    simp only [Matrix.add_apply, Matrix.smul_apply, smul_eq_mul]
    refine (((hasDerivAt_id (0 : ℝ)).mul_const (dE j k)).const_add (dU j k)).congr_deriv ?_
    simp) (by simp only [zero_smul, add_zero]; exact dFit_det 1) i

/-- C137: the first axis, and the same axis with twice the length. -/
example : IsLeast (Spec.ridgeErrors (dFit 1).X (dFit 1).f (dFit 1).p dU) ((dFit 1).vp.resid dU) ∧
    (dFit 1).vp.resid (dU * Matrix.of ![![(2 : ℝ)]]) = (dFit 1).vp.resid dU := by
  have h := spread_of_det (d := dFit 1) le_rfl (dFit_det 1)
  have hB : Matrix.of ![![(2 : ℝ)]] * Matrix.of ![![(1 / 2 : ℝ)]] = 1 := by ext i j; fin_cases i; fin_cases j; simp [mul_apply]
  exact ⟨c137_fit (dFit_ok 1) one_pos dU h, c137_subspace (dFit_ok 1) one_pos dU _ _ hB h
    (spread_of_det le_rfl (det_basis (dFit_det 1) _ _ (mul_eq_one_comm.1 hB)))⟩

/-- C138: residual one, not stationary; and residual `10⁵`. -/
example : (dFit 1).vp.resid dU < 10 ^ 4 ∧ (dFit 1).vp.G dU ≠ 0 ∧ Spec.Determined (dFit 1).X dU (dFit 1).p :=
  ⟨by rw [show (dFit 1).vp.resid dU = 1 from dFit_R zero_le_one]; norm_num, dFit_G one_pos, dFit_det 1⟩

example : 10 ^ 4 < (dFit (10 ^ 5)).vp.resid dU ∧ (dFit (10 ^ 5)).vp.G dU ≠ 0 ∧ Spec.Determined (dFit (10 ^ 5)).X dU (dFit (10 ^ 5)).p :=
  ⟨by rw [show (dFit (10 ^ 5)).vp.resid dU = 10 ^ 5 from dFit_R (by positivity)]; norm_num, dFit_G (by positivity), dFit_det _⟩

example : ∃ c₀ > 0, ∀ c > c₀, ((dFit 1).scale c).vp.step dU = (dFit 1).orth ((dFit 1).curve dU (((dFit 1).scale c).vp.newton dU) ((1/10)^11)) :=
  c138_units_violated (fun c hc => by rw [dFit_scale, mul_one]; exact dFit_generic hc) (dFit_generic one_pos) (dFit_G one_pos)

/-- C139. -/
example : FitGeneric (dFit 1) dU ∧ (dFit 1).vp.G dU ≠ 0 := ⟨dFit_generic one_pos, dFit_G one_pos⟩

/-! ## Two directions of three, four samples, degree one -/

theorem line_zero {l : ℕ} (q : MvPolynomial (Fin l) ℝ) (hq : q.totalDegree ≤ 1) (a b : Fin l → ℝ) (ha : eval a q = 0) (hb : eval b q = 0) (t : ℝ) :
    eval (fun k => (b k - a k) * t + a k) q = 0 := by
  have h := determined_one (Matrix.of ![![(0 : ℝ)], ![1]]) (Matrix.of ![![(1 : ℝ)]]) 1 (by
    have : ({0, 1} : Finset ℝ) ⊆ Finset.univ.image fun i => (Matrix.of ![![(0 : ℝ)], ![1]] * Matrix.of ![![(1 : ℝ)]]) i 0 := by
      intro x hx
      rw [Finset.mem_insert, Finset.mem_singleton] at hx
      rw [Finset.mem_image]
      rcases hx with rfl | rfl
      · exact ⟨0, Finset.mem_univ _, by simp [mul_apply]⟩
      · exact ⟨1, Finset.mem_univ _, by simp [mul_apply]⟩
    refine lt_of_lt_of_le ?_ (Finset.card_le_card this)
    rw [Finset.card_pair (by norm_num)]
    norm_num)
  have hd : ∀ k, (C (b k - a k) * X 0 + C (a k) : MvPolynomial (Fin 1) ℝ).totalDegree ≤ 1 := fun k => by
    refine (totalDegree_add _ _).trans (max_le ((totalDegree_mul _ _).trans ?_) ?_)
    · rw [totalDegree_C, totalDegree_X]
    · rw [totalDegree_C]
      omega
  have h1 := h (bind₁ (fun k => C (b k - a k) * X 0 + C (a k)) q) ((bind_degree _ hd q).trans hq) fun i => by
    rw [eval_bind]
    fin_cases i
    · simp [mul_apply]
      exact ha
    · simp [mul_apply]
      exact hb
  have h2 := congrArg (eval fun _ => t) h1
  rw [eval_bind, map_zero] at h2
  simpa using h2

theorem zero_three (q : MvPolynomial (Fin 2) ℝ) (hq : q.totalDegree ≤ 1) (h0 : eval ![0, 0] q = 0) (h1 : eval ![1, 0] q = 0)
    (h2 : eval ![0, 1] q = 0) : q = 0 := by
  refine MvPolynomial.funext fun x => ?_
  have e1 := line_zero q hq _ _ h0 h1 (2 * x 0)
  have e2 := line_zero q hq _ _ h0 h2 (2 * x 1)
  have e3 := line_zero q hq _ _ e1 e2 (1 / 2)
  rw [map_zero, ← e3]
  congr 1
  congr 1
  ext k
  fin_cases k <;> simp <;> ring

theorem affine_three (q : MvPolynomial (Fin 2) ℝ) (hq : q.totalDegree ≤ 1) :
    eval ![1, 1] q = eval ![1, 0] q + eval ![0, 1] q - eval ![0, 0] q := by
  have hd : ∀ (c : ℝ) (k : Fin 2), (C c * X k : MvPolynomial (Fin 2) ℝ).totalDegree ≤ 1 := fun c k => by
    refine (totalDegree_mul _ _).trans ?_
    rw [totalDegree_C, totalDegree_X]
  have h := zero_three (q - (C (eval ![1, 0] q - eval ![0, 0] q) * X 0 + C (eval ![0, 1] q - eval ![0, 0] q) * X 1 + C (eval ![0, 0] q))) (by
    refine (totalDegree_sub _ _).trans (max_le hq ((totalDegree_add _ _).trans (max_le ((totalDegree_add _ _).trans
      (max_le (hd _ _) (hd _ _))) ?_)))
    rw [totalDegree_C]
    omega) (by simp) (by simp) (by simp)
  have h1 := congrArg (eval ![1, 1]) h
  simp at h1
  linarith

/-- Four samples in three dimensions. -/
def wX : Matrix (Fin 4) (Fin 3) ℝ := Matrix.of ![![0, 0, 1], ![1, 0, -1], ![0, 1, -1], ![1, 1, 1]]

/-- The first two axes. -/
def wU : Matrix (Fin 3) (Fin 2) ℝ := Matrix.of ![![1, 0], ![0, 1], ![0, 0]]

/-- The first direction turned towards the third axis. -/
def wE : Matrix (Fin 3) (Fin 2) ℝ := Matrix.of ![![0, 0], ![0, 0], ![1, 0]]

/-- The outputs `x₁ + x₃`. -/
noncomputable def wFit : FitData 4 3 2 := fitWith wX (fun i => wX i 0 + wX i 2) 1 fun _ => (0, 0, 0)

theorem wX_path (t : ℝ) (i : Fin 4) : (wX * (wU + t • wE)) i = ![wX i 0 + t * wX i 2, wX i 1] := by
  ext k
  fin_cases k <;> simp [mul_apply, Fin.sum_univ_three, wU, wE, mul_comm]

theorem wX_U : (wX * wU) 0 = ![0, 0] ∧ (wX * wU) 1 = ![1, 0] ∧ (wX * wU) 2 = ![0, 1] ∧ (wX * wU) 3 = ![1, 1] := by
  have h : ∀ i, (wX * wU) i = ![wX i 0, wX i 1] := fun i => by simpa using wX_path 0 i
  simp only [h]
  simp [wX]

theorem wFit_det : Spec.Determined wFit.X wU wFit.p := by
  intro q hq h
  obtain ⟨e0, e1, e2, -⟩ := wX_U
  have e : wFit.X = wX := rfl
  rw [e] at h
  exact zero_three q hq (by rw [← e0]; exact h 0) (by rw [← e1]; exact h 1) (by rw [← e2]; exact h 2)

theorem wFit_error (t : ℝ) : ∑ i, (wFit.f i - eval ((wFit.X * (wU + t • wE)) i) (X 0)) ^ 2 = 4 * (1 - t) ^ 2 := by
  have : ∀ i, wFit.f i - eval ((wFit.X * (wU + t • wE)) i) (X 0) = wX i 0 + wX i 2 - (wX i 0 + t * wX i 2) := fun i => by
    have e : wFit.X = wX := rfl
    rw [e, wX_path]
    simp [wFit, fitWith]
  simp only [this]
  rw [Fin.sum_univ_four]
  simp [wX]
  ring

theorem wFit_R : wFit.R wU ^ 2 = 4 := by
  have h0 : 0 ≤ wFit.R wU := Real.sqrt_nonneg _
  obtain ⟨⟨q, hq, h1⟩, h2⟩ := c137_fit (d := wFit) (fitWith_ok _ _ _ _) two_pos wU (spread_of_det le_rfl wFit_det)
  have h1 : wFit.R wU = _ := h1
  apply le_antisymm
  · have h3 := h2 ⟨X 0, by rw [totalDegree_X]; rfl, rfl⟩
    have h4 := wFit_error 0
    rw [zero_smul, add_zero] at h4
    have h5 : wFit.R wU ≤ √(∑ i, (wFit.f i - eval ((wFit.X * wU) i) (X 0)) ^ 2) := h3
    rw [h4] at h5
    calc wFit.R wU ^ 2 ≤ (√(4 * (1 - 0) ^ 2)) ^ 2 := pow_le_pow_left₀ h0 h5 2
      _ = 4 := by rw [Real.sq_sqrt (by norm_num)]; norm_num
  · rw [h1, Real.sq_sqrt (by positivity)]
    obtain ⟨e0, e1, e2, e3⟩ := wX_U
    have e : wFit.X = wX := rfl
    have ef : wFit.f = fun i => wX i 0 + wX i 2 := rfl
    rw [Fin.sum_univ_four, e, ef, e0, e1, e2, e3, affine_three q hq]
    have v : wX 0 0 + wX 0 2 = 1 ∧ wX 1 0 + wX 1 2 = 0 ∧ wX 2 0 + wX 2 2 = -1 ∧ wX 3 0 + wX 3 2 = 2 := by
      simp [wX]
      norm_num
    obtain ⟨v0, v1, v2, v3⟩ := v
    simp only [v0, v1, v2, v3]
    generalize eval ![(0 : ℝ), 0] q = a
    generalize eval ![(1 : ℝ), 0] q = b
    generalize eval ![(0 : ℝ), 1] q = c
    nlinarith [sq_nonneg ((1 - a) + (0 - b)), sq_nonneg ((1 - a) + (-1 - c)), sq_nonneg ((1 - a) - (2 - (b + c - a))),
      sq_nonneg ((0 - b) - (-1 - c)), sq_nonneg ((0 - b) + (2 - (b + c - a))), sq_nonneg ((-1 - c) + (2 - (b + c - a)))]

/-- C139, few samples: two directions, four samples, not stationary. -/
example : (4 : ℕ) ≤ 2 ^ 2 ∧ wFit.vp.G wU ≠ 0 := by
  refine ⟨by norm_num, fun h => ?_⟩
  have hd : HasDerivAt (fun t : ℝ => 4 * (1 - t) ^ 2) (-8) 0 := by
    refine ((((hasDerivAt_id (0 : ℝ)).const_sub 1).pow 2).const_mul 4).congr_deriv ?_
    simp
    norm_num
  have h1 := path_slope (d := wFit) (fitWith_ok _ _ _ _) two_pos le_rfl wU wE wFit_det _ _ hd (by rw [wFit_R]; norm_num)
    (fun _ => X 0) (fun _ => by rw [totalDegree_X]; rfl) wFit_error
  have h : wFit.G wU = 0 := h
  rw [h] at h1
  simp [vdot] at h1
  norm_num at h1

end EQ.Sub
