import Verif.Poly.Band
import Verif.Data.Props
import Mathlib.Probability.Moments.Variance
import Mathlib.Probability.Distributions.Gaussian.Real

/-!
# Properties of uncertainty bands and scores: C126, C127, C128
-/

namespace EQ.Poly
open EQ.Basis Matrix ProbabilityTheory MeasureTheory

variable {X : Type} {M N : ℕ}

/-- The contract of `np.linalg.cholesky`: positive definite matrices are factorised. -/
def CholContract (chol : Matrix (Fin N) (Fin N) ℝ → Option (Matrix (Fin N) (Fin N) ℝ)) : Prop :=
  ∀ S, S.PosDef → ∃ L, chol S = some L ∧ L * Lᵀ = S

theorem posDef_ridge (A : Matrix (Fin M) (Fin N) ℝ) : (Aᵀ * A + (1 / 10 ^ 10 : ℝ) • (1 : Matrix (Fin N) (Fin N) ℝ)).PosDef := by
  have h1 : (Aᵀ * A).PosSemidef := by
    have := posSemidef_conjTranspose_mul_self A
    rwa [conjTranspose_eq_transpose_of_trivial] at this
  exact PosDef.posSemidef_add h1 (PosDef.smul PosDef.one (by norm_num))

theorem cholInv_ok (chol : Matrix (Fin N) (Fin N) ℝ → Option (Matrix (Fin N) (Fin N) ℝ)) (hchol : CholContract chol)
    (A : Matrix (Fin M) (Fin N) ℝ) :
    cholInv chol (Aᵀ * A) = .ok (Aᵀ * A + (1 / 10 ^ 10 : ℝ) • 1)⁻¹ := by
  obtain ⟨L, h1, h2⟩ := hchol _ (posDef_ridge A)
  unfold cholInv
  rw [h1]
  simp only
  rw [← h2, Matrix.mul_inv_rev, transpose_nonsing_inv]

theorem quadForm_diag (Q : Matrix (Fin N) (Fin M) ℝ) (v : Fin M → ℝ) (p : Fin N → ℝ) :
    p ⬝ᵥ (Q * diagonal v * Qᵀ) *ᵥ p = ∑ j, v j * (p ᵥ* Q) j ^ 2 := by
  rw [dotProduct_mulVec, ← vecMul_vecMul, ← vecMul_vecMul, ← dotProduct_mulVec, mulVec_transpose]
  simp only [dotProduct, vecMul_diagonal]
  exact Finset.sum_congr rfl fun j _ => by ring

/-- The coefficients of regularised weighted least squares solve the normal equations; `est y` are the coefficients for the
outputs `y`. -/
def RidgeFit (φ : X → Fin N → ℝ) (s : Fitted X M) (est : (Fin M → ℝ) → Fin N → ℝ) : Prop :=
  ∀ y k, ∑ i, s.weights i * φ (s.points i) k * (∑ l, φ (s.points i) l * est y l - y i) + 1 / 10 ^ 10 * est y k = 0

theorem ridge_iff (φ : X → Fin N → ℝ) (s : Fitted X M) (hw : ∀ i, 0 ≤ s.weights i) (est : (Fin M → ℝ) → Fin N → ℝ) :
    RidgeFit φ s est ↔ ∀ y, ((s.design φ)ᵀ * s.design φ + (1 / 10 ^ 10 : ℝ) • 1) *ᵥ est y =
      (s.design φ)ᵀ *ᵥ fun i => √(s.weights i) * y i := by
  refine forall_congr' fun y => ?_
  rw [funext_iff]
  refine forall_congr' fun k => ?_
  rw [add_mulVec, smul_mulVec, one_mulVec, ← mulVec_mulVec]
  simp only [Pi.add_apply, Pi.smul_apply, smul_eq_mul, mulVec, dotProduct, transpose_apply, Fitted.design]
  have e1 : ∀ i, √(s.weights i) * φ (s.points i) k * ∑ l, √(s.weights i) * φ (s.points i) l * est y l =
      s.weights i * φ (s.points i) k * ∑ l, φ (s.points i) l * est y l := by
    intro i
    rw [Finset.mul_sum, Finset.mul_sum]
    refine Finset.sum_congr rfl fun l _ => ?_
    nth_rewrite 3 [← Real.mul_self_sqrt (hw i)]
    ring
  have e2 : ∀ i, √(s.weights i) * φ (s.points i) k * (√(s.weights i) * y i) = s.weights i * φ (s.points i) k * y i := by
    intro i
    nth_rewrite 3 [← Real.mul_self_sqrt (hw i)]
    ring
  simp only [e1, e2, mul_sub, Finset.sum_sub_distrib]
  constructor <;> intro h <;> linarith

theorem ridge_eq (φ : X → Fin N → ℝ) (s : Fitted X M) (hw : ∀ i, 0 ≤ s.weights i) (est : (Fin M → ℝ) → Fin N → ℝ)
    (h : RidgeFit φ s est) (y : Fin M → ℝ) :
    est y = ((s.design φ)ᵀ * s.design φ + (1 / 10 ^ 10 : ℝ) • 1)⁻¹ *ᵥ ((s.design φ)ᵀ *ᵥ fun i => √(s.weights i) * y i) := by
  have hdet := (isUnit_iff_isUnit_det _).1 (posDef_ridge (s.design φ)).isUnit
  rw [← (ridge_iff φ s hw est).1 h y, mulVec_mulVec, nonsing_inv_mul _ hdet, one_mulVec]

/-- Regularised least squares has a solution for every design. -/
theorem ridge_exists (φ : X → Fin N → ℝ) (s : Fitted X M) (hw : ∀ i, 0 ≤ s.weights i) : ∃ est, RidgeFit φ s est := by
  have hdet := (isUnit_iff_isUnit_det _).1 (posDef_ridge (s.design φ)).isUnit
  refine ⟨fun y => ((s.design φ)ᵀ * s.design φ + (1 / 10 ^ 10 : ℝ) • 1)⁻¹ *ᵥ ((s.design φ)ᵀ *ᵥ fun i => √(s.weights i) * y i),
    (ridge_iff φ s hw _).2 fun y => ?_⟩
  rw [mulVec_mulVec, mul_nonsing_inv _ hdet, one_mulVec]

/-- The variance of a linear function of outputs with independent errors. -/
theorem variance_linear {Ω : Type} [MeasurableSpace Ω] (μ : Measure Ω) [IsProbabilityMeasure μ] (e : Fin M → Ω → ℝ)
    (he : ∀ j, MemLp (e j) 2 μ) (hi : Pairwise fun i j => IndepFun (e i) (e j) μ) (v y a : Fin M → ℝ)
    (hv : ∀ j, Var[e j; μ] = v j) :
    Var[fun ω => ∑ j, a j * (y j + e j ω); μ] = ∑ j, a j ^ 2 * v j := by
  have h1 : (fun ω => ∑ j, a j * (y j + e j ω)) = fun ω => (∑ j, fun ω => a j * e j ω) ω + ∑ j, a j * y j := by
    funext ω
    rw [Finset.sum_apply, ← Finset.sum_add_distrib]
    exact Finset.sum_congr rfl fun j _ => by ring
  have hm : ∀ j, MemLp (fun ω => a j * e j ω) 2 μ := fun j => (he j).const_mul (a j)
  have hms : MemLp (∑ j, fun ω => a j * e j ω) 2 μ := memLp_finsetSum' _ fun j _ => hm j
  rw [h1, variance_add_const hms.aestronglyMeasurable, IndepFun.variance_sum fun j _ => hm j]
  · refine Finset.sum_congr rfl fun j _ => ?_
    rw [variance_const_mul, hv]
  · intro i _ j _ hij
    exact (hi hij).comp (measurable_const_mul (a i)) (measurable_const_mul (a j))

theorem polystd_eq (chol : Matrix (Fin N) (Fin N) ℝ → Option (Matrix (Fin N) (Fin N) ℝ)) (hchol : CholContract chol)
    (φ : X → Fin N → ℝ) (c : Fin N → ℝ) (s : Fitted X M) (v : Fin M → ℝ) (hv : s.dataVariance φ c = .ok v) (stack : List X) :
    s.polystd chol φ c stack = .ok (stack.map fun x => (1.96 : ℝ) * √(∑ j, v j *
      (φ x ᵥ* (((s.design φ)ᵀ * s.design φ + (1 / 10 ^ 10 : ℝ) • 1)⁻¹ * (s.design φ)ᵀ)) j ^ 2)) := by
  unfold Fitted.polystd
  simp only [hv, cholInv_ok chol hchol]
  simp only [quadForm_diag]

/-- C126 (partial). The band exists for every design, even a rank-deficient one, and is never negative. For errors of the
outputs that are independent with the variances used, the band is at least 1.96 standard deviations of the prediction of
regularised weighted least squares; for equal weights it is exactly `1.96 √M` of them. Missing: the documentation says that the
band is one standard deviation (see `c126_band_violated`). -/
theorem c126_band_partial (chol : Matrix (Fin N) (Fin N) ℝ → Option (Matrix (Fin N) (Fin N) ℝ)) (hchol : CholContract chol)
    (φ : X → Fin N → ℝ) (c : Fin N → ℝ) (s : Fitted X M) (v : Fin M → ℝ) (hv : s.dataVariance φ c = .ok v)
    (hw : ∀ i, 0 ≤ s.weights i) (hw1 : ∑ i, s.weights i = 1) (est : (Fin M → ℝ) → Fin N → ℝ) (hest : RidgeFit φ s est)
    (stack : List X) :
    ∃ band : X → ℝ, s.polystd chol φ c stack = .ok (stack.map band) ∧ (∀ x, 0 ≤ band x) ∧
      ∀ (Ω : Type) [MeasurableSpace Ω] (μ : Measure Ω) [IsProbabilityMeasure μ] (e : Fin M → Ω → ℝ) (y : Fin M → ℝ),
        (∀ j, MemLp (e j) 2 μ) → (Pairwise fun i j => IndepFun (e i) (e j) μ) → (∀ j, Var[e j; μ] = v j) → ∀ x,
          1.96 * √(Var[fun ω => ∑ k, φ x k * est (fun j => y j + e j ω) k; μ]) ≤ band x ∧
          ((∀ i, s.weights i = 1 / M) →
            band x = 1.96 * √M * √(Var[fun ω => ∑ k, φ x k * est (fun j => y j + e j ω) k; μ])) := by
  refine ⟨_, polystd_eq chol hchol φ c s v hv stack, fun x => by positivity, ?_⟩
  intro Ω _ μ _ e y he hi hve x
  set R := ((s.design φ)ᵀ * s.design φ + (1 / 10 ^ 10 : ℝ) • 1)⁻¹ with hR
  set q := φ x ᵥ* (R * (s.design φ)ᵀ) with hq
  have hpred : (fun ω => ∑ k, φ x k * est (fun j => y j + e j ω) k) =
      fun ω => ∑ j, (√(s.weights j) * q j) * (y j + e j ω) := by
    funext ω
    have h2 := ridge_eq φ s hw est hest fun j => y j + e j ω
    have : ∑ k, φ x k * est (fun j => y j + e j ω) k = φ x ⬝ᵥ est (fun j => y j + e j ω) := rfl
    rw [this, h2, ← hR, mulVec_mulVec, dotProduct_mulVec, ← hq]
    exact Finset.sum_congr rfl fun j _ => by ring
  have hv0 : ∀ j, 0 ≤ v j := fun j => hve j ▸ variance_nonneg _ _
  have hvar : Var[fun ω => ∑ k, φ x k * est (fun j => y j + e j ω) k; μ] = ∑ j, s.weights j * (v j * q j ^ 2) := by
    rw [hpred, variance_linear μ e he hi v y _ hve]
    refine Finset.sum_congr rfl fun j _ => ?_
    rw [mul_pow, Real.sq_sqrt (hw j)]
    ring
  rw [hvar]
  constructor
  · refine mul_le_mul_of_nonneg_left (Real.sqrt_le_sqrt (Finset.sum_le_sum fun j _ => ?_)) (by norm_num)
    have hj1 : s.weights j ≤ 1 := hw1 ▸ Finset.single_le_sum (fun i _ => hw i) (Finset.mem_univ j)
    have := mul_nonneg (hv0 j) (sq_nonneg (q j))
    nlinarith
  · intro heq
    have hM : (M : ℝ) ≠ 0 := by
      intro h0
      have : M = 0 := by exact_mod_cast h0
      subst this
      simp at hw1
    simp only [heq]
    rw [← Finset.mul_sum, mul_assoc, ← Real.sqrt_mul (by positivity), one_div, mul_inv_cancel_left₀ hM]

/-- C126 (partial). If no variances are given and the fit passes through all outputs, all bands are zero. -/
theorem c126_interpolation_partial (chol : Matrix (Fin N) (Fin N) ℝ → Option (Matrix (Fin N) (Fin N) ℝ))
    (hchol : CholContract chol) (φ : X → Fin N → ℝ) (c : Fin N → ℝ) (s : Fitted X M) (y : Fin M → ℝ) (hin : s.inputs = true)
    (hout : s.outputs = some y) (hvar : s.variances = none) (hfit : ∀ i, ∑ k, φ (s.points i) k * c k = y i)
    (stack : List X) : s.polystd chol φ c stack = .ok (stack.map fun _ => 0) := by
  have hv : s.dataVariance φ c = .ok fun _ => 0 := by
    unfold Fitted.dataVariance
    simp only [hvar, hin, hout, if_true]
    congr 1
    funext _
    have : ∀ i, y i - fitAt φ c (s.points i) = 0 := by
      intro i
      have : fitAt φ c (s.points i) = y i := hfit i
      rw [this, sub_self]
    simp [Data.mean, this]
  rw [polystd_eq chol hchol φ c s _ hv]
  simp

/-- C126 is violated: the band is not one standard deviation of the prediction, and it does not shrink when samples are added.
With the constant basis function, equal weights and data of variance `σ²` the fitted value is the mean of the outputs; its
standard deviation is `σ / √M` but the band is `1.96 σ / (1 + 1e-10)` for every number of samples. -/
theorem c126_band_violated (hM : 0 < M) (σ : ℝ) (hσ : 0 < σ) (chol : Matrix (Fin 1) (Fin 1) ℝ → Option (Matrix (Fin 1) (Fin 1) ℝ))
    (hchol : CholContract chol) (pts : Fin M → X) (y0 : Fin M → ℝ) (c : Fin 1 → ℝ) (x : X) :
    let s : Fitted X M := ⟨pts, fun _ => 1 / M, true, some y0, some (.scalar (σ ^ 2)), some y0⟩
    s.polystd chol (fun _ _ => 1) c [x] = .ok [1.96 * σ / (1 + 1 / 10 ^ 10)] ∧
      ∀ (Ω : Type) [MeasurableSpace Ω] (μ : Measure Ω) [IsProbabilityMeasure μ] (e : Fin M → Ω → ℝ) (y : Fin M → ℝ),
        (∀ j, MemLp (e j) 2 μ) → (Pairwise fun i j => IndepFun (e i) (e j) μ) → (∀ j, Var[e j; μ] = σ ^ 2) →
          √(Var[fun ω => (∑ j, (y j + e j ω)) / M; μ]) = σ / √M ∧
          √M * √(Var[fun ω => (∑ j, (y j + e j ω)) / M; μ]) < 1.96 * σ / (1 + 1 / 10 ^ 10) := by
  intro s
  have hM' : (0 : ℝ) < M := by exact_mod_cast hM
  constructor
  · rw [polystd_eq chol hchol _ c s (fun _ => σ ^ 2) rfl]
    simp only [List.map_cons, List.map_nil]
    have hd : ∀ i (k : Fin 1), s.design (fun _ _ => 1) i k = √(1 / M : ℝ) := by
      intro i k
      simp [Fitted.design, s]
    have hG : ((s.design fun _ _ => 1)ᵀ * s.design (fun _ _ => 1) + (1 / 10 ^ 10 : ℝ) • (1 : Matrix (Fin 1) (Fin 1) ℝ)) =
        diagonal fun _ => (1 + 1 / 10 ^ 10 : ℝ) := by
      ext a b
      have hab : a = b := Subsingleton.elim _ _
      subst hab
      simp only [Matrix.add_apply, Matrix.mul_apply, transpose_apply, Matrix.smul_apply, one_apply_eq, diagonal_apply_eq,
        smul_eq_mul, mul_one, hd]
      rw [Finset.sum_const, Finset.card_univ, Fintype.card_fin, Real.mul_self_sqrt (by positivity), nsmul_eq_mul]
      field_simp
    have hinv : (diagonal fun _ : Fin 1 => (1 + 1 / 10 ^ 10 : ℝ))⁻¹ = diagonal fun _ => (1 + 1 / 10 ^ 10 : ℝ)⁻¹ := by
      apply inv_eq_left_inv
      rw [diagonal_mul_diagonal]
      ext a b
      have hab : a = b := Subsingleton.elim _ _
      subst hab
      rw [diagonal_apply_eq, one_apply_eq, inv_mul_cancel₀ (by norm_num)]
    rw [hG, hinv]
    have hq : ∀ j, ((fun _ : Fin 1 => (1 : ℝ)) ᵥ* ((diagonal fun _ => (1 + 1 / 10 ^ 10 : ℝ)⁻¹) *
        (s.design fun _ _ => 1)ᵀ)) j = (1 + 1 / 10 ^ 10 : ℝ)⁻¹ * √(1 / M : ℝ) := by
      intro j
      simp [vecMul, dotProduct, diagonal_mul, hd]
    simp only [hq]
    rw [Finset.sum_const, Finset.card_univ, Fintype.card_fin, nsmul_eq_mul, mul_pow, Real.sq_sqrt (by positivity)]
    have : (M : ℝ) * (σ ^ 2 * ((1 + 1 / 10 ^ 10 : ℝ)⁻¹ ^ 2 * (1 / M))) = (σ / (1 + 1 / 10 ^ 10)) ^ 2 := by
      field_simp
    rw [this, Real.sqrt_sq (by positivity), mul_div_assoc]
  · intro Ω _ μ _ e y he hi hve
    have h1 : (fun ω => (∑ j, (y j + e j ω)) / M) = fun ω => ∑ j, (1 / M : ℝ) * (y j + e j ω) := by
      funext ω
      rw [← Finset.mul_sum]
      ring
    have h2 : √(Var[fun ω => (∑ j, (y j + e j ω)) / M; μ]) = σ / √M := by
      rw [h1, variance_linear μ e he hi _ y _ hve, Finset.sum_const, Finset.card_univ, Fintype.card_fin, nsmul_eq_mul]
      have : (M : ℝ) * ((1 / M) ^ 2 * σ ^ 2) = σ ^ 2 / M := by field_simp
      rw [this, Real.sqrt_div (by positivity), Real.sqrt_sq hσ.le]
    refine ⟨h2, ?_⟩
    rw [h2, mul_div_cancel₀ _ (by positivity), lt_div_iff₀ (by norm_num)]
    nlinarith

/-- A Cholesky contract can be met (for one coefficient, by the square root), the package's weights for the constant basis are
equal, and there are independent errors with a given positive variance. -/
example : CholContract (fun S : Matrix (Fin 1) (Fin 1) ℝ => some (Matrix.of fun _ _ => √(S 0 0))) ∧
    (∑ _i : Fin 4, (1 / (4 : ℕ) : ℝ)) = 1 ∧
    ∃ (Ω : Type) (_ : MeasurableSpace Ω) (μ : Measure Ω) (_ : IsProbabilityMeasure μ) (e : Fin 4 → Ω → ℝ),
      (∀ j, MemLp (e j) 2 μ) ∧ (Pairwise fun i j => IndepFun (e i) (e j) μ) ∧ ∀ j, Var[e j; μ] = (3 : ℝ) ^ 2 := by
  refine ⟨?_, by norm_num, ?_⟩
  · intro S hS
    refine ⟨_, rfl, ?_⟩
    ext a b
    obtain rfl : a = 0 := Subsingleton.elim _ _
    obtain rfl : b = 0 := Subsingleton.elim _ _
    have := hS.diag_pos (i := 0)
    simp only [Matrix.mul_apply, transpose_apply, of_apply, Finset.univ_unique, Finset.sum_singleton]
    exact Real.mul_self_sqrt this.le
  · refine ⟨Fin 4 → ℝ, inferInstance, Measure.pi fun _ => gaussianReal 0 9, inferInstance, fun j ω => ω j, ?_, ?_, ?_⟩
    · intro j
      exact (memLp_id_gaussianReal 2).comp_measurePreserving (measurePreserving_eval _ j)
    · have := iIndepFun_pi (μ := fun _ : Fin 4 => gaussianReal 0 9) (X := fun _ => id) fun _ => aemeasurable_id
      exact fun i j hij => this.indepFun hij
    · intro j
      have h := (measurePreserving_eval (fun _ : Fin 4 => gaussianReal 0 9) j)
      have h2 := variance_id_gaussianReal (μ := 0) (v := 9)
      rw [← h.map_eq, variance_map aemeasurable_id h.measurable.aemeasurable] at h2
      have : Var[fun ω : Fin 4 → ℝ => ω j; Measure.pi fun _ => gaussianReal 0 9] = (9 : ℝ) := h2
      rw [this]
      norm_num

/-! ## C127 -/

/-- C127 (partial). For a fitted object the bands are returned if and only if sample points were given together with sample
outputs or a single variance, or one variance per sample was given; the values are those of the fit. -/
theorem c127_available_partial (chol : Matrix (Fin N) (Fin N) ℝ → Option (Matrix (Fin N) (Fin N) ℝ)) (hchol : CholContract chol)
    (φ : X → Fin N → ℝ) (solve : SolverFun X M N) (s : Fitted X M) (y : Fin M → ℝ) (hy : s.evals = some y) (stack : List X) :
    (∃ b, s.polyfitUq chol φ solve stack =
        .ok (stack.map fun x => ∑ k, φ x k * solve s.points s.weights y k, b) ∧ b.length = stack.length) ↔
      (s.variances = none ∧ s.inputs = true ∧ s.outputs ≠ none) ∨ (∃ v, s.variances = some (.scalar v) ∧ s.inputs = true) ∨
        ∃ l, s.variances = some (.array l) ∧ l.length = M := by
  have main : ∀ v, s.dataVariance φ (solve s.points s.weights y) = .ok v →
      ∃ b, s.polyfitUq chol φ solve stack =
        .ok (stack.map fun x => ∑ k, φ x k * solve s.points s.weights y k, b) ∧ b.length = stack.length := by
    intro v hv
    have h := polystd_eq chol hchol φ _ s v hv stack
    unfold Fitted.polyfitUq Fitted.coefficients
    simp only [hy]
    rw [h]
    exact ⟨_, rfl, List.length_map _⟩
  have fail : ∀ e, s.dataVariance φ (solve s.points s.weights y) = .error e →
      ¬ ∃ b, s.polyfitUq chol φ solve stack =
        .ok (stack.map fun x => ∑ k, φ x k * solve s.points s.weights y k, b) ∧ b.length = stack.length := by
    rintro e he ⟨b, hb, _⟩
    unfold Fitted.polyfitUq Fitted.coefficients Fitted.polystd at hb
    simp only [hy, he] at hb
    cases hb
  unfold Fitted.dataVariance at main fail
  cases hv : s.variances with
  | none =>
    cases hi : s.inputs with
    | false => simp only [hv, hi, Bool.false_eq_true, if_false] at fail ⊢; simpa using fail _ rfl
    | true =>
      cases ho : s.outputs with
      | none => simp only [hv, hi, ho, if_true] at fail ⊢; simpa using fail _ rfl
      | some o => simp only [hv, hi, ho, if_true] at main ⊢; simpa using main _ rfl
  | some w =>
    cases w with
    | scalar w =>
      cases hi : s.inputs with
      | false => simp only [hv, hi, Bool.false_eq_true, if_false] at fail ⊢; simpa using fail _ rfl
      | true => simp only [hv, hi, if_true] at main ⊢; simpa using main _ rfl
    | array l =>
      by_cases hl : l.length = M
      · simp only [hv, hl, dif_pos] at main ⊢; simpa [hl] using main _ rfl
      · simp only [hv, hl, dif_neg, not_false_eq_true] at fail ⊢; simpa [hl] using fail _ rfl

/-- C127 is violated: `get_polyfit(stack, uq=True)` raises `AttributeError` for every object that was fitted on its own mesh,
whatever the model. -/
theorem c127_mesh_violated (chol : Matrix (Fin N) (Fin N) ℝ → Option (Matrix (Fin N) (Fin N) ℝ)) (φ : X → Fin N → ℝ)
    (solve : SolverFun X M N) (pts : Fin M → X) (w y : Fin M → ℝ) (stack : List X) :
    ∃ s, Fitted.setModel ⟨pts, w, false, none, none, none⟩ (some y) = .ok s ∧
      s.polyfitUq chol φ solve stack = .error .attributeError :=
  ⟨_, rfl, rfl⟩

/-- C127 is violated: if an output is NaN its sample is dropped but its variance is kept, and `get_polyfit(stack, uq=True)` raises
`ValueError`. -/
theorem c127_nan_violated {K : ℕ} (hK : K < M) (chol : Matrix (Fin N) (Fin N) ℝ → Option (Matrix (Fin N) (Fin N) ℝ))
    (φ : X → Fin N → ℝ) (solve : SolverFun X K N) (s : Fitted X M) (l : List ℝ) (hs : s.variances = some (.array l))
    (hl : l.length = M) (keep : Fin K → Fin M) (w : Fin K → ℝ) (y : Fin M → ℝ) (stack : List X) :
    (s.dropNan keep w y).polyfitUq chol φ solve stack = .error .valueError := by
  have : (s.dropNan keep w y).dataVariance φ (solve (s.points ∘ keep) w (y ∘ keep)) = .error .valueError := by
    unfold Fitted.dataVariance
    simp only [Fitted.dropNan, hs]
    rw [dif_neg (by omega)]
  unfold Fitted.polyfitUq Fitted.coefficients Fitted.polystd
  simp only [Fitted.dropNan] at this ⊢
  rw [this]

/-! ## C128 -/

/-- A history of successful `set_model` calls. -/
inductive Calls : Fitted X M → List (Option (Fin M → ℝ)) → Fitted X M → Prop where
  | nil (s) : Calls s [] s
  | snoc {s ms t m u} : Calls s ms t → t.setModel m = .ok u → Calls s (ms ++ [m]) u

theorem setModel_ok {s u : Fitted X M} {m : Option (Fin M → ℝ)} (h : s.setModel m = .ok u) :
    ∃ y, u = { s with evals := some y } ∧ (m = none → s.outputs = some y) := by
  rcases m with _ | y
  · cases ho : s.outputs with
    | none => simp [Fitted.setModel, ho] at h
    | some y =>
      simp only [Fitted.setModel, ho, Except.ok.injEq] at h
      exact ⟨y, by rw [← h], fun _ => rfl⟩
  · simp only [Fitted.setModel, Except.ok.injEq] at h
    exact ⟨y, h.symm, fun h => by cases h⟩

theorem Calls.fixed {s t : Fitted X M} {ms : List (Option (Fin M → ℝ))} (h : Calls s ms t) :
    t.outputs = s.outputs ∧ t.points = s.points ∧ t.weights = s.weights := by
  induction h with
  | nil => exact ⟨rfl, rfl, rfl⟩
  | snoc _ hs ih =>
    obtain ⟨y, rfl, _⟩ := setModel_ok hs
    exact ih

/-- C128 (partial). If the last of any number of `set_model` calls used the stored outputs, `get_polyscore` is the score of the
fit against the outputs it was fitted to; with test data the second score is that of the fit on the test data. Missing: fits of
values or functions passed to `set_model` (see the `violated` theorems). -/
theorem c128_score_partial (φ : X → Fin N → ℝ) (solve : SolverFun X M N) (s t : Fitted X M)
    (ms : List (Option (Fin M → ℝ))) (h : Calls s (ms ++ [none]) t) (d : ℕ) (metric : Data.Metric) :
    ∃ y, t.evals = some y ∧ s.outputs = some y ∧
      t.polyscore φ solve d metric none =
        (Data.score y (fun i => ∑ k, φ (s.points i) k * solve s.points s.weights y k) metric (some (M, d))).map
          (fun a => (a, none)) ∧
      ∀ (K : ℕ) (xt : Fin K → X) (yt : Fin K → ℝ) (a b : ℝ),
        Data.score y (fun i => ∑ k, φ (s.points i) k * solve s.points s.weights y k) metric (some (M, d)) = .ok a →
        Data.score yt (fun i => ∑ k, φ (xt i) k * solve s.points s.weights y k) metric (some (K, d)) = .ok b →
        t.polyscore φ solve d metric (some ⟨K, xt, yt⟩) = .ok (a, some b) := by
  obtain ⟨h1, h2, h3⟩ := h.fixed
  have key : ∀ (l : List (Option (Fin M → ℝ))) (t : Fitted X M), Calls s l t → l = ms ++ [none] →
      ∃ y, t.evals = some y ∧ t.outputs = some y := by
    intro l t h hl
    cases h with
    | nil => simp at hl
    | snoc hu hs =>
      rename_i m
      have : m = none := by
        have := congrArg List.getLast? hl
        simpa using this
      obtain ⟨y, rfl, hy⟩ := setModel_ok hs
      exact ⟨y, rfl, hy this⟩
  obtain ⟨y, hy, hyo⟩ := key _ t h rfl
  refine ⟨y, hy, h1 ▸ hyo, ?_, ?_⟩
  · unfold Fitted.polyscore Fitted.coefficients
    simp only [hy, hyo, h2, h3]
    cases hsc : Data.score y (fun i => fitAt φ (solve s.points s.weights y) (s.points i)) metric (some (M, d)) with
    | error e =>
      have : Data.score y (fun i => ∑ k, φ (s.points i) k * solve s.points s.weights y k) metric (some (M, d)) = .error e := hsc
      rw [this]; rfl
    | ok a =>
      have : Data.score y (fun i => ∑ k, φ (s.points i) k * solve s.points s.weights y k) metric (some (M, d)) = .ok a := hsc
      rw [this]; rfl
  · intro K xt yt a b ha hb
    unfold Fitted.polyscore Fitted.coefficients
    simp only [hy, hyo, h2, h3]
    have ha' : Data.score y (fun i => fitAt φ (solve s.points s.weights y) (s.points i)) metric (some (M, d)) = .ok a := ha
    have hb' : Data.score yt (fun i => fitAt φ (solve s.points s.weights y) (xt i)) metric (some (K, d)) = .ok b := hb
    simp only [ha', hb']

/-- C128 is violated: without sample outputs `get_polyscore` raises `AttributeError` after every history of fits. -/
theorem c128_score_violated (φ : X → Fin N → ℝ) (solve : SolverFun X M N) (s t : Fitted X M) (hs : s.outputs = none)
    (ms : List (Option (Fin M → ℝ))) (h : Calls s ms t) (d : ℕ) (metric : Data.Metric)
    (test : Option (Σ K, (Fin K → X) × (Fin K → ℝ))) :
    t.polyscore φ solve d metric test = .error .attributeError := by
  have ho := h.fixed.1
  unfold Fitted.polyscore Fitted.coefficients
  rw [ho, hs]
  cases t.evals <;> rfl

/-- C128 is violated: after a fit to new values the score still compares with the old outputs. If the solver interpolates, every
fit to values `y` is perfect on its own data, but the reported mean absolute error is that between `y` and the stored outputs,
and not zero if they differ. -/
theorem c128_stale_violated (hM : 0 < M) (φ : X → Fin N → ℝ) (solve : SolverFun X M N) (s : Fitted X M)
    (hint : ∀ y i, ∑ k, φ (s.points i) k * solve s.points s.weights y k = y i) (y0 y : Fin M → ℝ) (hs : s.outputs = some y0)
    (hne : y ≠ y0) (d : ℕ) :
    ∃ t e, s.setModel (some y) = .ok t ∧ t.polyscore φ solve d .mae none = .ok (e, none) ∧ 0 < e ∧
      Data.score y (fun i => ∑ k, φ (t.points i) k * solve t.points t.weights y k) .mae none = .ok 0 := by
  obtain ⟨m, _, h1, _, _, _, h0, _, hz, _⟩ := Data.c100_errors_partial hM y0 y (some (M, d))
  refine ⟨{ s with evals := some y }, m, rfl, ?_, lt_of_le_of_ne h0 fun h => hne (hz.1 h.symm), ?_⟩
  · unfold Fitted.polyscore Fitted.coefficients
    have : (fun i => fitAt φ (solve s.points s.weights y) (s.points i)) = y := funext fun i => hint y i
    simp only [hs, this, h1]
  · obtain ⟨m', _, h1', _, _, _, _, _, hz', _⟩ := Data.c100_errors_partial hM y y none
    have : (fun i => ∑ k, φ (s.points i) k * solve s.points s.weights y k) = y := funext fun i => hint y i
    simp only [this, h1', hz'.2 rfl]

/-- The constant and linear function through two points: a solver that interpolates, and a history that ends with the stored
outputs. -/
example : ∃ (φ : ℝ → Fin 2 → ℝ) (solve : SolverFun ℝ 2 2) (s t : Fitted ℝ 2) (y0 y : Fin 2 → ℝ),
    (∀ y i, ∑ k, φ (s.points i) k * solve s.points s.weights y k = y i) ∧ s.outputs = some y0 ∧ y ≠ y0 ∧
    Calls s ([some y] ++ [none]) t := by
  refine ⟨fun x => ![1, x], fun _ _ y => ![y 0, y 1 - y 0], ⟨![0, 1], fun _ => 1 / 2, true, some ![1, 2], none, none⟩,
    ⟨![0, 1], fun _ => 1 / 2, true, some ![1, 2], none, some ![1, 2]⟩, ![1, 2], ![5, 7], ?_, rfl, ?_, ?_⟩
  · intro y i
    fin_cases i <;> simp
  · intro h
    have := congrFun h 0
    norm_num at this
  · exact Calls.snoc (Calls.snoc (ms := []) (Calls.nil _) rfl) rfl

end EQ.Poly
