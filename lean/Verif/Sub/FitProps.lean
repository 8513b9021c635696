import Verif.Sub.FitProj
import Verif.Sub.VPProps
import Verif.Param.PearsonLemmas
import Mathlib.Analysis.Calculus.Deriv.MeanValue
import Mathlib.Analysis.SpecialFunctions.Sqrt
import Mathlib.Analysis.SpecialFunctions.Trigonometric.Deriv

/-!
# C136-C138: what variable projection minimises, its derivatives and its line search
-/

namespace EQ.Sub
open EQ.Basis EQ.Param EQ.Sampling EQ.Poly Matrix MvPolynomial
variable {K m n : ℕ}

namespace Spec

/-- The samples, projected on the directions `U`, determine the polynomials of total degree at most `p`. -/
def Determined (X : Matrix (Fin K) (Fin m) ℝ) (U : Matrix (Fin m) (Fin n) ℝ) (p : ℕ) : Prop :=
  ∀ q : MvPolynomial (Fin n) ℝ, q.totalDegree ≤ p → (∀ i, eval ((X * U) i) q = 0) → q = 0

/-- No direction is constant over the samples. -/
def Spread (X : Matrix (Fin K) (Fin m) ℝ) (U : Matrix (Fin m) (Fin n) ℝ) : Prop :=
  ∀ k, ∃ i i', (X * U) i k < (X * U) i' k

/-- The distances between the outputs and the ridge functions `q(Uᵀ x)` of total degree at most `p`. -/
def ridgeErrors (X : Matrix (Fin K) (Fin m) ℝ) (f : Fin K → ℝ) (p : ℕ) (U : Matrix (Fin m) (Fin n) ℝ) : Set ℝ :=
  {r | ∃ q : MvPolynomial (Fin n) ℝ, q.totalDegree ≤ p ∧ r = √(∑ i, (f i - eval ((X * U) i) q) ^ 2)}

end Spec

/-- What the routines of numpy and scipy promise, and the recurrence of the parameter of subspaces.py:300. -/
structure FitOK (d : FitData K m n) : Prop where
  ab : d.P.ab = jacobiRow 0 0 (-1) 1
  pinv : ∀ A, Penrose A (d.pinv A)
  pinv' : ∀ A, Penrose A (d.pinv' A)
  orth : ∀ A, (Aᵀ * A).det ≠ 0 → ∃ B B' : Matrix (Fin n) (Fin n) ℝ, B * B' = 1 ∧ B' * B = 1 ∧ d.orth A = A * B
  svd : ∀ A, A = (d.svd A).1 * diagonal (d.svd A).2.1 * (d.svd A).2.2 ∧ (d.svd A).2.2 * (d.svd A).2.2ᵀ = 1

section
variable [NeZero K] {d : FitData K m n}

theorem FitOK.pos (hO : FitOK d) (k : ℕ) (hk : 1 ≤ k) : 0 < (d.P.ab k).2 := by
  rw [hO.ab]
  exact jtab_pos (by norm_num) (by norm_num) (by norm_num) k hk

/-- The derivative of an entry of the Vandermonde matrix along a path of points. -/
theorem hasDeriv_vand (P : MParam) (hn : 0 < n) (p : ℕ) (Y : ℝ → Matrix (Fin K) (Fin n) ℝ) (Y' : Matrix (Fin K) (Fin n) ℝ) (t : ℝ)
    (hY : ∀ i k, HasDerivAt (fun t => Y t i k) (Y' i k) t) (i : Fin K) (r : Fin (fitElements n p).length) :
    HasDerivAt (fun t => vandermonde P p (Y t) i r) (∑ l, fitGrad P p (Y t) l i r * Y' i l) t := by
  simp only [vandermonde_apply P hn, fitGrad_apply P hn]
  refine (HasDerivAt.fun_finsetProd (u := Finset.univ) (f' := fun k : Fin n =>
    (Polynomial.derivative (opoly P.ab ((fitElements n p)[r].getD k 0))).eval (Y t i k) * Y' i k) fun k _ => ?_).congr_deriv ?_
  · exact (Polynomial.hasDerivAt _ _).comp t (hY i k)
  · refine Finset.sum_congr rfl fun l _ => ?_
    rw [smul_eq_mul, ← mul_assoc]
    congr 1
    rw [← Finset.mul_prod_erase _ _ (Finset.mem_univ l), if_pos rfl, mul_comm]
    congr 1
    refine Finset.prod_congr rfl fun k hk => ?_
    rw [if_neg (Finset.ne_of_mem_erase hk)]

/-- The projection does not depend on the affine transformation. -/
theorem proj_scale (hO : FitOK d) (hn : 0 < n) (lo hi lo' hi' : Fin n → ℝ) (h : ∀ k, lo k ≠ hi k) (h' : ∀ k, lo' k ≠ hi' k)
    (y : Matrix (Fin K) (Fin n) ℝ) :
    vandermonde d.P d.p (rescale lo hi y) * d.pinv (vandermonde d.P d.p (rescale lo hi y)) =
      vandermonde d.P d.p (rescale lo' hi' y) * d.pinv (vandermonde d.P d.p (rescale lo' hi' y)) := by
  refine proj_unique (hO.pinv _) (hO.pinv _) (fun c => ?_) fun c => ?_
  · exact (vand_range d.P hO.pos hn d.p lo hi h y _).2 ((vand_range d.P hO.pos hn d.p lo' hi' h' y _).1 ⟨c, rfl⟩)
  · exact (vand_range d.P hO.pos hn d.p lo' hi' h' y _).2 ((vand_range d.P hO.pos hn d.p lo hi h y _).1 ⟨c, rfl⟩)

/-- **C136.** The array that `jacobian_vp` returns is the exact derivative of the residual: along every differentiable path of
directions through `U`, whether or not its columns stay orthonormal, each residual of the fit changes at the rate that the array
gives. That the routine leaves out the derivative of the affine transformation makes no difference. -/
theorem c136_jacobian (hO : FitOK d) (hn : 0 < n) (hp : 1 ≤ d.p) (W : ℝ → Matrix (Fin m) (Fin n) ℝ) (E : Matrix (Fin m) (Fin n) ℝ)
    (t₀ : ℝ) (hW : ∀ j k, HasDerivAt (fun t => W t j k) (E j k) t₀) (hU : Spec.Determined d.X (W t₀) d.p) (i : Fin K) :
    HasDerivAt (fun t => d.res (W t) i) (∑ j, ∑ k, d.J (W t₀) i j k * E j k) t₀ := by
  have hne : ∀ {W : Matrix (Fin m) (Fin n) ℝ}, Spec.Determined d.X W d.p → ∀ k, lows (d.X * W) k ≠ highs (d.X * W) k :=
    fun h k => (det_spread hp h k).ne
  have hlh := hne hU
  have h20 : (2.0 : ℝ) = 2 := by norm_num
  have hXW : ∀ i k, HasDerivAt (fun t => (d.X * W t) i k) ((d.X * E) i k) t₀ := fun i k => by
    refine (hasDeriv_mul (A := fun _ => d.X) (A' := 0) (fun i j => hasDerivAt_const _ _) hW i k).congr_deriv ?_
    rw [Matrix.zero_mul, zero_add]
  have hY : ∀ i k, HasDerivAt (fun t => rescale (lows (d.X * W t₀)) (highs (d.X * W t₀)) (d.X * W t) i k)
      (2.0 / (highs (d.X * W t₀) k - lows (d.X * W t₀) k) * (d.X * E) i k) t₀ := fun i k => by
    simp only [rescale]
    refine ((((hXW i k).sub_const _).div_const _).const_mul 2 |>.sub_const 1).congr_deriv ?_
    rw [h20]
    ring
  have hA := hasDeriv_vand d.P hn d.p _ (Matrix.of fun i k => 2.0 / (highs (d.X * W t₀) k - lows (d.X * W t₀) k) * (d.X * E) i k) t₀ hY
  have hd := (det_iff d.P hO.pos hn d.p _ _ hlh (d.X * W t₀)).2 hU
  have hB := penrose_full (hO.pinv _) hd
  have hB' := penrose_full (hO.pinv' _) hd
  have hQ := hasDeriv_proj (D := Matrix.of fun i r => ∑ l, fitGrad d.P d.p (scaled d.X (W t₀)) l i r *
    (2.0 / (highs (d.X * W t₀) l - lows (d.X * W t₀) l) * (d.X * E) i l)) hA hd _ hB
  have hG : ∀ᶠ t in nhds t₀, ((vandermonde d.P d.p (rescale (lows (d.X * W t₀)) (highs (d.X * W t₀)) (d.X * W t)))ᵀ *
      vandermonde d.P d.p (rescale (lows (d.X * W t₀)) (highs (d.X * W t₀)) (d.X * W t))).det ≠ 0 :=
    (differentiable_det fun i j => (hasDeriv_mul (fun i j => hA j i) hA i j).differentiableAt).continuousAt.eventually_ne hd
  have hres : (fun t => d.res (W t) i) =ᶠ[nhds t₀] fun t => d.f i - ∑ k,
      (vandermonde d.P d.p (rescale (lows (d.X * W t₀)) (highs (d.X * W t₀)) (d.X * W t)) *
        (((vandermonde d.P d.p (rescale (lows (d.X * W t₀)) (highs (d.X * W t₀)) (d.X * W t)))ᵀ *
          vandermonde d.P d.p (rescale (lows (d.X * W t₀)) (highs (d.X * W t₀)) (d.X * W t)))⁻¹ *
        (vandermonde d.P d.p (rescale (lows (d.X * W t₀)) (highs (d.X * W t₀)) (d.X * W t)))ᵀ)) i k * d.f k := by
    filter_upwards [hG] with t ht
    have hdt : Spec.Determined d.X (W t) d.p := (det_iff d.P hO.pos hn d.p _ _ hlh (d.X * W t)).1 ht
    rw [← penrose_full (hO.pinv _) ht, proj_scale hO hn _ _ _ _ hlh (hne hdt)]
    simp only [FitData.res, FitData.V, scaled, Pi.sub_apply, mulVec_mulVec]
    rfl
  refine HasDerivAt.congr_of_eventuallyEq ?_ hres
  refine ((hasDerivAt_const t₀ (d.f i)).fun_sub (HasDerivAt.fun_sum fun k _ => (hQ i k).mul_const (d.f k))).congr_deriv ?_
  have hDV : (Matrix.of fun i r => ∑ l, fitGrad d.P d.p (scaled d.X (W t₀)) l i r *
      (2.0 / (highs (d.X * W t₀) l - lows (d.X * W t₀) l) * (d.X * E) i l)) = ∑ j, ∑ k, E j k • d.dV (W t₀) j k := by
    ext i r
    simp only [of_apply, Matrix.sum_apply, Matrix.smul_apply, smul_eq_mul, FitData.dV, Matrix.mul_apply, Finset.mul_sum, h20]
    rw [Finset.sum_comm]
    exact Finset.sum_congr rfl fun j _ => Finset.sum_congr rfl fun k _ => by ring
  rw [hDV]
  have e1 : d.pinv' (d.V (W t₀)) = d.pinv (d.V (W t₀)) := hB'.trans hB.symm
  have e2 : vandermonde d.P d.p (rescale (lows (d.X * W t₀)) (highs (d.X * W t₀)) (d.X * W t₀)) = d.V (W t₀) := rfl
  rw [e2]
  simp only [FitData.J, e1, zero_sub]
  have e3 : (1 - d.V (W t₀) * d.pinv (d.V (W t₀))) * (∑ j, ∑ k, E j k • d.dV (W t₀) j k) * d.pinv (d.V (W t₀)) =
      ∑ j, ∑ k, E j k • ((1 - d.V (W t₀) * d.pinv (d.V (W t₀))) * d.dV (W t₀) j k * d.pinv (d.V (W t₀))) := by
    simp only [Matrix.mul_sum, Matrix.sum_mul, Matrix.mul_smul, Matrix.smul_mul]
  rw [e3]
  simp only [mulVec, dotProduct, Matrix.add_apply, Matrix.transpose_apply, Matrix.sum_apply, Matrix.smul_apply, smul_eq_mul]
  rw [← Finset.sum_neg_distrib]
  simp only [← Finset.sum_add_distrib, ← Finset.sum_neg_distrib, neg_mul, Finset.sum_mul]
  rw [Finset.sum_comm]
  refine Finset.sum_congr rfl fun j _ => ?_
  rw [Finset.sum_comm]
  exact Finset.sum_congr rfl fun k _ => Finset.sum_congr rfl fun l _ => by ring

theorem spread_ne {y : Matrix (Fin K) (Fin n) ℝ} (h : ∀ k, ∃ i i', y i k < y i' k) (k : Fin n) : lows y k ≠ highs y k := by
  obtain ⟨i, i', hi⟩ := h k
  have h1 : lows y k ≤ y i k := Finset.inf'_le _ (Finset.mem_univ i)
  have h2 : y i' k ≤ highs y k := Finset.le_sup' (fun i => y i k) (Finset.mem_univ i')
  linarith

/-- **C137.** What variable projection minimises is the distance between the outputs and the best ridge function: whatever the
directions, as long as none of them is constant over the samples, the residual the routine works with is attained by a polynomial
of total degree at most `p` in the projections of the (unscaled) samples, and no such polynomial comes closer. -/
theorem c137_fit (hO : FitOK d) (hn : 0 < n) (U : Matrix (Fin m) (Fin n) ℝ) (hU : Spec.Spread d.X U) :
    IsLeast (Spec.ridgeErrors d.X d.f d.p U) (d.vp.resid U) := by
  constructor
  · obtain ⟨q, hq, h⟩ := (vand_range d.P hO.pos hn d.p _ _ (spread_ne hU) (d.X * U) _).1 ⟨d.pinv (d.V U) *ᵥ d.f, rfl⟩
    refine ⟨q, hq, ?_⟩
    simp only [FitData.vp, FitData.R, FitData.res, Pi.sub_apply]
    refine congrArg _ (Finset.sum_congr rfl fun i _ => ?_)
    rw [← h]
    rfl
  · rintro r ⟨q, hq, rfl⟩
    obtain ⟨c, hc⟩ := (vand_range d.P hO.pos hn d.p _ _ (spread_ne hU) (d.X * U) (fun i => eval ((d.X * U) i) q)).2 ⟨q, hq, fun i => rfl⟩
    have := proj_least (hO.pinv (d.V U)) d.f c
    refine Real.sqrt_le_sqrt (this.trans (le_of_eq (Finset.sum_congr rfl fun i _ => ?_)))
    have h2 := congrFun hc i
    rw [Pi.sub_apply, h2]
    rfl

/-- **C137, subspaces.** The residual depends on the directions only through the space they span: changing the basis of that space
does not change it. -/
theorem c137_subspace (hO : FitOK d) (hn : 0 < n) (U : Matrix (Fin m) (Fin n) ℝ) (B B' : Matrix (Fin n) (Fin n) ℝ) (hB : B * B' = 1)
    (hU : Spec.Spread d.X U) (hUB : Spec.Spread d.X (U * B)) : d.vp.resid (U * B) = d.vp.resid U := by
  have h1 := c137_fit hO hn _ hU
  have h2 := c137_fit hO hn _ hUB
  have e : Spec.ridgeErrors d.X d.f d.p (U * B) = Spec.ridgeErrors d.X d.f d.p U := by
    ext r
    constructor
    · rintro ⟨q, hq, rfl⟩
      obtain ⟨q', hq', h⟩ := (lin_range (p := d.p) (d.X * U) B B' hB (fun i => eval ((d.X * (U * B)) i) q)).1
        ⟨q, hq, fun i => by rw [Matrix.mul_assoc]⟩
      exact ⟨q', hq', congrArg _ (Finset.sum_congr rfl fun i _ => by rw [← h])⟩
    · rintro ⟨q, hq, rfl⟩
      obtain ⟨q', hq', h⟩ := (lin_range (p := d.p) (d.X * U) B B' hB (fun i => eval ((d.X * U) i) q)).2 ⟨q, hq, fun i => rfl⟩
      exact ⟨q', hq', congrArg _ (Finset.sum_congr rfl fun i _ => by rw [← Matrix.mul_assoc, ← h])⟩
  rw [e] at h2
  exact h2.unique h1

/-! ## The line search -/

theorem spread_of_det (hp : 1 ≤ d.p) {U : Matrix (Fin m) (Fin n) ℝ} (h : Spec.Determined d.X U d.p) : Spec.Spread d.X U := fun k => by
  have h1 := det_spread hp h k
  obtain ⟨i, -, hi⟩ := Finset.exists_mem_eq_inf' (s := Finset.univ) (Finset.univ_nonempty (α := Fin K)) fun i => (d.X * U) i k
  obtain ⟨i', -, hi'⟩ := Finset.exists_mem_eq_sup' (s := Finset.univ) (Finset.univ_nonempty (α := Fin K)) fun i => (d.X * U) i k
  refine ⟨i, i', ?_⟩
  rw [← hi, ← hi']
  exact h1

theorem det_basis {U : Matrix (Fin m) (Fin n) ℝ} (h : Spec.Determined d.X U d.p) (B B' : Matrix (Fin n) (Fin n) ℝ) (hB : B' * B = 1) :
    Spec.Determined d.X (U * B) d.p := by
  have := det_lin (y := d.X * U) h B B' hB
  rwa [Matrix.mul_assoc] at this

theorem det_rank (hp : 1 ≤ d.p) {U : Matrix (Fin m) (Fin n) ℝ} (h : Spec.Determined d.X U d.p) : (Uᵀ * U).det ≠ 0 := by
  refine gram_det.2 fun c hc => ?_
  have h1 := h (∑ k, c k • X k) ?_ fun i => ?_
  · ext k
    have h2 := congrArg (coeff (Finsupp.single k 1)) h1
    simp only [coeff_sum, coeff_smul, coeff_X', coeff_zero, smul_eq_mul, mul_ite, mul_one, mul_zero] at h2
    rw [Finset.sum_eq_single k] at h2
    · simpa using h2
    · intro b _ hb
      rw [if_neg]
      intro hs
      exact hb ((Finsupp.single_left_inj one_ne_zero).1 hs)
    · simp
  · exact (totalDegree_finsetSum_le fun k _ => (totalDegree_smul_le _ _).trans (by rw [totalDegree_X])).trans hp
  · simp only [map_sum, smul_eval, eval_X]
    have h3 : (d.X *ᵥ (U *ᵥ c)) i = 0 := by rw [hc, mulVec_zero, Pi.zero_apply]
    rw [mulVec_mulVec] at h3
    rw [← h3]
    simp only [mulVec, dotProduct]
    exact Finset.sum_congr rfl fun k _ => mul_comm _ _

theorem det_eventually (hO : FitOK d) (hn : 0 < n) (hp : 1 ≤ d.p) (W : ℝ → Matrix (Fin m) (Fin n) ℝ) (E : Matrix (Fin m) (Fin n) ℝ)
    (t₀ : ℝ) (hW : ∀ j k, HasDerivAt (fun t => W t j k) (E j k) t₀) (hU : Spec.Determined d.X (W t₀) d.p) :
    ∀ᶠ t in nhds t₀, Spec.Determined d.X (W t) d.p := by
  have hlh : ∀ k, lows (d.X * W t₀) k ≠ highs (d.X * W t₀) k := fun k => (det_spread hp hU k).ne
  have hXW : ∀ i k, HasDerivAt (fun t => (d.X * W t) i k) ((d.X * E) i k) t₀ := fun i k => by
    refine (hasDeriv_mul (A := fun _ => d.X) (A' := 0) (fun i j => hasDerivAt_const _ _) hW i k).congr_deriv ?_
    rw [Matrix.zero_mul, zero_add]
  have hY : ∀ i k, HasDerivAt (fun t => rescale (lows (d.X * W t₀)) (highs (d.X * W t₀)) (d.X * W t) i k)
      (2 * ((d.X * E) i k / (highs (d.X * W t₀) k - lows (d.X * W t₀) k))) t₀ := fun i k => by
    simp only [rescale]
    exact (((hXW i k).sub_const _).div_const _).const_mul 2 |>.sub_const 1
  have hA := hasDeriv_vand d.P hn d.p _ (Matrix.of fun i k =>
    2 * ((d.X * E) i k / (highs (d.X * W t₀) k - lows (d.X * W t₀) k))) t₀ hY
  have hd := (det_iff d.P hO.pos hn d.p _ _ hlh (d.X * W t₀)).2 hU
  have hG : ∀ᶠ t in nhds t₀, ((vandermonde d.P d.p (rescale (lows (d.X * W t₀)) (highs (d.X * W t₀)) (d.X * W t)))ᵀ *
      vandermonde d.P d.p (rescale (lows (d.X * W t₀)) (highs (d.X * W t₀)) (d.X * W t))).det ≠ 0 :=
    (differentiable_det fun i j => (hasDeriv_mul (fun i j => hA j i) hA i j).differentiableAt).continuousAt.eventually_ne hd
  filter_upwards [hG] with t ht
  exact (det_iff d.P hO.pos hn d.p _ _ hlh (d.X * W t)).1 ht

/-- The curve in the original coordinates: `U` and the direction at zero. -/
theorem curve_path (hO : FitOK d) (U delta : Matrix (Fin m) (Fin n) ℝ) :
    d.curve U delta 0 * (d.svd delta).2.2 = U ∧
      ∀ j k, HasDerivAt (fun t => (d.curve U delta t * (d.svd delta).2.2) j k) (delta j k) 0 := by
  obtain ⟨h1, h2⟩ := hO.svd delta
  have h2' := mul_eq_one_comm.1 h2
  have hD : ∀ (S : Fin n → ℝ), ∀ i j, HasDerivAt (fun t => diagonal (fun k => Real.cos (S k * t)) i j) ((0 : Matrix (Fin n) (Fin n) ℝ) i j) 0 := by
    intro S i j
    by_cases hij : i = j
    · subst hij
      simp only [diagonal_apply_eq]
      refine (((hasDerivAt_id (0 : ℝ)).const_mul (S i)).cos).congr_deriv ?_
      simp
    · simp only [diagonal_apply_ne _ hij]
      exact hasDerivAt_const _ _
  have hD' : ∀ (S : Fin n → ℝ), ∀ i j, HasDerivAt (fun t => diagonal (fun k => Real.sin (S k * t)) i j) (diagonal S i j) 0 := by
    intro S i j
    by_cases hij : i = j
    · subst hij
      simp only [diagonal_apply_eq]
      refine (((hasDerivAt_id (0 : ℝ)).const_mul (S i)).sin).congr_deriv ?_
      simp
    · simp only [diagonal_apply_ne _ hij]
      exact hasDerivAt_const _ _
  constructor
  · simp only [FitData.curve, mul_zero, Real.cos_zero, Real.sin_zero, diagonal_one, Matrix.mul_one]
    rw [show diagonal (fun _ : Fin n => (0 : ℝ)) = 0 from diagonal_zero, Matrix.mul_zero, add_zero, Matrix.mul_assoc, h2', Matrix.mul_one]
  · intro j k
    have c1 := hasDeriv_mul (A := fun _ => U * (d.svd delta).2.2ᵀ) (A' := 0) (fun i j => hasDerivAt_const _ _) (hD (d.svd delta).2.1)
    have c2 := hasDeriv_mul (A := fun _ => (d.svd delta).1) (A' := 0) (fun i j => hasDerivAt_const _ _) (hD' (d.svd delta).2.1)
    have c3 : ∀ i j, HasDerivAt (fun t => d.curve U delta t i j) (((d.svd delta).1 * diagonal (d.svd delta).2.1) i j) 0 := fun i j => by
      refine ((c1 i j).fun_add (c2 i j)).congr_deriv ?_
      simp
    refine (hasDeriv_mul (B := fun _ => (d.svd delta).2.2) (B' := 0) c3 (fun i j => hasDerivAt_const _ _) j k).congr_deriv ?_
    rw [Matrix.mul_zero, add_zero, ← h1]

/-- Near zero the residual along the curve is that of a differentiable path in the original coordinates. -/
theorem curve_resid (hO : FitOK d) (hn : 0 < n) (hp : 1 ≤ d.p) (U delta : Matrix (Fin m) (Fin n) ℝ) (hU : Spec.Determined d.X U d.p) :
    ∀ᶠ t in nhds (0 : ℝ), d.R (d.orth (d.curve U delta t)) = d.R (d.curve U delta t * (d.svd delta).2.2) := by
  obtain ⟨h0, h1⟩ := curve_path hO U delta
  obtain ⟨-, h2⟩ := hO.svd delta
  have h2' := mul_eq_one_comm.1 h2
  filter_upwards [det_eventually hO hn hp _ delta 0 h1 (by rw [h0]; exact hU)] with t ht
  have e : d.curve U delta t = d.curve U delta t * (d.svd delta).2.2 * (d.svd delta).2.2ᵀ := by
    rw [Matrix.mul_assoc, h2, Matrix.mul_one]
  have hc : Spec.Determined d.X (d.curve U delta t) d.p := by
    have := det_basis ht (d.svd delta).2.2ᵀ (d.svd delta).2.2 h2
    rwa [← e] at this
  obtain ⟨B, B', hB, hB', ho⟩ := hO.orth _ (det_rank hp hc)
  have hcB := det_basis hc B B' hB'
  rw [ho]
  exact (c137_subspace hO hn _ B B' hB (spread_of_det hp hc) (spread_of_det hp hcB)).trans
    (c137_subspace hO hn _ _ _ h2 (spread_of_det hp hc) (spread_of_det hp ht)).symm

/-- **C138.** Along the curve that the line search follows, after its columns are made orthonormal, half the squared residual starts
with the slope `alpha` that the routine computes, for every direction `delta`. -/
theorem c138_slope (hO : FitOK d) (hn : 0 < n) (hp : 1 ≤ d.p) (U delta : Matrix (Fin m) (Fin n) ℝ) (hU : Spec.Determined d.X U d.p) :
    HasDerivAt (fun t => d.vp.resid (d.vp.orth (d.vp.curve U delta t)) ^ 2 / 2) (vdot (d.vp.G U) delta) 0 := by
  obtain ⟨h0, h1⟩ := curve_path hO U delta
  have hR : ∀ W, d.R W ^ 2 = ∑ i, d.res W i ^ 2 := fun W => Real.sq_sqrt (by positivity)
  have hd : HasDerivAt (fun t => (∑ i, d.res (d.curve U delta t * (d.svd delta).2.2) i ^ 2) / 2) (vdot (d.G U) delta) 0 := by
    have h3 := fun i => (c136_jacobian hO hn hp _ delta 0 h1 (by rw [h0]; exact hU) i).pow 2
    refine ((HasDerivAt.fun_sum fun i _ => h3 i).div_const 2).congr_deriv ?_
    rw [h0]
    simp only [vdot, FitData.G, Finset.sum_mul, Finset.mul_sum, Finset.sum_div]
    rw [Finset.sum_comm]
    refine Finset.sum_congr rfl fun j _ => ?_
    rw [Finset.sum_comm]
    refine Finset.sum_congr rfl fun k _ => Finset.sum_congr rfl fun i _ => ?_
    norm_num
    ring
  refine hd.congr_of_eventuallyEq ?_
  filter_upwards [curve_resid hO hn hp U delta hU] with t ht
  rw [← hR, ← ht]
  rfl


theorem resid_zero_G {U : Matrix (Fin m) (Fin n) ℝ} (h : d.G U ≠ 0) : 0 < d.R U := by
  by_contra hR
  have h0 : d.R U = 0 := le_antisymm (not_lt.1 hR) (Real.sqrt_nonneg _)
  rw [FitData.R, Real.sqrt_eq_zero (by positivity), Finset.sum_eq_zero_iff_of_nonneg fun i _ => sq_nonneg _] at h0
  apply h
  ext j k
  simp only [FitData.G, Matrix.zero_apply]
  exact Finset.sum_eq_zero fun i hi => by rw [pow_eq_zero_iff two_ne_zero |>.1 (h0 i hi), zero_mul]

theorem vdot_pos {A : Matrix (Fin m) (Fin n) ℝ} (h : A ≠ 0) : 0 < vdot A A := by
  obtain ⟨j, k, hjk⟩ : ∃ j k, A j k ≠ 0 := by
    by_contra hc
    push Not at hc
    exact h (by ext j k; exact hc j k)
  refine Finset.sum_pos' (fun i _ => Finset.sum_nonneg fun k _ => mul_self_nonneg _) ⟨j, Finset.mem_univ _, ?_⟩
  exact Finset.sum_pos' (fun k _ => mul_self_nonneg _) ⟨k, Finset.mem_univ _, mul_self_pos.2 hjk⟩

/-- The slope of the chosen direction. -/
theorem direction_vdot (v : VP m n) (U : Matrix (Fin m) (Fin n) ℝ) :
    (v.direction U).2 = vdot (v.G U) (v.direction U).1 ∧ (v.G U ≠ 0 → (v.direction U).2 < 0) := by
  unfold VP.direction
  simp only
  split
  · refine ⟨?_, fun h => neg_neg_of_pos (vdot_pos h)⟩
    simp [vdot]
  · rename_i h
    exact ⟨rfl, fun _ => not_le.1 h⟩

theorem right_neg {g : ℝ → ℝ} {c : ℝ} (hg : HasDerivAt g c 0) (h0 : g 0 = 0) (hc : c < 0) : ∃ ε > 0, ∀ t, 0 < t → t < ε → g t < 0 := by
  have h1 := (hasDerivAt_iff_tendsto_slope.1 hg).eventually_lt_const hc
  rw [eventually_nhdsWithin_iff, Metric.eventually_nhds_iff] at h1
  obtain ⟨ε, hε, h⟩ := h1
  refine ⟨ε, hε, fun t ht htε => ?_⟩
  have := h (y := t) (by rw [Real.dist_eq, sub_zero, abs_of_pos ht]; exact htε) ht.ne'
  rw [slope_def_field, h0, sub_zero, sub_zero] at this
  exact (div_neg_iff.1 this).resolve_left (fun h => absurd h.2 (not_lt.2 ht.le)) |>.1

theorem curve_zero (hO : FitOK d) (hn : 0 < n) (hp : 1 ≤ d.p) (U delta : Matrix (Fin m) (Fin n) ℝ) (hU : Spec.Determined d.X U d.p) :
    d.R (d.orth (d.curve U delta 0)) = d.R U := by
  have := (curve_resid hO hn hp U delta hU).self_of_nhds
  rwa [(curve_path hO U delta).1] at this

/-- The slope of the residual itself. -/
theorem resid_slope (hO : FitOK d) (hn : 0 < n) (hp : 1 ≤ d.p) (U delta : Matrix (Fin m) (Fin n) ℝ) (hU : Spec.Determined d.X U d.p)
    (hG : d.G U ≠ 0) : HasDerivAt (fun t => d.R (d.orth (d.curve U delta t))) (vdot (d.G U) delta / d.R U) 0 := by
  have hR := resid_zero_G hG
  have h0 := curve_zero hO hn hp U delta hU
  have h1 : HasDerivAt (fun t => d.R (d.orth (d.curve U delta t)) ^ 2 / 2) (vdot (d.G U) delta) 0 := c138_slope hO hn hp U delta hU
  have h2 := (h1.mul_const 2).sqrt (by rw [h0]; positivity)
  rw [h0] at h2
  refine (h2.congr_of_eventuallyEq (Filter.Eventually.of_forall fun t => ?_)).congr_deriv ?_
  · simp only
    rw [div_mul_cancel₀ _ (two_ne_zero' ℝ), Real.sqrt_sq (show 0 ≤ d.R _ from Real.sqrt_nonneg _)]
  · rw [div_mul_cancel₀ _ two_ne_zero, Real.sqrt_sq hR.le]
    field_simp

/-- **C138, descent.** From every subspace that is not stationary, all sufficiently short steps along the curve that the routine
chooses give a strictly smaller residual. -/
theorem c138_descent (hO : FitOK d) (hn : 0 < n) (hp : 1 ≤ d.p) (U : Matrix (Fin m) (Fin n) ℝ) (hU : Spec.Determined d.X U d.p)
    (hG : d.vp.G U ≠ 0) : ∃ ε > 0, ∀ t, 0 < t → t < ε →
      d.vp.resid (d.vp.orth (d.vp.curve U (d.vp.direction U).1 t)) < d.vp.resid U := by
  obtain ⟨h1, h2⟩ := direction_vdot d.vp U
  have hR := resid_zero_G hG
  have hs := (resid_slope hO hn hp U (d.vp.direction U).1 hU hG).sub_const (d.R U)
  obtain ⟨ε, hε, h⟩ := right_neg hs (by rw [curve_zero hO hn hp U _ hU, sub_self]) (by
    refine div_neg_of_neg_of_pos ?_ hR
    have := h2 hG
    rwa [h1] at this)
  exact ⟨ε, hε, fun t ht ht' => sub_neg.1 (h t ht ht')⟩

/-- **C138 (partial).** If the residual is less than `10⁴`, all sufficiently short steps pass the test of the line search. Missing:
larger residuals, for which the test fails for all short steps (`c138_test_violated`). -/
theorem c138_test_partial (hO : FitOK d) (hn : 0 < n) (hp : 1 ≤ d.p) (U : Matrix (Fin m) (Fin n) ℝ) (hU : Spec.Determined d.X U d.p)
    (hG : d.vp.G U ≠ 0) (hR : d.vp.resid U < 10 ^ 4) : ∃ ε > 0, ∀ t, 0 < t → t < ε →
      d.vp.resid (d.vp.orth (d.vp.curve U (d.vp.direction U).1 t)) ≤ d.vp.resid U + (d.vp.direction U).2 * (1 / 10 ^ 4) * t := by
  obtain ⟨h1, h2⟩ := direction_vdot d.vp U
  have hR0 := resid_zero_G hG
  have ha := h2 hG
  have hR : d.R U < 10 ^ 4 := hR
  have hs := ((resid_slope hO hn hp U (d.vp.direction U).1 hU hG).sub_const (d.R U)).fun_sub
    ((hasDerivAt_id (0 : ℝ)).const_mul ((d.vp.direction U).2 * (1 / 10 ^ 4)))
  obtain ⟨ε, hε, h⟩ := right_neg hs (by rw [curve_zero hO hn hp U _ hU, sub_self]; simp) (by
    have e : vdot (d.G U) (d.vp.direction U).1 = (d.vp.direction U).2 := h1.symm
    rw [e, mul_one, div_eq_mul_one_div, ← mul_sub]
    refine mul_neg_of_neg_of_pos ha (sub_pos.2 ?_)
    exact one_div_lt_one_div_of_lt hR0 hR)
  refine ⟨ε, hε, fun t ht ht' => ?_⟩
  have := h t ht ht'
  simp only [id] at this
  have e : d.R (d.orth (d.curve U (d.vp.direction U).1 t)) ≤ d.R U + (d.vp.direction U).2 * (1 / 10 ^ 4) * t := by linarith
  exact e

/-- **C138 is false for large residuals**: the test compares the residual with the slope of half its square. If the residual exceeds
`10⁴`, every sufficiently short step fails the test, although all of them reduce the residual (`c138_descent`). -/
theorem c138_test_violated (hO : FitOK d) (hn : 0 < n) (hp : 1 ≤ d.p) (U : Matrix (Fin m) (Fin n) ℝ) (hU : Spec.Determined d.X U d.p)
    (hG : d.vp.G U ≠ 0) (hR : 10 ^ 4 < d.vp.resid U) : ∃ ε > 0, ∀ t, 0 < t → t < ε →
      ¬ d.vp.resid (d.vp.orth (d.vp.curve U (d.vp.direction U).1 t)) ≤ d.vp.resid U + (d.vp.direction U).2 * (1 / 10 ^ 4) * t := by
  obtain ⟨h1, h2⟩ := direction_vdot d.vp U
  have hR0 := resid_zero_G hG
  have ha := h2 hG
  have hR : 10 ^ 4 < d.R U := hR
  have hs := (((hasDerivAt_id (0 : ℝ)).const_mul ((d.vp.direction U).2 * (1 / 10 ^ 4)))).fun_sub
    ((resid_slope hO hn hp U (d.vp.direction U).1 hU hG).sub_const (d.R U))
  obtain ⟨ε, hε, h⟩ := right_neg hs (by rw [curve_zero hO hn hp U _ hU, sub_self]; simp) (by
    have e : vdot (d.G U) (d.vp.direction U).1 = (d.vp.direction U).2 := h1.symm
    rw [e, mul_one, div_eq_mul_one_div _ (d.R U), ← mul_sub]
    refine mul_neg_of_neg_of_pos ha (sub_pos.2 ?_)
    exact one_div_lt_one_div_of_lt (by norm_num) hR)
  refine ⟨ε, hε, fun t ht ht' hc => ?_⟩
  have := h t ht ht'
  simp only [id] at this
  have hc : d.R (d.orth (d.curve U (d.vp.direction U).1 t)) ≤ d.R U + (d.vp.direction U).2 * (1 / 10 ^ 4) * t := hc
  linarith

/-- If the slope is steep compared with the residual, none of the steps passes the test and the step `10⁻¹¹` is taken. -/
theorem steep_step (U : Matrix (Fin m) (Fin n) ℝ) (h : 10 ^ 14 * d.vp.resid U < -(d.vp.direction U).2) :
    d.vp.step U = d.vp.orth (d.vp.curve U (d.vp.direction U).1 ((1/10)^11)) := by
  refine c99_step_violated _ _ ?_
  rintro ⟨k, hk, hc⟩
  have h0 : 0 ≤ d.vp.resid (d.vp.orth (d.vp.curve U (d.vp.direction U).1 ((1/10)^k))) := Real.sqrt_nonneg _
  have h1 : ((1/10 : ℝ))^10 ≤ (1/10)^k := pow_le_pow_of_le_one (by norm_num) (by norm_num) hk
  have h2 : 0 ≤ d.vp.resid U := Real.sqrt_nonneg _
  have h3 : (d.vp.direction U).2 < 0 := by nlinarith
  have h4 : (d.vp.direction U).2 * (1/10^4) * (1/10)^k ≤ (d.vp.direction U).2 * (1/10^4) * (1/10)^10 :=
    mul_le_mul_of_nonpos_left h1 (by nlinarith)
  norm_num at h h4 hc
  linarith


end
end EQ.Sub
