import Verif.Sampling.NewtonModel
import Mathlib.Analysis.Calculus.Deriv.Mul
import Mathlib.Analysis.Calculus.Deriv.Polynomial
import Mathlib.Analysis.SpecialFunctions.Log.Deriv
import Mathlib.LinearAlgebra.Matrix.Charpoly.Coeff

/-!
# Helper lemmas: determinants along lines, and the Newton step
-/

namespace EQ.Sampling.Newton
open EQ.Basis Matrix

variable {m n : ℕ} {A : Matrix (Fin m) (Fin n) ℝ}

/-- The determinant of a pencil is differentiable at the origin. -/
theorem det_deriv (M N : Matrix (Fin n) (Fin n) ℝ) (hM : M.det ≠ 0) :
    HasDerivAt (fun t : ℝ => (M + t • N).det) (M.det * (M⁻¹ * N).trace) 0 := by
  have hu : IsUnit M.det := isUnit_iff_ne_zero.2 hM
  have e : ∀ t : ℝ, (M + t • N).det = M.det * (1 + (M⁻¹ * N).trace * t +
      (det (1 + (Polynomial.X : Polynomial ℝ) • (M⁻¹ * N).map Polynomial.C)).divX.divX.eval t * t ^ 2) := by
    intro t
    rw [← det_one_add_smul, ← det_mul, Matrix.mul_add, Matrix.mul_one, Matrix.mul_smul, ← Matrix.mul_assoc,
      mul_nonsing_inv _ hu, Matrix.one_mul]
  simp only [e]
  generalize (det (1 + (Polynomial.X : Polynomial ℝ) • (M⁻¹ * N).map Polynomial.C)).divX.divX = q
  have h1 : HasDerivAt (fun t : ℝ => q.eval t * t ^ 2) (q.derivative.eval 0 * 0 ^ 2 + q.eval 0 * ((2 : ℕ) * 0 ^ (2 - 1) * 1)) 0 :=
    (q.hasDerivAt 0).mul ((hasDerivAt_id (0 : ℝ)).pow 2)
  have h2 : HasDerivAt (fun t : ℝ => 1 + (M⁻¹ * N).trace * t) ((M⁻¹ * N).trace) 0 := by
    simpa using ((hasDerivAt_id (0 : ℝ)).const_mul (M⁻¹ * N).trace).const_add 1
  simpa using (h2.add h1).const_mul M.det

theorem info_add (z dz : Fin m → ℝ) (t : ℝ) : info A (fun i => z i + t * dz i) = info A z + t • info A dz := by
  have : diagonal (fun i => z i + t * dz i) = diagonal z + t • diagonal dz := by
    ext i j; by_cases h : i = j <;> simp [h, diagonal]
  rw [info, this, Matrix.mul_add, Matrix.add_mul, Matrix.mul_smul, Matrix.smul_mul]; rfl

theorem trace_info (W : Matrix (Fin n) (Fin n) ℝ) (y : Fin m → ℝ) :
    (W * info A y).trace = ∑ i, (A * W * Aᵀ) i i * y i := by
  rw [info, ← Matrix.mul_assoc, trace_mul_comm, ← Matrix.mul_assoc, ← Matrix.mul_assoc]
  simp [trace, mul_diagonal]

theorem info_posSemidef (z : Fin m → ℝ) (hz : ∀ i, 0 ≤ z i) : (info A z).PosSemidef := by
  have := (PosSemidef.diagonal (d := z) hz).conjTranspose_mul_mul_same A
  rwa [conjTranspose_eq_transpose_of_trivial] at this

theorem info_posDef (hA : ∀ x, A *ᵥ x = 0 → x = 0) (z : Fin m → ℝ) (hz : ∀ i, 0 < z i) : (info A z).PosDef := by
  have hinj : Function.Injective A.mulVec := fun x y h => by
    have := hA (x - y) (by rw [mulVec_sub]; exact sub_eq_zero.2 h)
    exact sub_eq_zero.1 this
  have := (posDef_diagonal_iff.2 hz : (diagonal z).PosDef).conjTranspose_mul_mul_same hinj
  rwa [conjTranspose_eq_transpose_of_trivial] at this

theorem leverage_posSemidef (hA : ∀ x, A *ᵥ x = 0 → x = 0) (z : Fin m → ℝ) (hz : ∀ i, 0 < z i) : (leverage A z).PosSemidef := by
  have := (info_posDef hA z hz).inv.posSemidef.mul_mul_conjTranspose_same A
  rwa [conjTranspose_eq_transpose_of_trivial] at this

theorem kappa_pos (hm : 0 < m) (hn : 0 < n) : 0 < kappa m n := by
  have : 0 < Real.log 1.005 := Real.log_pos (by norm_num)
  unfold kappa
  positivity

theorem hess_posDef (hA : ∀ x, A *ᵥ x = 0 → x = 0) {κ : ℝ} (hκ : 0 < κ) (z : Fin m → ℝ) (hz : ∀ i, 0 < z i) : (hess A κ z).PosDef := by
  refine PosDef.posSemidef_add ((leverage_posSemidef hA z hz).hadamard (leverage_posSemidef hA z hz)) ?_
  rw [← diagonal_smul]
  refine posDef_diagonal_iff.2 fun i => ?_
  have := hz i
  simp only [Pi.smul_apply, smul_eq_mul]
  positivity

/-- The step solves the Newton equation up to a multiple of the constraint and keeps the sum. -/
theorem direction_ok (hA : ∀ x, A *ᵥ x = 0 → x = 0) {κ : ℝ} (hκ : 0 < κ) (z : Fin m → ℝ) (hz : ∀ i, 0 < z i) (hm : 0 < m) :
    ∑ i, direction A κ z i = 0 ∧ ∃ c, ∀ i, (hess A κ z *ᵥ direction A κ z) i = -grad A κ z i + c := by
  have hH := hess_posDef hA hκ z hz
  have hu : IsUnit (hess A κ z).det := (isUnit_iff_isUnit_det _).1 hH.isUnit
  have hpos : 0 < ∑ j, ((hess A κ z)⁻¹ *ᵥ fun _ => (1 : ℝ)) j := by
    have := hH.inv.dotProduct_mulVec_pos (x := fun _ => (1 : ℝ)) (by
      intro h; have := congrFun h ⟨0, hm⟩; simp at this)
    simpa [dotProduct] using this
  constructor
  · simp only [direction]
    rw [Finset.sum_add_distrib, ← Finset.mul_sum, Finset.sum_neg_distrib, div_mul_cancel₀ _ hpos.ne']
    ring
  · refine ⟨(∑ j, ((hess A κ z)⁻¹ *ᵥ grad A κ z) j) / ∑ j, ((hess A κ z)⁻¹ *ᵥ fun _ => (1 : ℝ)) j, fun i => ?_⟩
    have e : direction A κ z = -((hess A κ z)⁻¹ *ᵥ grad A κ z) +
        ((∑ j, ((hess A κ z)⁻¹ *ᵥ grad A κ z) j) / ∑ j, ((hess A κ z)⁻¹ *ᵥ fun _ => (1 : ℝ)) j) •
          ((hess A κ z)⁻¹ *ᵥ fun _ => (1 : ℝ)) := by
      funext i; simp [direction]
    rw [e, mulVec_add, mulVec_neg, mulVec_smul, mulVec_mulVec, mulVec_mulVec, mul_nonsing_inv _ hu, one_mulVec, one_mulVec]
    simp

/-- The slope along the step is minus the square of its length for the Hessian. -/
theorem slope_eq (hA : ∀ x, A *ᵥ x = 0 → x = 0) {κ : ℝ} (hκ : 0 < κ) (z : Fin m → ℝ) (hz : ∀ i, 0 < z i) (hm : 0 < m) :
    ∑ i, grad A κ z i * direction A κ z i = -(direction A κ z ⬝ᵥ hess A κ z *ᵥ direction A κ z) := by
  obtain ⟨h0, c, hc⟩ := direction_ok hA hκ z hz hm
  rw [dotProduct]
  have : ∀ i, direction A κ z i * (hess A κ z *ᵥ direction A κ z) i = -(grad A κ z i * direction A κ z i) + c * direction A κ z i :=
    fun i => by rw [hc i]; ring
  simp only [this]
  rw [Finset.sum_add_distrib, ← Finset.mul_sum, h0, Finset.sum_neg_distrib]
  ring

theorem slope_neg (hA : ∀ x, A *ᵥ x = 0 → x = 0) {κ : ℝ} (hκ : 0 < κ) (z : Fin m → ℝ) (hz : ∀ i, 0 < z i) (hm : 0 < m) :
    ∑ i, grad A κ z i * direction A κ z i ≤ 0 ∧ (direction A κ z ≠ 0 → ∑ i, grad A κ z i * direction A κ z i < 0) := by
  rw [slope_eq hA hκ z hz hm]
  constructor
  · have := (hess_posDef hA hκ z hz).posSemidef.dotProduct_mulVec_nonneg (direction A κ z)
    simp only [star_trivial] at this
    linarith
  · intro h
    have := (hess_posDef hA hκ z hz).dotProduct_mulVec_pos h
    simp only [star_trivial] at this
    linarith

/-- The objective as a function, without the test. -/
noncomputable def obj (A : Matrix (Fin m) (Fin n) ℝ) (κ : ℝ) (z : Fin m → ℝ) : ℝ :=
  -Real.log (info A z).det - κ * ∑ i, (Real.log (z i) + Real.log (1.0 - z i))

/-- `grad` is the gradient of the objective. -/
theorem obj_deriv (hA : ∀ x, A *ᵥ x = 0 → x = 0) (κ : ℝ) (z dz : Fin m → ℝ) (hz : ∀ i, 0 < z i ∧ z i < 1) :
    HasDerivAt (fun t : ℝ => obj A κ fun i => z i + t * dz i) (∑ i, grad A κ z i * dz i) 0 := by
  have hM := (info_posDef hA z fun i => (hz i).1).det_pos
  have hd := det_deriv (info A z) (info A dz) hM.ne'
  have h1 : HasDerivAt (fun t : ℝ => Real.log (info A fun i => z i + t * dz i).det) ((info A z)⁻¹ * info A dz).trace 0 := by
    simp only [info_add]
    have := hd.log (by simpa using hM.ne')
    simpa [mul_div_cancel_left₀ _ hM.ne'] using this
  have hlin : ∀ i, HasDerivAt (fun t : ℝ => z i + t * dz i) (dz i) 0 := fun i => by
    simpa using ((hasDerivAt_id (0 : ℝ)).mul_const (dz i)).const_add (z i)
  have h2 : ∀ i, HasDerivAt (fun t : ℝ => Real.log (z i + t * dz i) + Real.log (1.0 - (z i + t * dz i)))
      (dz i / z i + -dz i / (1 - z i)) 0 := by
    intro i
    have a := (hlin i).log (by simpa using (hz i).1.ne')
    have b := ((hlin i).const_sub 1.0).log (by
      have := (hz i).2
      norm_num
      linarith)
    have := a.fun_add b
    norm_num at this ⊢
    exact this
  have h3 := HasDerivAt.fun_sum (u := Finset.univ) fun i _ => h2 i
  have := h1.fun_neg.fun_sub (h3.const_mul κ)
  refine this.congr_deriv ?_
  rw [trace_info, Finset.mul_sum, ← Finset.sum_neg_distrib, ← Finset.sum_sub_distrib]
  refine Finset.sum_congr rfl fun i _ => ?_
  simp only [grad, leverage]
  ring

theorem objective_some {κ : ℝ} {z : Fin m → ℝ} {f : ℝ} :
    objective A κ z = some f ↔ (0 < (info A z).det ∧ ∀ i, 0 < z i ∧ z i < 1) ∧ f = obj A κ z := by
  unfold objective
  have : (∀ i, 0 < z i ∧ 0 < 1.0 - z i) ↔ ∀ i, 0 < z i ∧ z i < 1 := by
    refine forall_congr' fun i => and_congr_right fun _ => ?_
    norm_num
  split_ifs with h
  · rw [this] at h
    simp only [Option.some.injEq, h, obj]
    simp [eq_comm]
  · rw [this] at h
    simp [h]

theorem feasible_objective (hA : ∀ x, A *ᵥ x = 0 → x = 0) (κ : ℝ) (z : Fin m → ℝ) (hz : ∀ i, 0 < z i ∧ z i < 1) :
    objective A κ z = some (obj A κ z) :=
  objective_some.2 ⟨⟨(info_posDef hA z fun i => (hz i).1).det_pos, hz⟩, rfl⟩

/-- The line search ends if the step is not zero. -/
theorem search_ends (hA : ∀ x, A *ᵥ x = 0 → x = 0) {κ : ℝ} (hκ : 0 < κ) (z : Fin m → ℝ) (hz : ∀ i, 0 < z i ∧ z i < 1)
    (hm : 0 < m) (hd : direction A κ z ≠ 0) (s : ℝ) (hs : 0 < s) :
    ∃ j : ℕ, accepts A κ z (direction A κ z) (some (obj A κ z)) (0.5 ^ j * s) := by
  generalize hdz : direction A κ z = dz at *
  have hneg : ∑ i, grad A κ z i * dz i < 0 := by
    rw [← hdz]; exact (slope_neg hA hκ z (fun i => (hz i).1) hm).2 (hdz ▸ hd)
  have hder := obj_deriv hA κ z dz hz
  generalize hD : ∑ i, grad A κ z i * dz i = D at *
  have hlim : Filter.Tendsto (fun j : ℕ => (0.5 : ℝ) ^ j * s) Filter.atTop (nhdsWithin 0 {0}ᶜ) := by
    refine tendsto_nhdsWithin_iff.2 ⟨?_, Filter.Eventually.of_forall fun j => ?_⟩
    · simpa using (tendsto_pow_atTop_nhds_zero_of_lt_one (by norm_num : (0 : ℝ) ≤ 0.5) (by norm_num)).mul_const s
    · have : (0 : ℝ) < 0.5 ^ j * s := by positivity
      exact this.ne'
  have hslope := (hasDerivAt_iff_tendsto_slope.1 hder).comp hlim
  have hev1 : ∀ᶠ j in Filter.atTop, slope (fun t : ℝ => obj A κ fun i => z i + t * dz i) 0 ((0.5 : ℝ) ^ j * s) < 0.01 * D :=
    hslope.eventually_lt_const (by nlinarith)
  have hev2 : ∀ᶠ j in Filter.atTop, ∀ i, 0 < z i + (0.5 : ℝ) ^ j * s * dz i ∧ z i + (0.5 : ℝ) ^ j * s * dz i < 1 := by
    rw [Filter.eventually_all]
    intro i
    have hl : Filter.Tendsto (fun j : ℕ => z i + (0.5 : ℝ) ^ j * s * dz i) Filter.atTop (nhds (z i)) := by
      have := ((hlim.mono_right nhdsWithin_le_nhds).mul_const (dz i)).const_add (z i)
      simpa using this
    exact (hl.eventually_const_lt (hz i).1).and (hl.eventually_lt_const (hz i).2)
  obtain ⟨j, h1, h2⟩ := (hev1.and hev2).exists
  refine ⟨j, obj A κ z, _, rfl, feasible_objective hA κ _ h2, ?_⟩
  have hp : (0 : ℝ) < 0.5 ^ j * s := by positivity
  rw [slope_def_field, sub_zero, div_lt_iff₀ hp] at h1
  simp only [zero_mul, add_zero] at h1
  rw [hD]
  linarith

end EQ.Sampling.Newton
