import Verif.Sampling.NewtonProps

/-!
# The step of Newton subsampling is the step of Newton's method (C221)
-/

namespace EQ.Sampling.Newton
open EQ.Basis Matrix Filter Topology

variable {m n : ℕ} {A : Matrix (Fin m) (Fin n) ℝ}

/-- The inverse of a matrix along a line, entry by entry. -/
theorem inv_deriv (M N : Matrix (Fin n) (Fin n) ℝ) (hM : M.det ≠ 0) (a b : Fin n) :
    HasDerivAt (fun t : ℝ => (M + t • N)⁻¹ a b) (-(M⁻¹ * N * M⁻¹) a b) 0 := by
  have hc : Continuous fun t : ℝ => M + t • N := by fun_prop
  have hdet : ContinuousAt (fun t : ℝ => (M + t • N).det) 0 := (hc.matrix_det).continuousAt
  have hne : ∀ᶠ t in 𝓝 (0 : ℝ), (M + t • N).det ≠ 0 := hdet.eventually_ne (by simpa using hM)
  have hinv : ContinuousAt (fun t : ℝ => (M + t • N)⁻¹) 0 := by
    simp only [Matrix.inv_def, Ring.inverse_eq_inv']
    exact (hdet.inv₀ (by simpa using hM)).smul (hc.matrix_adjugate).continuousAt
  rw [hasDerivAt_iff_tendsto_slope]
  have hlim : Tendsto (fun t : ℝ => (-((M + t • N)⁻¹ * N * M⁻¹)) a b) (𝓝[≠] 0) (𝓝 (-(M⁻¹ * N * M⁻¹) a b)) := by
    have h1 : ContinuousAt (fun t : ℝ => (-((M + t • N)⁻¹ * N * M⁻¹))) 0 :=
      ((hinv.mul continuousAt_const).mul continuousAt_const).neg
    have h2 := (continuousAt_pi.1 (continuousAt_pi.1 h1 a) b).tendsto
    rw [show (-((M + (0 : ℝ) • N)⁻¹ * N * M⁻¹)) a b = -(M⁻¹ * N * M⁻¹) a b by rw [zero_smul, add_zero, Matrix.neg_apply]] at h2
    exact h2.mono_left nhdsWithin_le_nhds
  refine hlim.congr' ?_
  filter_upwards [nhdsWithin_le_nhds hne, self_mem_nhdsWithin] with t ht ht0
  have ht0 : t ≠ 0 := ht0
  have e : (M + t • N)⁻¹ - M⁻¹ = t • -((M + t • N)⁻¹ * N * M⁻¹) := by
    have hu : (M + t • N)⁻¹ * (M + t • N) = 1 := nonsing_inv_mul _ ht.isUnit
    have hv : M * M⁻¹ = 1 := mul_nonsing_inv _ hM.isUnit
    calc (M + t • N)⁻¹ - M⁻¹ = (M + t • N)⁻¹ * (M * M⁻¹) - ((M + t • N)⁻¹ * (M + t • N)) * M⁻¹ := by rw [hu, hv, mul_one, one_mul]
      _ = _ := by
        simp only [mul_add, add_mul, mul_assoc, smul_mul, Matrix.mul_smul, Matrix.smul_mul, smul_neg]
        abel
  have e' := congrFun (congrFun e a) b
  rw [Matrix.sub_apply, Matrix.smul_apply, smul_eq_mul] at e'
  rw [slope_def_field]
  simp only [zero_smul, add_zero, sub_zero]
  rw [e', mul_div_cancel_left₀ _ ht0]

/-- The leverages along a line: their rate of change is minus the squared entries of the leverage matrix. -/
theorem leverage_deriv (hA : ∀ x, A *ᵥ x = 0 → x = 0) (z dz : Fin m → ℝ) (hz : ∀ i, 0 < z i) (i : Fin m) :
    HasDerivAt (fun t : ℝ => leverage A (fun j => z j + t * dz j) i i) (-∑ j, leverage A z i j ^ 2 * dz j) 0 := by
  have hM := (info_posDef hA z hz).det_pos
  have hs := (leverage_posSemidef hA z hz).isHermitian
  have hsym : ∀ j, leverage A z j i = leverage A z i j := fun j => by simpa using hs.apply i j
  have h1 : HasDerivAt (fun t : ℝ => ∑ a, ∑ b, A i a * (info A z + t • info A dz)⁻¹ a b * A i b)
      (∑ a, ∑ b, A i a * (-((info A z)⁻¹ * info A dz * (info A z)⁻¹) a b) * A i b) 0 :=
    HasDerivAt.fun_sum fun a _ => HasDerivAt.fun_sum fun b _ =>
      ((inv_deriv (info A z) (info A dz) hM.ne' a b).const_mul (A i a)).mul_const (A i b)
  have hq : ∀ W : Matrix (Fin n) (Fin n) ℝ, (A * W * Aᵀ) i i = ∑ a, ∑ b, A i a * W a b * A i b := by
    intro W
    rw [mul_apply]
    simp only [mul_apply, transpose_apply, Finset.sum_mul]
    exact Finset.sum_comm
  refine (h1.congr_deriv ?_).congr_of_eventuallyEq (.of_forall fun t => ?_)
  · have : (∑ a, ∑ b, A i a * (-((info A z)⁻¹ * info A dz * (info A z)⁻¹) a b) * A i b) =
        (A * -((info A z)⁻¹ * info A dz * (info A z)⁻¹) * Aᵀ) i i := by rw [hq]; rfl
    rw [this]
    have e : A * -((info A z)⁻¹ * info A dz * (info A z)⁻¹) * Aᵀ = -(leverage A z * diagonal dz * leverage A z) := by
      simp only [leverage, info, Matrix.mul_neg, Matrix.neg_mul, Matrix.mul_assoc]
    rw [e, neg_apply, mul_apply]
    simp only [mul_diagonal, hsym]
    congr 1
    exact Finset.sum_congr rfl fun j _ => by ring
  · simp only [leverage, info_add]
    exact hq _

/-- `hess` is the derivative of `grad`. -/
theorem grad_deriv (hA : ∀ x, A *ᵥ x = 0 → x = 0) (κ : ℝ) (z dz : Fin m → ℝ) (hz : ∀ i, 0 < z i ∧ z i < 1) (i : Fin m) :
    HasDerivAt (fun t : ℝ => grad A κ (fun j => z j + t * dz j) i) ((hess A κ z *ᵥ dz) i) 0 := by
  have hlin : HasDerivAt (fun t : ℝ => z i + t * dz i) (dz i) 0 := by
    simpa using ((hasDerivAt_id (0 : ℝ)).mul_const (dz i)).const_add (z i)
  have p0 : z i + 0 * dz i ≠ 0 := by simpa using (hz i).1.ne'
  have p1 : 1 - (z i + 0 * dz i) ≠ 0 := by
    have := (hz i).2
    simp only [zero_mul, add_zero]
    linarith
  have h1 := leverage_deriv hA z dz (fun i => (hz i).1) i
  have h2 := (hlin.fun_inv p0).fun_sub ((hlin.const_sub 1).fun_inv p1)
  have h3 := h1.fun_neg.fun_sub (h2.const_mul κ)
  simp only [zero_mul, add_zero] at h3
  simp only [grad, one_div]
  refine h3.congr_deriv ?_
  rw [hess, add_mulVec, smul_mulVec]
  simp only [Pi.add_apply, Pi.smul_apply, mulVec_diagonal, smul_eq_mul]
  simp only [mulVec, dotProduct, hadamard_apply]
  have : ∀ j, leverage A z i j * leverage A z i j * dz j = leverage A z i j ^ 2 * dz j := fun j => by ring
  simp only [this]
  ring

/-- The rate at which the value of a relaxed selection changes in the direction `d`. -/
noncomputable def Spec.rate (A : Matrix (Fin m) (Fin n) ℝ) (d z : Fin m → ℝ) : ℝ :=
  deriv (fun t : ℝ => Spec.value A fun i => z i + t * d i) 0

theorem value_deriv (hA : ∀ x, A *ᵥ x = 0 → x = 0) (z d : Fin m → ℝ) (hz : ∀ i, 0 < z i ∧ z i < 1) :
    HasDerivAt (fun t : ℝ => Spec.value A fun i => z i + t * d i) (-∑ i, grad A (kappa m n) z i * d i) 0 := by
  have := (obj_deriv hA (kappa m n) z d hz).fun_neg
  simpa only [obj_value, neg_neg] using this

theorem rate_eq (hA : ∀ x, A *ᵥ x = 0 → x = 0) (z d : Fin m → ℝ) (hz : ∀ i, 0 < z i ∧ z i < 1) :
    Spec.rate A d z = -∑ i, grad A (kappa m n) z i * d i := (value_deriv hA z d hz).deriv

theorem inside_near (z w : Fin m → ℝ) (hz : ∀ i, 0 < z i ∧ z i < 1) :
    ∀ᶠ s in 𝓝 (0 : ℝ), ∀ i, 0 < z i + s * w i ∧ z i + s * w i < 1 := by
  refine eventually_all.2 fun i => ?_
  have hc : ContinuousAt (fun s : ℝ => z i + s * w i) 0 := by fun_prop
  have h1 := hc.eventually (lt_mem_nhds (a := 0) (by simpa using (hz i).1))
  have h2 := hc.eventually_lt_const (u := 1) (by simpa using (hz i).2)
  exact h1.and h2

/-- How the rate changes along a second direction: the Hessian of the value. -/
theorem rate_deriv (hA : ∀ x, A *ᵥ x = 0 → x = 0) (z w d : Fin m → ℝ) (hz : ∀ i, 0 < z i ∧ z i < 1) :
    HasDerivAt (fun s : ℝ => Spec.rate A d fun i => z i + s * w i) (-∑ i, (hess A (kappa m n) z *ᵥ w) i * d i) 0 := by
  have h := (HasDerivAt.fun_sum (u := Finset.univ) fun i _ => (grad_deriv hA (kappa m n) z w hz i).mul_const (d i)).fun_neg
  refine h.congr_of_eventuallyEq ?_
  filter_upwards [inside_near z w hz] with s hs
  exact rate_eq hA _ d hs

/-! ## C221: the step of Newton's method -/

/-- The step that the relaxation takes from a relaxed selection keeps the number of rows, and it is the only such step after which
every rate of change that keeps the number of rows would vanish if the rates were linear: Newton's step for the value. -/
theorem c221_newton (hA : ∀ x, A *ᵥ x = 0 → x = 0) (hn : 0 < n) (z : Fin m → ℝ) (hz : ∀ i, 0 < z i ∧ z i < 1) :
    (∀ d, HasDerivAt (fun t : ℝ => Spec.value A fun i => z i + t * d i) (Spec.rate A d z) 0) ∧
    ∀ w : Fin m → ℝ, (∑ i, w i = 0 ∧ ∀ d : Fin m → ℝ, ∑ i, d i = 0 →
      HasDerivAt (fun s : ℝ => Spec.rate A d fun i => z i + s * w i) (-Spec.rate A d z) 0) ↔ w = direction A (kappa m n) z := by
  have hm : 0 < m := lt_of_lt_of_le hn (le_of_inj hA)
  have hκ := kappa_pos hm hn
  have hpos := fun i => (hz i).1
  obtain ⟨h0, c, hc⟩ := direction_ok hA hκ z hpos hm
  have hstep : ∀ d : Fin m → ℝ, ∑ i, d i = 0 → ∑ i, (hess A (kappa m n) z *ᵥ direction A (kappa m n) z) i * d i =
      -∑ i, grad A (kappa m n) z i * d i := by
    intro d hd
    simp only [hc, add_mul, neg_mul]
    rw [Finset.sum_add_distrib, ← Finset.mul_sum, hd, Finset.sum_neg_distrib]
    ring
  refine ⟨fun d => by rw [rate_eq hA z d hz]; exact value_deriv hA z d hz, fun w => ⟨fun ⟨hw, h⟩ => ?_, ?_⟩⟩
  · by_contra hne
    have hne' : w - direction A (kappa m n) z ≠ 0 := sub_ne_zero.2 hne
    have hsum : ∑ i, (w - direction A (kappa m n) z) i = 0 := by
      simp only [Pi.sub_apply, Finset.sum_sub_distrib, hw, h0, sub_zero]
    have e1 := (h _ hsum).unique (rate_deriv hA z w _ hz)
    rw [rate_eq hA z _ hz] at e1
    have e2 := hstep _ hsum
    have hp := (hess_posDef hA hκ z hpos).dotProduct_mulVec_pos hne'
    rw [star_trivial, mulVec_sub] at hp
    simp only [dotProduct, Pi.sub_apply (hess A (kappa m n) z *ᵥ w), mul_sub, Finset.sum_sub_distrib] at hp
    have c1 : ∀ v : Fin m → ℝ, ∑ i, (w - direction A (kappa m n) z) i * v i = ∑ i, v i * (w - direction A (kappa m n) z) i :=
      fun v => Finset.sum_congr rfl fun i _ => mul_comm _ _
    rw [c1, c1] at hp
    linarith
  · rintro rfl
    refine ⟨h0, fun d hd => (rate_deriv hA z _ d hz).congr_deriv ?_⟩
    rw [rate_eq hA z d hz, hstep d hd]

/-- Three rows of a mesh with two columns. -/
def stepDemo : Matrix (Fin 3) (Fin 2) ℝ := !![1, 0; 0, 1; 1, 1]

theorem stepDemo_inj (x : Fin 2 → ℝ) (h : stepDemo *ᵥ x = 0) : x = 0 := by
  have h0 := congrFun h 0
  have h1 := congrFun h 1
  simp [stepDemo, mulVec, dotProduct, Fin.sum_univ_two] at h0 h1
  funext i
  fin_cases i
  · exact h0
  · exact h1

example : (∀ x, stepDemo *ᵥ x = 0 → x = 0) ∧ ∀ i : Fin 3, 0 < (![1 / 2, 2 / 3, 5 / 6] : Fin 3 → ℝ) i ∧
    (![1 / 2, 2 / 3, 5 / 6] : Fin 3 → ℝ) i < 1 := by
  refine ⟨stepDemo_inj, fun i => ?_⟩
  fin_cases i <;> norm_num [Matrix.cons_val_two]

end EQ.Sampling.Newton
