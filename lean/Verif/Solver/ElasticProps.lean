import Verif.Solver.ConvexProps

/-!
# What the elastic net selects, and how it reacts to its arguments (C204)
-/

namespace EQ.Solver
open Matrix

variable {N d : ℕ}

/-! ## Proof device: the variational inequality -/

theorem elastic_returned (minimise : (Vec d → ℝ) → Vec d) (hmin : MinimiseContract minimise) (A : Mat N d) (b : Vec N) (lamda alpha : Option ℝ) (l a : ℝ)
    (hl : l = lamda.getD 1) (ha : a = alpha.getD (1/2)) (hl0 : 0 < l) (ha0 : 0 ≤ a) (ha1 : a < 1) (x : Vec d)
    (hx : elasticNet minimise A b lamda alpha .osqp = .ok x) :
    (∀ z, elasticLoss A b l a x ≤ elasticLoss A b l a z) ∧ ∀ z, (∀ w, elasticLoss A b l a z ≤ elasticLoss A b l a w) → z = x := by
  obtain ⟨y, hy, h1, h2, -⟩ := c84_elastic_net minimise hmin A b lamda alpha l a hl ha hl0 ha0 ha1
  rw [hx] at hy
  cases hy
  exact ⟨h1, h2⟩

/-- A quadratic that is non-negative for small positive arguments has a non-negative slope. -/
theorem slope_nonneg (p q : ℝ) (h : ∀ t : ℝ, 0 < t → t ≤ 1 → 0 ≤ t * p + t ^ 2 * q) : 0 ≤ p := by
  by_contra hp
  push Not at hp
  have hq : 0 < |q| + 1 := by positivity
  have hpos : 0 < -p / (-p + (|q| + 1)) := div_pos (by linarith) (by linarith)
  have hle : -p / (-p + (|q| + 1)) ≤ 1 := by
    rw [div_le_one (by linarith)]
    linarith
  set t := -p / (-p + (|q| + 1)) with ht
  have h1 := h t hpos hle
  have hden : 0 < -p + (|q| + 1) := by linarith
  have h2 : t * (|q| + 1) < -p := by
    rw [ht, div_mul_eq_mul_div, div_lt_iff₀ hden]
    nlinarith
  have h3 : q ≤ |q| := le_abs_self q
  have : t * p + t ^ 2 * q = t * (p + t * q) := by ring
  rw [this] at h1
  have h4 : 0 ≤ p + t * q := by
    by_contra hc
    push Not at hc
    have := mul_neg_of_pos_of_neg hpos hc
    linarith
  nlinarith

theorem elastic_vi (A : Mat N d) (b : Vec N) (l a : ℝ) (hla : 0 ≤ l * a) (x : Vec d) (hx : ∀ z, elasticLoss A b l a x ≤ elasticLoss A b l a z) (z : Vec d) :
    0 ≤ ∑ i, (A.mulVec x i - b i) * (A.mulVec z i - A.mulVec x i) + l * (1 - a) * ∑ j, x j * (z j - x j) + l * a * (∑ j, |z j| - ∑ j, |x j|) := by
  refine slope_nonneg _ ((∑ i, (A.mulVec z i - A.mulVec x i) ^ 2) / 2 + l * (1 - a) / 2 * ∑ j, (z j - x j) ^ 2) fun t h0 h1 => ?_
  have h := hx fun j => x j + t * (z j - x j)
  have hA : ∀ i, A.mulVec (fun j => x j + t * (z j - x j)) i = A.mulVec x i + t * (A.mulVec z i - A.mulVec x i) := by
    intro i
    have : (fun j => x j + t * (z j - x j)) = x + t • (z - x) := by funext j; simp
    rw [this, mulVec_add, mulVec_smul, mulVec_sub]
    simp
  have e1 : sqRes A b (fun j => x j + t * (z j - x j)) = sqRes A b x + 2 * t * ∑ i, (A.mulVec x i - b i) * (A.mulVec z i - A.mulVec x i) +
      t ^ 2 * ∑ i, (A.mulVec z i - A.mulVec x i) ^ 2 := by
    unfold sqRes
    rw [Finset.mul_sum, Finset.mul_sum, ← Finset.sum_add_distrib, ← Finset.sum_add_distrib]
    refine Finset.sum_congr rfl fun i _ => ?_
    rw [hA]
    ring
  have e2 : ∑ j, (x j + t * (z j - x j)) ^ 2 = ∑ j, x j ^ 2 + 2 * t * ∑ j, x j * (z j - x j) + t ^ 2 * ∑ j, (z j - x j) ^ 2 := by
    rw [Finset.mul_sum, Finset.mul_sum, ← Finset.sum_add_distrib, ← Finset.sum_add_distrib]
    exact Finset.sum_congr rfl fun j _ => by ring
  have e3 : ∑ j, |x j + t * (z j - x j)| ≤ ∑ j, |x j| + t * (∑ j, |z j| - ∑ j, |x j|) := by
    rw [← Finset.sum_sub_distrib, Finset.mul_sum, ← Finset.sum_add_distrib]
    refine Finset.sum_le_sum fun j _ => ?_
    have : x j + t * (z j - x j) = (1 - t) * x j + t * z j := by ring
    rw [this]
    refine (abs_add_le _ _).trans (le_of_eq ?_)
    rw [abs_mul, abs_mul, abs_of_nonneg (by linarith : 0 ≤ 1 - t), abs_of_pos h0]
    ring
  unfold elasticLoss at h
  rw [e1, e2] at h
  have e4 := mul_le_mul_of_nonneg_left e3 hla
  nlinarith

/-! ## The properties -/

/-- **C204, which coefficients vanish.** A coefficient that is not zero balances the correlation of its column with the residual against both penalties; for a coefficient that is
zero this correlation is at most `λ α`. -/
theorem c204_selection (minimise : (Vec d → ℝ) → Vec d) (hmin : MinimiseContract minimise) (A : Mat N d) (b : Vec N) (lamda alpha : Option ℝ) (l a : ℝ)
    (hl : l = lamda.getD 1) (ha : a = alpha.getD (1/2)) (hl0 : 0 < l) (ha0 : 0 ≤ a) (ha1 : a < 1) (x : Vec d)
    (hx : elasticNet minimise A b lamda alpha .osqp = .ok x) (j : Fin d) :
    (x j ≠ 0 → ∑ i, A i j * (b i - ∑ k, A i k * x k) = l * (1 - a) * x j + l * a * SignType.sign (x j)) ∧
    (x j = 0 → |∑ i, A i j * (b i - ∑ k, A i k * x k)| ≤ l * a) := by
  obtain ⟨hopt, -⟩ := elastic_returned minimise hmin A b lamda alpha l a hl ha hl0 ha0 ha1 x hx
  have hla : 0 ≤ l * a := mul_nonneg hl0.le ha0
  set r := ∑ i, A i j * (b i - ∑ k, A i k * x k) with hr
  have key : ∀ v : ℝ, 0 ≤ (l * (1 - a) * x j - r) * (v - x j) + l * a * (|v| - |x j|) := by
    intro v
    have h := elastic_vi A b l a hla x hopt (Function.update x j v)
    have hA : ∀ i, A.mulVec (Function.update x j v) i - A.mulVec x i = A i j * (v - x j) := by
      intro i
      unfold mulVec dotProduct
      rw [← Finset.sum_sub_distrib, Finset.sum_eq_single j]
      · simp; ring
      · intro k _ hk
        simp [Function.update_of_ne hk]
      · simp
    have e2 : ∑ k, x k * (Function.update x j v k - x k) = x j * (v - x j) := by
      rw [Finset.sum_eq_single j]
      · simp
      · intro k _ hk
        simp [Function.update_of_ne hk]
      · simp
    have e3 : ∑ k, |Function.update x j v k| - ∑ k, |x k| = |v| - |x j| := by
      rw [← Finset.sum_sub_distrib, Finset.sum_eq_single j]
      · simp
      · intro k _ hk
        simp [Function.update_of_ne hk]
      · simp
    have e1 : ∑ i, (A.mulVec x i - b i) * (A.mulVec (Function.update x j v) i - A.mulVec x i) = -r * (v - x j) := by
      rw [hr, ← Finset.sum_neg_distrib, Finset.sum_mul]
      refine Finset.sum_congr rfl fun i _ => ?_
      rw [hA]
      show (∑ k, A i k * x k - b i) * _ = _
      ring
    rw [e1, e2, e3] at h
    linarith
  constructor
  · intro hne
    rcases lt_or_gt_of_ne hne with h | h
    · have h1 := key (2 * x j)
      have h2 := key 0
      rw [abs_of_neg (by linarith : 2 * x j < 0), abs_of_neg h] at h1
      rw [abs_zero, abs_of_neg h] at h2
      rw [sign_neg h]
      simp only [SignType.coe_neg_one]
      have : (l * (1 - a) * x j - r - l * a) * x j = 0 := by nlinarith
      rcases mul_eq_zero.1 this with h3 | h3
      · linarith
      · exact absurd h3 hne
    · have h1 := key (2 * x j)
      have h2 := key 0
      rw [abs_of_pos (by linarith : 0 < 2 * x j), abs_of_pos h] at h1
      rw [abs_zero, abs_of_pos h] at h2
      rw [sign_pos h]
      simp only [SignType.coe_one]
      have : (l * (1 - a) * x j - r + l * a) * x j = 0 := by nlinarith
      rcases mul_eq_zero.1 this with h3 | h3
      · linarith
      · exact absurd h3 hne
  · intro h0
    have h1 := key 1
    have h2 := key (-1)
    rw [h0] at h1 h2
    simp only [abs_one, abs_neg, abs_zero] at h1 h2
    rw [abs_le]
    constructor <;> linarith

/-- **C204, all coefficients vanish** exactly if no column correlates with the outputs by more than `λ α`. -/
theorem c204_zero (minimise : (Vec d → ℝ) → Vec d) (hmin : MinimiseContract minimise) (A : Mat N d) (b : Vec N) (lamda alpha : Option ℝ) (l a : ℝ)
    (hl : l = lamda.getD 1) (ha : a = alpha.getD (1/2)) (hl0 : 0 < l) (ha0 : 0 ≤ a) (ha1 : a < 1) (x : Vec d)
    (hx : elasticNet minimise A b lamda alpha .osqp = .ok x) :
    x = 0 ↔ ∀ j, |∑ i, A i j * b i| ≤ l * a := by
  constructor
  · intro h0 j
    have := (c204_selection minimise hmin A b lamda alpha l a hl ha hl0 ha0 ha1 x hx j).2 (congrFun h0 j)
    simpa [h0] using this
  · intro h
    obtain ⟨-, huniq⟩ := elastic_returned minimise hmin A b lamda alpha l a hl ha hl0 ha0 ha1 x hx
    refine (huniq 0 fun w => ?_).symm
    have e1 : sqRes A b w = sqRes A b 0 - 2 * ∑ j, w j * ∑ i, A i j * b i + ∑ i, (A.mulVec w i) ^ 2 := by
      have e : ∑ j, w j * ∑ i, A i j * b i = ∑ i, A.mulVec w i * b i := by
        simp only [Finset.mul_sum]
        rw [Finset.sum_comm]
        refine Finset.sum_congr rfl fun i _ => ?_
        unfold mulVec dotProduct
        rw [Finset.sum_mul]
        exact Finset.sum_congr rfl fun j _ => by ring
      rw [e]
      unfold sqRes
      rw [Finset.mul_sum, ← Finset.sum_sub_distrib, ← Finset.sum_add_distrib]
      refine Finset.sum_congr rfl fun i _ => ?_
      simp only [mulVec_zero, Pi.zero_apply]
      ring
    have e2 : ∑ j, w j * ∑ i, A i j * b i ≤ l * a * ∑ j, |w j| := by
      rw [Finset.mul_sum]
      refine Finset.sum_le_sum fun j _ => ?_
      refine (le_abs_self _).trans ?_
      rw [abs_mul, mul_comm]
      exact mul_le_mul_of_nonneg_right (h j) (abs_nonneg _)
    have e3 : 0 ≤ ∑ i, (A.mulVec w i) ^ 2 := Finset.sum_nonneg fun _ _ => sq_nonneg _
    have e4 : 0 ≤ l * (1 - a) * ∑ j, w j ^ 2 := mul_nonneg (mul_nonneg hl0.le (by linarith)) (Finset.sum_nonneg fun _ _ => sq_nonneg _)
    have e5 : elasticLoss A b l a 0 = sqRes A b 0 / 2 := by simp [elasticLoss]
    rw [e5]
    unfold elasticLoss
    rw [e1]
    nlinarith

/-- **C204, a larger `λ` shrinks.** With the same `α`, the penalty of the coefficients does not grow with `λ` and the sum of squared residuals does not fall. -/
theorem c204_path (minimise : (Vec d → ℝ) → Vec d) (hmin : MinimiseContract minimise) (A : Mat N d) (b : Vec N) (l l' a : ℝ)
    (hl0 : 0 < l) (hl : l < l') (ha0 : 0 ≤ a) (ha1 : a < 1) (x x' : Vec d)
    (hx : elasticNet minimise A b (some l) (some a) .osqp = .ok x) (hx' : elasticNet minimise A b (some l') (some a) .osqp = .ok x') :
    a * ∑ j, |x' j| + (1 - a) / 2 * ∑ j, x' j ^ 2 ≤ a * ∑ j, |x j| + (1 - a) / 2 * ∑ j, x j ^ 2 ∧
    ∑ i, (∑ k, A i k * x k - b i) ^ 2 ≤ ∑ i, (∑ k, A i k * x' k - b i) ^ 2 := by
  have h1 := (elastic_returned minimise hmin A b (some l) (some a) l a rfl rfl hl0 ha0 ha1 x hx).1 x'
  have h2 := (elastic_returned minimise hmin A b (some l') (some a) l' a rfl rfl (hl0.trans hl) ha0 ha1 x' hx').1 x
  unfold elasticLoss at h1 h2
  set P := a * ∑ j, |x j| + (1 - a) / 2 * ∑ j, x j ^ 2
  set P' := a * ∑ j, |x' j| + (1 - a) / 2 * ∑ j, x' j ^ 2
  have hP : P' ≤ P := by
    by_contra hc
    push Not at hc
    have := mul_pos (sub_pos.2 hl) (sub_pos.2 hc)
    nlinarith
  refine ⟨hP, ?_⟩
  have : sqRes A b x ≤ sqRes A b x' := by
    have := mul_le_mul_of_nonneg_left hP hl0.le
    linarith
  exact this

/-- **C204, noise is damped.** Other outputs: the squared change of the fit at the samples, plus `2 λ (1 - α)` times the squared change of the coefficients, is at most the squared change of the
outputs. -/
theorem c204_stable (minimise : (Vec d → ℝ) → Vec d) (hmin : MinimiseContract minimise) (A : Mat N d) (b b' : Vec N) (lamda alpha : Option ℝ) (l a : ℝ)
    (hl : l = lamda.getD 1) (ha : a = alpha.getD (1/2)) (hl0 : 0 < l) (ha0 : 0 ≤ a) (ha1 : a < 1) (x x' : Vec d)
    (hx : elasticNet minimise A b lamda alpha .osqp = .ok x) (hx' : elasticNet minimise A b' lamda alpha .osqp = .ok x') :
    ∑ i, (∑ k, A i k * x' k - ∑ k, A i k * x k) ^ 2 + 2 * l * (1 - a) * ∑ j, (x' j - x j) ^ 2 ≤ ∑ i, (b' i - b i) ^ 2 := by
  have hla : 0 ≤ l * a := mul_nonneg hl0.le ha0
  have h1 := elastic_vi A b l a hla x (elastic_returned minimise hmin A b lamda alpha l a hl ha hl0 ha0 ha1 x hx).1 x'
  have h2 := elastic_vi A b' l a hla x' (elastic_returned minimise hmin A b' lamda alpha l a hl ha hl0 ha0 ha1 x' hx').1 x
  have e1 : ∑ i, (A.mulVec x i - b i) * (A.mulVec x' i - A.mulVec x i) + ∑ i, (A.mulVec x' i - b' i) * (A.mulVec x i - A.mulVec x' i) =
      -∑ i, (A.mulVec x' i - A.mulVec x i) ^ 2 + ∑ i, (A.mulVec x' i - A.mulVec x i) * (b' i - b i) := by
    rw [← Finset.sum_add_distrib, ← Finset.sum_neg_distrib, ← Finset.sum_add_distrib]
    exact Finset.sum_congr rfl fun i _ => by ring
  have e2 : ∑ j, x j * (x' j - x j) + ∑ j, x' j * (x j - x' j) = -∑ j, (x' j - x j) ^ 2 := by
    rw [← Finset.sum_add_distrib, ← Finset.sum_neg_distrib]
    exact Finset.sum_congr rfl fun j _ => by ring
  have e3 : 2 * ∑ i, (A.mulVec x' i - A.mulVec x i) * (b' i - b i) ≤ ∑ i, (A.mulVec x' i - A.mulVec x i) ^ 2 + ∑ i, (b' i - b i) ^ 2 := by
    rw [Finset.mul_sum, ← Finset.sum_add_distrib]
    exact Finset.sum_le_sum fun i _ => by nlinarith [sq_nonneg (A.mulVec x' i - A.mulVec x i - (b' i - b i))]
  show ∑ i, (A.mulVec x' i - A.mulVec x i) ^ 2 + _ ≤ _
  have e4 : l * (1 - a) * ∑ j, x j * (x' j - x j) + l * (1 - a) * ∑ j, x' j * (x j - x' j) = -(l * (1 - a) * ∑ j, (x' j - x j) ^ 2) := by
    rw [← mul_add, e2]; ring
  nlinarith

/-- Two columns and three samples, the default arguments: coefficients are returned, and they are not all zero. -/
example : ∃ minimise : (Vec 2 → ℝ) → Vec 2, MinimiseContract minimise ∧
    ∃ x, elasticNet minimise (!![1, 0; 1, 1; 1, 2] : Mat 3 2) ![1, 2, 4] none none .osqp = .ok x ∧ x ≠ 0 := by
  classical
  have hm : MinimiseContract (fun f : Vec 2 → ℝ => if h : ∃ x, ∀ z, f x ≤ f z then h.choose else 0) := by
    intro f h
    simp only [dif_pos h]
    exact h.choose_spec
  obtain ⟨x, hx, -⟩ := c84_elastic_net _ hm (!![1, 0; 1, 1; 1, 2] : Mat 3 2) ![1, 2, 4] none none 1 (1/2) rfl rfl (by norm_num) (by norm_num) (by norm_num)
  refine ⟨_, hm, x, hx, fun h0 => ?_⟩
  have := (c204_zero _ hm _ _ none none 1 (1/2) rfl rfl (by norm_num) (by norm_num) (by norm_num) x hx).1 h0 0
  norm_num [Fin.sum_univ_three, Matrix.cons_val_two] at this

end EQ.Solver
