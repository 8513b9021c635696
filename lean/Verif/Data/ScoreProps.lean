import Verif.Data.Props

/-!
# Scores follow the units and do not depend on the order of the observations (C197); lemmas for C198
-/

namespace EQ.Data

open EQ.Basis

variable {n : ℕ}

theorem mean_perm (σ : Equiv.Perm (Fin n)) (v : Fin n → ℝ) : mean (fun i => v (σ i)) = mean v := by
  unfold mean
  rw [Equiv.sum_comp σ v]

theorem cov_perm (σ : Equiv.Perm (Fin n)) (v w : Fin n → ℝ) : cov (fun i => v (σ i)) (fun i => w (σ i)) = cov v w := by
  unfold cov
  rw [mean_perm σ v, mean_perm σ w]
  exact mean_perm σ fun i => (v i - mean v) * (w i - mean w)

theorem linregressR_perm (σ : Equiv.Perm (Fin n)) (v w : Fin n → ℝ) : linregressR (fun i => v (σ i)) (fun i => w (σ i)) = linregressR v w := by
  unfold linregressR
  simp only [cov_perm]

/-- **C197, order.** No score depends on the order of the observations. -/
theorem c197_order (σ : Equiv.Perm (Fin n)) (y p : Fin n → ℝ) (metric : Metric) (X : Option (ℕ × ℕ)) :
    score (fun i => y (σ i)) (fun i => p (σ i)) metric X = score y p metric X := by
  have h1 := mean_perm σ fun i => |y i - p i|
  have h2 := mean_perm σ fun i => (y i - p i) ^ 2
  have h3 : std (fun i => y (σ i)) = std y := by
    unfold std
    rw [mean_perm σ y]
    exact congrArg Real.sqrt (mean_perm σ fun i => (y i - mean y) ^ 2)
  cases metric <;> simp only [score, linregressR_perm, h1, h2, h3]

theorem cov_affine (hn : 0 < n) (a b a' b' : ℝ) (v w : Fin n → ℝ) : cov (fun i => a * v i + b) (fun i => a' * w i + b') = a * a' * cov v w := by
  unfold cov
  rw [mean_affine hn, mean_affine hn, ← mean_mul (a * a')]
  congr 1
  funext i
  ring

theorem r2_affine (hn : 0 < n) {a a' : ℝ} (ha : a ≠ 0) (ha' : a' ≠ 0) (b b' : ℝ) (v w : Fin n → ℝ) :
    linregressR (fun i => a * v i + b) (fun i => a' * w i + b') ^ 2 = linregressR v w ^ 2 := by
  unfold linregressR
  rw [cov_affine hn, cov_affine hn, cov_affine hn]
  by_cases hv : cov v v = 0
  · simp [hv]
  by_cases hw : cov w w = 0
  · simp [hw]
  have h1 : 0 < cov v v := lt_of_le_of_ne (cov_self_nonneg v) (Ne.symm hv)
  have h2 : 0 < cov w w := lt_of_le_of_ne (cov_self_nonneg w) (Ne.symm hw)
  have h3 : 0 < a * a := mul_self_pos.2 ha
  have h4 : 0 < a' * a' := mul_self_pos.2 ha'
  rw [if_neg (by rintro (h | h) <;> [exact (mul_pos h3 h1).ne' h; exact (mul_pos h4 h2).ne' h]), if_neg (by rintro (h | h) <;> [exact hv h; exact hw h]),
    div_pow, div_pow, Real.sq_sqrt (by positivity), Real.sq_sqrt (by positivity)]
  field_simp

/-- **C197, units.** If outputs and predictions are given in other units, `y ↦ a y + b` with `a ≠ 0`, the mean absolute error and the root of the mean squared error are multiplied by `|a|`, and the
normalised error, `r2` and the adjusted `r2` stay. -/
theorem c197_units (hn : 0 < n) (y p : Fin n → ℝ) (a b : ℝ) (ha : a ≠ 0) (X : Option (ℕ × ℕ)) :
    (∃ m, score y p .mae X = .ok m ∧ score (fun i => a * y i + b) (fun i => a * p i + b) .mae X = .ok (|a| * m)) ∧
    (∃ r, score y p .rmse X = .ok r ∧ score (fun i => a * y i + b) (fun i => a * p i + b) .rmse X = .ok (|a| * r)) ∧
    score (fun i => a * y i + b) (fun i => a * p i + b) .normalisedMae X = score y p .normalisedMae X ∧
    score (fun i => a * y i + b) (fun i => a * p i + b) .r2 X = score y p .r2 X ∧
    score (fun i => a * y i + b) (fun i => a * p i + b) .adjustedR2 X = score y p .adjustedR2 X := by
  have e1 : (mean fun i => |a * y i + b - (a * p i + b)|) = |a| * mean fun i => |y i - p i| := by
    rw [← mean_mul]
    congr 1
    funext i
    rw [← abs_mul]
    congr 1
    ring
  have e2 : (mean fun i => (a * y i + b - (a * p i + b)) ^ 2) = a ^ 2 * mean fun i => (y i - p i) ^ 2 := by
    rw [← mean_mul]
    congr 1
    funext i
    ring
  have e3 : std (fun i => a * y i + b) = |a| * std y := by
    unfold std
    rw [mean_affine hn, ← Real.sqrt_sq_eq_abs, ← Real.sqrt_mul (sq_nonneg a), ← mean_mul (a ^ 2)]
    congr 2
    funext i
    ring
  have e4 := r2_affine hn ha ha b b y p
  have ha' : |a| ≠ 0 := abs_ne_zero.2 ha
  refine ⟨⟨_, rfl, ?_⟩, ⟨_, rfl, ?_⟩, ?_, ?_, ?_⟩
  · simp only [score, e1]
  · simp only [score, e2]
    rw [Real.sqrt_mul (sq_nonneg a), Real.sqrt_sq_eq_abs]
  · simp only [score, e1, e3]
    rw [mul_div_mul_left _ _ ha']
  · simp only [score, e4]
  · cases X <;> simp only [score, e4]

/-- Degrees Celsius and Fahrenheit. -/
example : score (fun i => 9/5 * (![10, 20, 25] : Fin 3 → ℝ) i + 32) (fun i => 9/5 * (![11, 19, 25] : Fin 3 → ℝ) i + 32) .r2 none = score ![10, 20, 25] ![11, 19, 25] .r2 none :=
  (c197_units (by decide) ![10, 20, 25] ![11, 19, 25] (9/5) 32 (by norm_num) none).2.2.2.1

/-- If the residuals have mean zero and are uncorrelated with the predictions, the squared correlation is the fraction of the variance that is explained. -/
theorem r2_explained (hn : 0 < n) (y p : Fin n → ℝ) (h1 : ∑ i, (p i - y i) = 0) (h2 : ∑ i, (p i - y i) * p i = 0) (hy : 0 < cov y y) :
    linregressR y p ^ 2 = 1 - (∑ i, (y i - p i) ^ 2) / ∑ i, (y i - mean y) ^ 2 := by
  have hn' : (0 : ℝ) < n := by exact_mod_cast hn
  have hm : mean p = mean y := by
    unfold mean
    rw [Finset.sum_sub_distrib, sub_eq_zero] at h1
    rw [h1]
  have hyp : cov y p = cov p p := by
    unfold cov mean
    congr 1
    rw [← sub_eq_zero, ← Finset.sum_sub_distrib]
    rw [show (∑ i, p i) / (n : ℝ) = mean p from rfl, show (∑ i, y i) / (n : ℝ) = mean y from rfl, hm]
    have : ∀ i, (y i - mean y) * (p i - mean y) - (p i - mean y) * (p i - mean y) = mean y * (p i - y i) - (p i - y i) * p i := fun i => by ring
    rw [Finset.sum_congr rfl fun i _ => this i, Finset.sum_sub_distrib, ← Finset.mul_sum, h1, h2]
    ring
  have hS : ∑ i, (y i - mean y) ^ 2 = n * cov y y := by
    unfold cov
    nth_rw 2 [mean]
    rw [mul_div_cancel₀ _ hn'.ne']
    exact Finset.sum_congr rfl fun i _ => by ring
  have hE : ∑ i, (y i - p i) ^ 2 = n * (cov y y - cov p p) := by
    have e : (n : ℝ) * (cov y y - cov p p) = n * cov y y - 2 * (n * cov y p) + n * cov p p := by rw [hyp]; ring
    rw [e]
    have hc : ∀ v w : Fin n → ℝ, (n : ℝ) * cov v w = ∑ i, (v i - mean v) * (w i - mean w) := by
      intro v w
      rw [cov, mean, mul_div_cancel₀ _ hn'.ne']
    rw [hc, hc, hc, hm, Finset.mul_sum, ← Finset.sum_sub_distrib, ← Finset.sum_add_distrib]
    exact Finset.sum_congr rfl fun i _ => by ring
  rw [hS, hE, mul_div_mul_left _ _ hn'.ne', sub_div, div_self hy.ne', sub_sub_cancel]
  unfold linregressR
  by_cases hp : cov p p = 0
  · rw [if_pos (.inr hp), hp]
    simp
  · have hp' : 0 < cov p p := lt_of_le_of_ne (cov_self_nonneg p) (Ne.symm hp)
    rw [if_neg (by rintro (h | h) <;> [exact hy.ne' h; exact hp h]), div_pow, Real.sq_sqrt (by positivity), hyp]
    field_simp

end EQ.Data
