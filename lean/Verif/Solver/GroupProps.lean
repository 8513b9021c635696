import Verif.Solver.ElasticProps

/-!
# The elastic net treats similar columns alike (C242)
-/

namespace EQ.Solver
open Matrix

variable {N d : ℕ}

/-- What is left of the correlation of column `j` with the residual: at most `t`, and `t` in the direction of a coefficient that is not zero. -/
theorem elastic_slope {t p c x : ℝ} (ht : 0 ≤ t) (h1 : x ≠ 0 → c = p * x + t * SignType.sign x) (h0 : x = 0 → |c| ≤ t) :
    |c - p * x| ≤ t ∧ (c - p * x) * x = t * |x| := by
  rcases lt_trichotomy x 0 with h | h | h
  · have e := h1 h.ne
    rw [sign_neg h] at e
    have e' : c - p * x = -t := by rw [e]; simp
    rw [e', abs_neg, abs_of_nonneg ht, abs_of_neg h]
    exact ⟨le_refl t, by ring⟩
  · rw [h] at h0 ⊢
    simpa using h0 rfl
  · have e := h1 h.ne'
    rw [sign_pos h] at e
    have e' : c - p * x = t := by rw [e]; simp
    rw [e', abs_of_nonneg ht, abs_of_pos h]
    exact ⟨le_refl t, rfl⟩

/-- **C242, similar columns.** For `s = 1` (columns alike) and `s = -1` (one like the negative of the other): the coefficients of two columns
differ, up to the sign `s`, by at most the correlation of the residual with the difference of the columns, divided by `λ (1 - α)`; hence by at
most the distance of the columns times the norm of the outputs, divided by the same. -/
theorem c242_similar (minimise : (Vec d → ℝ) → Vec d) (hmin : MinimiseContract minimise) (A : Mat N d) (b : Vec N) (lamda alpha : Option ℝ) (l a : ℝ)
    (hl : l = lamda.getD 1) (ha : a = alpha.getD (1/2)) (hl0 : 0 < l) (ha0 : 0 ≤ a) (ha1 : a < 1) (x : Vec d)
    (hx : elasticNet minimise A b lamda alpha .osqp = .ok x) (j k : Fin d) (s : ℝ) (hs : s = 1 ∨ s = -1) :
    l * (1 - a) * |x j - s * x k| ≤ |∑ i, (A i j - s * A i k) * (b i - ∑ q, A i q * x q)| ∧
    (l * (1 - a) * (x j - s * x k)) ^ 2 ≤ (∑ i, (A i j - s * A i k) ^ 2) * ∑ i, b i ^ 2 := by
  have ht : 0 ≤ l * a := mul_nonneg hl0.le ha0
  have hp : 0 < l * (1 - a) := mul_pos hl0 (by linarith)
  have hj := c204_selection minimise hmin A b lamda alpha l a hl ha hl0 ha0 ha1 x hx j
  have hk := c204_selection minimise hmin A b lamda alpha l a hl ha hl0 ha0 ha1 x hx k
  obtain ⟨uj, ej⟩ := elastic_slope ht hj.1 hj.2
  obtain ⟨uk, ek⟩ := elastic_slope ht hk.1 hk.2
  have hC : ∑ i, (A i j - s * A i k) * (b i - ∑ q, A i q * x q) =
      ∑ i, A i j * (b i - ∑ q, A i q * x q) - s * ∑ i, A i k * (b i - ∑ q, A i q * x q) := by
    rw [Finset.mul_sum, ← Finset.sum_sub_distrib]
    exact Finset.sum_congr rfl fun i _ => by ring
  have first : l * (1 - a) * |x j - s * x k| ≤ |∑ i, (A i j - s * A i k) * (b i - ∑ q, A i q * x q)| := by
    rw [hC]
    set cj := ∑ i, A i j * (b i - ∑ q, A i q * x q)
    set ck := ∑ i, A i k * (b i - ∑ q, A i q * x q)
    have hs2 : s * s = 1 := by rcases hs with rfl | rfl <;> norm_num
    have hsa : |s| = 1 := by rcases hs with rfl | rfl <;> norm_num
    have b1 : s * ((cj - l * (1 - a) * x j) * x k) ≤ l * a * |x k| := by
      refine (le_abs_self _).trans ?_
      rw [abs_mul, abs_mul, hsa, one_mul]
      exact mul_le_mul_of_nonneg_right uj (abs_nonneg _)
    have b2 : s * ((ck - l * (1 - a) * x k) * x j) ≤ l * a * |x j| := by
      refine (le_abs_self _).trans ?_
      rw [abs_mul, abs_mul, hsa, one_mul]
      exact mul_le_mul_of_nonneg_right uk (abs_nonneg _)
    have hmono : l * (1 - a) * (x j - s * x k) ^ 2 ≤ (cj - s * ck) * (x j - s * x k) := by
      have : (cj - s * ck) * (x j - s * x k) - l * (1 - a) * (x j - s * x k) ^ 2 =
          (cj - l * (1 - a) * x j) * x j + s * s * ((ck - l * (1 - a) * x k) * x k) -
            s * ((cj - l * (1 - a) * x j) * x k) - s * ((ck - l * (1 - a) * x k) * x j) := by ring
      rw [hs2, ej, ek] at this
      linarith
    by_cases h0 : x j - s * x k = 0
    · rw [h0, abs_zero, mul_zero]
      exact abs_nonneg _
    · have hpos : 0 < |x j - s * x k| := abs_pos.2 h0
      have h1 : l * (1 - a) * |x j - s * x k| * |x j - s * x k| ≤ |cj - s * ck| * |x j - s * x k| := by
        rw [← abs_mul, mul_assoc, ← sq, sq_abs]
        exact hmono.trans (le_abs_self _)
      exact le_of_mul_le_mul_right h1 hpos
  refine ⟨first, ?_⟩
  have hres : ∑ i, (b i - ∑ q, A i q * x q) ^ 2 ≤ ∑ i, b i ^ 2 := by
    have h := (elastic_returned minimise hmin A b lamda alpha l a hl ha hl0 ha0 ha1 x hx).1 0
    have e0 : elasticLoss A b l a 0 = (∑ i, b i ^ 2) / 2 := by simp [elasticLoss, sqRes]
    rw [e0] at h
    unfold elasticLoss at h
    have e1 : sqRes A b x = ∑ i, (b i - ∑ q, A i q * x q) ^ 2 := by
      unfold sqRes
      exact Finset.sum_congr rfl fun i _ => by unfold mulVec dotProduct; ring
    rw [e1] at h
    have p1 : 0 ≤ ∑ j, |x j| := Finset.sum_nonneg fun _ _ => abs_nonneg _
    have p2 : 0 ≤ ∑ j, x j ^ 2 := Finset.sum_nonneg fun _ _ => sq_nonneg _
    have p3 : 0 ≤ l * (a * ∑ j, |x j| + (1 - a) / 2 * ∑ j, x j ^ 2) :=
      mul_nonneg hl0.le (add_nonneg (mul_nonneg ha0 p1) (mul_nonneg (by linarith) p2))
    linarith
  calc (l * (1 - a) * (x j - s * x k)) ^ 2 = (l * (1 - a) * |x j - s * x k|) ^ 2 := by rw [mul_pow _ |x j - s * x k|, sq_abs, ← mul_pow]
    _ ≤ |∑ i, (A i j - s * A i k) * (b i - ∑ q, A i q * x q)| ^ 2 := pow_le_pow_left₀ (mul_nonneg hp.le (abs_nonneg _)) first 2
    _ = (∑ i, (A i j - s * A i k) * (b i - ∑ q, A i q * x q)) ^ 2 := sq_abs _
    _ ≤ (∑ i, (A i j - s * A i k) ^ 2) * ∑ i, (b i - ∑ q, A i q * x q) ^ 2 := Finset.sum_mul_sq_le_sq_mul_sq _ _ _
    _ ≤ _ := mul_le_mul_of_nonneg_left hres (Finset.sum_nonneg fun _ _ => sq_nonneg _)

/-- **C242, equal, opposite and empty columns.** Equal columns get equal coefficients, opposite columns opposite ones, and a column of zeros gets
the coefficient zero. -/
theorem c242_equal (minimise : (Vec d → ℝ) → Vec d) (hmin : MinimiseContract minimise) (A : Mat N d) (b : Vec N) (lamda alpha : Option ℝ) (l a : ℝ)
    (hl : l = lamda.getD 1) (ha : a = alpha.getD (1/2)) (hl0 : 0 < l) (ha0 : 0 ≤ a) (ha1 : a < 1) (x : Vec d)
    (hx : elasticNet minimise A b lamda alpha .osqp = .ok x) (j k : Fin d) :
    ((∀ i, A i j = A i k) → x j = x k) ∧ ((∀ i, A i j = -A i k) → x j = -x k) ∧ ((∀ i, A i j = 0) → x j = 0) := by
  have hp : 0 < l * (1 - a) := mul_pos hl0 (by linarith)
  have key : ∀ (k : Fin d) (s : ℝ), s = 1 ∨ s = -1 → (∀ i, A i j = s * A i k) → x j = s * x k := by
    intro k s hs h
    have := (c242_similar minimise hmin A b lamda alpha l a hl ha hl0 ha0 ha1 x hx j k s hs).1
    simp only [h, sub_self, zero_mul, Finset.sum_const_zero, abs_zero] at this
    have h0 : |x j - s * x k| ≤ 0 := by
      by_contra hc
      push Not at hc
      exact absurd this (not_le.2 (mul_pos hp hc))
    exact sub_eq_zero.1 (abs_nonpos_iff.1 h0)
  refine ⟨fun h => ?_, fun h => ?_, fun h => ?_⟩
  · simpa using key k 1 (Or.inl rfl) fun i => by rw [h, one_mul]
  · simpa using key k (-1) (Or.inr rfl) fun i => by rw [h]; ring
  · have := key j (-1) (Or.inr rfl) fun i => by rw [h]; ring
    linarith

/-- Two equal columns, the default arguments: the coefficients are equal and not zero. -/
example : ∃ minimise : (Vec 2 → ℝ) → Vec 2, MinimiseContract minimise ∧
    ∃ x, elasticNet minimise (!![1, 1; 2, 2] : Mat 2 2) ![1, 2] none none .osqp = .ok x ∧ x 0 = x 1 ∧ x ≠ 0 := by
  classical
  have hm : MinimiseContract (fun f : Vec 2 → ℝ => if h : ∃ x, ∀ z, f x ≤ f z then h.choose else 0) := by
    intro f h
    simp only [dif_pos h]
    exact h.choose_spec
  obtain ⟨x, hx, -⟩ := c84_elastic_net _ hm (!![1, 1; 2, 2] : Mat 2 2) ![1, 2] none none 1 (1/2) rfl rfl (by norm_num) (by norm_num) (by norm_num)
  refine ⟨_, hm, x, hx, ?_, fun h0 => ?_⟩
  · refine (c242_equal _ hm _ _ none none 1 (1/2) rfl rfl (by norm_num) (by norm_num) (by norm_num) x hx 0 1).1 fun i => ?_
    fin_cases i <;> simp
  · have := (c204_zero _ hm _ _ none none 1 (1/2) rfl rfl (by norm_num) (by norm_num) (by norm_num) x hx).1 h0 0
    simp [Fin.sum_univ_two] at this
    norm_num at this

end EQ.Solver
