import Verif.Data.ScoreProps

/-!
# How the scores relate to each other, to other predictions and to parts of the data (C240)
-/

namespace EQ.Data
open EQ.Basis

variable {n m : ℕ}

theorem mean_mono {v w : Fin n → ℝ} (h : ∀ i, v i ≤ w i) : mean v ≤ mean w :=
  div_le_div_of_nonneg_right (Finset.sum_le_sum fun i _ => h i) (Nat.cast_nonneg n)

theorem mean_sq_nonneg (v : Fin n → ℝ) : 0 ≤ mean fun i => v i ^ 2 := mean_nonneg fun i => sq_nonneg (v i)

theorem mean_mul_sq_le (v w : Fin n → ℝ) : mean (fun i => v i * w i) ^ 2 ≤ mean (fun i => v i ^ 2) * mean fun i => w i ^ 2 := by
  unfold mean
  rw [div_pow, div_mul_div_comm, ← sq]
  exact div_le_div_of_nonneg_right (Finset.sum_mul_sq_le_sq_mul_sq _ _ _) (sq_nonneg _)

/-- The root mean square of a sum is at most the sum of the root mean squares. -/
theorem rms_add_le (v w : Fin n → ℝ) :
    Real.sqrt (mean fun i => (v i + w i) ^ 2) ≤ Real.sqrt (mean fun i => v i ^ 2) + Real.sqrt (mean fun i => w i ^ 2) := by
  have hv := mean_sq_nonneg v
  have hw := mean_sq_nonneg w
  have hc : mean (fun i => v i * w i) ≤ Real.sqrt (mean fun i => v i ^ 2) * Real.sqrt (mean fun i => w i ^ 2) := by
    rw [← Real.sqrt_mul hv]
    exact Real.le_sqrt_of_sq_le (mean_mul_sq_le v w)
  refine Real.sqrt_le_iff.2 ⟨by positivity, ?_⟩
  have e : mean (fun i => (v i + w i) ^ 2) = mean (fun i => v i ^ 2) + 2 * mean (fun i => v i * w i) + mean fun i => w i ^ 2 := by
    rw [← mean_mul, ← mean_add, ← mean_add]
    congr 1
    funext i
    ring
  rw [e, add_sq, Real.sq_sqrt hv, Real.sq_sqrt hw]
  linarith

/-- C240, the two errors: the mean absolute error is at most the root mean square error, and that at most the square root of the
number of observations times the former. The mean square error is the square of the mean error plus the variance of the errors. -/
theorem c240_errors (hn : 0 < n) (y p : Fin n → ℝ) (X : Option (ℕ × ℕ)) : ∃ a r, score y p .mae X = .ok a ∧ score y p .rmse X = .ok r ∧
    0 ≤ a ∧ a ≤ r ∧ r ≤ Real.sqrt n * a ∧
    r ^ 2 = ((∑ i, (y i - p i)) / n) ^ 2 + (∑ i, (y i - p i - (∑ k, (y k - p k)) / n) ^ 2) / n := by
  have hn' : (0 : ℝ) < n := Nat.cast_pos.2 hn
  have ha : 0 ≤ mean fun i => |y i - p i| := mean_nonneg fun i => abs_nonneg _
  refine ⟨_, _, rfl, rfl, ha, ?_, ?_, ?_⟩
  · refine Real.le_sqrt_of_sq_le ((sq_mean_le _).trans (le_of_eq ?_))
    simp only [sq_abs]
  · refine Real.sqrt_le_iff.2 ⟨by positivity, ?_⟩
    rw [mul_pow, Real.sq_sqrt hn'.le]
    unfold mean
    rw [div_pow, sq (n : ℝ), mul_div_assoc', mul_div_mul_left _ _ hn'.ne']
    refine div_le_div_of_nonneg_right ?_ hn'.le
    have := Finset.sum_sq_le_sq_sum_of_nonneg (s := Finset.univ) (f := fun i => |y i - p i|) fun i _ => abs_nonneg _
    simpa only [sq_abs] using this
  · rw [Real.sq_sqrt (mean_sq_nonneg fun i => y i - p i)]
    set e := fun i => y i - p i with he
    set s := (∑ k, e k) / n with hs
    have hsum : ∑ k, e k = s * n := by rw [hs, div_mul_cancel₀ _ hn'.ne']
    have : ∑ i, (e i - s) ^ 2 = ∑ i, e i ^ 2 - n * s ^ 2 := by
      have : ∀ i, (e i - s) ^ 2 = e i ^ 2 - 2 * s * e i + s ^ 2 := fun i => by ring
      simp only [this, Finset.sum_add_distrib, Finset.sum_sub_distrib, ← Finset.mul_sum, hsum, Finset.sum_const, Finset.card_univ,
        Fintype.card_fin, nsmul_eq_mul]
      ring
    show (∑ i, e i ^ 2) / n = s ^ 2 + (∑ i, (e i - s) ^ 2) / n
    rw [this]
    field_simp
    ring

/-- C240, other predictions: the errors of two predictions of the same outputs differ by at most the error between the two; if they
differ by at most `ε` everywhere, their scores differ by at most `ε`. -/
theorem c240_stable (y p q : Fin n → ℝ) (X : Option (ℕ × ℕ)) : ∃ a b c r s t,
    score y p .mae X = .ok a ∧ score y q .mae X = .ok b ∧ score p q .mae X = .ok c ∧
    score y p .rmse X = .ok r ∧ score y q .rmse X = .ok s ∧ score p q .rmse X = .ok t ∧
    |a - b| ≤ c ∧ |r - s| ≤ t ∧ ∀ ε, 0 ≤ ε → (∀ i, |p i - q i| ≤ ε) → |a - b| ≤ ε ∧ |r - s| ≤ ε := by
  have hneg : ∀ v : Fin n → ℝ, (mean fun i => (-v i) ^ 2) = mean fun i => v i ^ 2 := fun v => by simp only [neg_sq]
  have h1 : |(mean fun i => |y i - p i|) - (mean fun i => |y i - q i|)| ≤ mean fun i => |p i - q i| := by
    rw [abs_le]
    constructor
    · have : (mean fun i => |y i - q i|) ≤ mean fun i => |y i - p i| + |p i - q i| := mean_mono fun i => abs_sub_le _ _ _
      rw [mean_add] at this
      linarith
    · have : (mean fun i => |y i - p i|) ≤ mean fun i => |y i - q i| + |p i - q i| := mean_mono fun i => by
        rw [abs_sub_comm (p i) (q i)]
        exact abs_sub_le _ _ _
      rw [mean_add] at this
      linarith
  have h2 : |Real.sqrt (mean fun i => (y i - p i) ^ 2) - Real.sqrt (mean fun i => (y i - q i) ^ 2)| ≤
      Real.sqrt (mean fun i => (p i - q i) ^ 2) := by
    rw [abs_le]
    constructor
    · have := rms_add_le (fun i => y i - p i) fun i => p i - q i
      simp only [sub_add_sub_cancel] at this
      linarith
    · have := rms_add_le (fun i => y i - q i) fun i => -(p i - q i)
      rw [hneg fun i => p i - q i] at this
      have e : (fun i => (y i - q i + -(p i - q i)) ^ 2) = fun i => (y i - p i) ^ 2 := funext fun i => by ring
      rw [e] at this
      linarith
  refine ⟨_, _, _, _, _, _, rfl, rfl, rfl, rfl, rfl, rfl, h1, h2, fun ε h0 hε => ⟨h1.trans ?_, h2.trans ?_⟩⟩
  · refine div_le_of_le_mul₀ (Nat.cast_nonneg n) h0 ((Finset.sum_le_sum fun i _ => hε i).trans (le_of_eq ?_))
    rw [Finset.sum_const, Finset.card_univ, Fintype.card_fin, nsmul_eq_mul, mul_comm]
  · refine Real.sqrt_le_iff.2 ⟨h0, ?_⟩
    refine div_le_of_le_mul₀ (Nat.cast_nonneg n) (sq_nonneg ε)
      ((Finset.sum_le_sum fun i _ => (sq_le_sq' (neg_le_of_abs_le (hε i)) (le_of_abs_le (hε i)))).trans (le_of_eq ?_))
    rw [Finset.sum_const, Finset.card_univ, Fintype.card_fin, nsmul_eq_mul, mul_comm]

/-- C240, parts of the data: over two sets of observations taken together the mean absolute error, and the square of the root mean
square error, are the averages of those over the parts, weighted by their sizes. -/
theorem c240_parts (hn : 0 < n) (hm : 0 < m) (y p : Fin n → ℝ) (y' p' : Fin m → ℝ) (X X' X'' : Option (ℕ × ℕ)) : ∃ a b c r s t,
    score y p .mae X = .ok a ∧ score y' p' .mae X' = .ok b ∧ score (Fin.append y y') (Fin.append p p') .mae X'' = .ok c ∧
    score y p .rmse X = .ok r ∧ score y' p' .rmse X' = .ok s ∧ score (Fin.append y y') (Fin.append p p') .rmse X'' = .ok t ∧
    (n + m) * c = n * a + m * b ∧ (n + m) * t ^ 2 = n * r ^ 2 + m * s ^ 2 := by
  have hn' : (0 : ℝ) < n := Nat.cast_pos.2 hn
  have hm' : (0 : ℝ) < m := Nat.cast_pos.2 hm
  have key : ∀ f : ℝ → ℝ, ((n : ℝ) + m) * mean (fun i => f (Fin.append y y' i - Fin.append p p' i)) =
      n * mean (fun i => f (y i - p i)) + m * mean fun i => f (y' i - p' i) := by
    intro f
    unfold mean
    rw [Fin.sum_univ_add, Nat.cast_add, mul_div_cancel₀ _ (by positivity), mul_div_cancel₀ _ hn'.ne', mul_div_cancel₀ _ hm'.ne']
    simp only [Fin.append_left, Fin.append_right]
  refine ⟨_, _, _, _, _, _, rfl, rfl, rfl, rfl, rfl, rfl, key fun t => |t|, ?_⟩
  rw [Real.sq_sqrt (mean_sq_nonneg fun i => Fin.append y y' i - Fin.append p p' i), Real.sq_sqrt (mean_sq_nonneg fun i => y i - p i),
    Real.sq_sqrt (mean_sq_nonneg fun i => y' i - p' i)]
  exact key fun t => t ^ 2

/-- C240, exchanged arguments: all scores but `normalised_mae` are the same if outputs and predictions are exchanged. -/
theorem c240_exchanged (y p : Fin n → ℝ) (metric : Metric) (hm : metric ≠ .normalisedMae) (X : Option (ℕ × ℕ)) :
    score y p metric X = score p y metric X := by
  have hc : cov y p = cov p y := by
    unfold cov
    congr 1
    funext i
    ring
  have hr : linregressR y p = linregressR p y := by
    unfold linregressR
    rw [hc, mul_comm (cov y y)]
    simp only [or_comm]
  cases metric with
  | r2 => simp only [score, hr]
  | adjustedR2 => simp only [score, hr]
  | mae => simp only [score, abs_sub_comm]
  | normalisedMae => exact absurd rfl hm
  | rmse =>
    simp only [score]
    congr 3
    funext i
    ring
  | other => rfl

/-- `normalised_mae` does depend on the order of its arguments. -/
example : score (![0, 2] : Fin 2 → ℝ) ![0, 0] .normalisedMae none = .ok 1 ∧ score (![0, 0] : Fin 2 → ℝ) ![0, 2] .normalisedMae none = .ok 0 := by
  constructor <;> simp [score, mean, std, Fin.sum_univ_two] <;> norm_num

/-- Errors `1` and `3`: mean `2`, root mean square `√5`. -/
example : ∃ r, score (![1, 3] : Fin 2 → ℝ) ![0, 0] .mae none = .ok 2 ∧ score (![1, 3] : Fin 2 → ℝ) ![0, 0] .rmse none = .ok r ∧ r ^ 2 = 5 := by
  refine ⟨Real.sqrt 5, ?_, ?_, Real.sq_sqrt (by norm_num)⟩
  · simp [score, mean, Fin.sum_univ_two]
    norm_num
  · have : mean (fun i => ((![1, 3] : Fin 2 → ℝ) i - (![0, 0] : Fin 2 → ℝ) i) ^ 2) = 5 := by
      simp [mean, Fin.sum_univ_two]
      norm_num
    simp only [score, this]

end EQ.Data
