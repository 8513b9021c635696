import Verif.Data.Model
import Mathlib.Algebra.BigOperators.Field
import Mathlib.Algebra.Order.BigOperators.Ring.Finset
import Mathlib.Tactic.FieldSimp
import Mathlib.Tactic.Linarith
import Mathlib.Tactic.FinCases
import Mathlib.Tactic.NormNum

/-!
# Properties of the data utilities: C68, C69, C100, C101
-/

namespace EQ.Data

open EQ.Basis

/-! ## C68: the split is a partition -/

theorem slice_append (l : List α) (k : ℤ) : sliceTo l k ++ sliceFrom l k = l := List.take_append_drop _ _

/-- C68. For every data set, every ratio and every permutation of the rows, the two parts together hold each pair
`(X row, y row)` exactly as often as the data do (so they are disjoint and leave nothing out), `X` and `y` stay paired, and
for a ratio in `[0, 1]` the training part has `floor (ratio * rows)` rows. Without shuffling the order is kept. -/
theorem c68_split (X : Fin n → α) (y : Fin n → β) (train : ℝ) (perm : List (Fin n)) (hp : perm.Perm (List.finRange n))
    (shuffle : Bool) :
    ∃ a b c d, trainTestSplit X y train perm shuffle = .ok (a, b, c, d) ∧
      (a.zip c ++ b.zip d).Perm (List.ofFn fun i => (X i, y i)) ∧ a.length = c.length ∧ b.length = d.length ∧
      a.length + b.length = n ∧ (0 ≤ train → train ≤ 1 → a.length = ⌊train * n⌋₊) ∧
      (shuffle = false → a ++ b = List.ofFn X ∧ c ++ d = List.ofFn y) := by
  have hc : train > 0 ∨ train < 1 := by
    by_cases h : train > 0
    · exact Or.inl h
    · exact Or.inr (by linarith)
  set idx := if shuffle then perm else List.finRange n with hidx
  have hI : idx.Perm (List.finRange n) := by
    rw [hidx]; split_ifs
    · exact hp
    · exact List.Perm.refl _
  have hz : ∀ l : List (Fin n), (l.map X).zip (l.map y) = l.map fun i => (X i, y i) := fun l => by
    rw [List.zip_map']
  have happ := slice_append idx (pyInt (train * n))
  set k := pyInt (train * n) with hk
  refine ⟨(sliceTo idx k).map X, (sliceFrom idx k).map X, (sliceTo idx k).map y, (sliceFrom idx k).map y, ?_, ?_, ?_, ?_, ?_,
    ?_, ?_⟩
  · unfold trainTestSplit
    rw [dif_pos rfl, if_pos hc]
    rfl
  · rw [hz, hz, ← List.map_append, happ, List.ofFn_eq_map]
    exact hI.map _
  · simp
  · simp
  · rw [List.length_map, List.length_map, ← List.length_append, happ, hI.length_eq, List.length_finRange]
  · intro h0 h1
    have hn : (0 : ℝ) ≤ n := Nat.cast_nonneg n
    have hx : 0 ≤ train * n := mul_nonneg h0 hn
    have hf : k = ((⌊train * n⌋₊ : ℕ) : ℤ) := by
      rw [hk]; unfold pyInt; rw [if_pos hx]; exact (Int.natCast_floor_eq_floor hx).symm
    have hle : ⌊train * n⌋₊ ≤ n := by
      refine Nat.floor_le_of_le ?_
      nlinarith
    rw [List.length_map]
    unfold sliceTo
    rw [hf, if_pos (Int.natCast_nonneg _), Int.toNat_natCast, List.length_take, hI.length_eq, List.length_finRange]
    exact min_eq_left hle
  · intro hs
    have : idx = List.finRange n := by rw [hidx, hs]; rfl
    rw [← List.map_append, ← List.map_append, happ, this, List.ofFn_eq_map, List.ofFn_eq_map]
    exact ⟨rfl, rfl⟩

/-- A shuffle of three rows with ratio 0.7: two rows for training, one for the test. -/
example : ∃ a b c d, trainTestSplit ![10, 20, 30] ![1, 2, 3] (7/10) [2, 0, 1] true = .ok (a, b, c, d) ∧
    a.length = 2 ∧ a.length + b.length = 3 := by
  obtain ⟨a, b, c, d, h, -, -, -, h4, h5, -⟩ := c68_split ![10, 20, 30] ![1, 2, 3] (7/10) [2, 0, 1] (by decide) true
  refine ⟨a, b, c, d, h, ?_, h4⟩
  rw [h5 (by norm_num) (by norm_num)]
  rw [Nat.floor_eq_iff (by norm_num)]
  norm_num

/-! ## C101: bad arguments of the split -/

/-- C101 (partial). Different numbers of rows are refused, whatever the other arguments. -/
theorem c101_rows_partial (X : Fin n → α) (y : Fin m → β) (h : n ≠ m) (train : ℝ) (perm : List (Fin n)) (s : Bool) :
    trainTestSplit X y train perm s = .error .valueError := by
  unfold trainTestSplit; rw [dif_neg h]

example : trainTestSplit ![1, 2] ![1, 2, 3] (1/2) [0, 1] true = .error .valueError := c101_rows_partial _ _ (by decide) _ _ _

/-- C101 is violated: no ratio is ever refused. The test `train > 0 or train < 1` is always true. With the ratio 2 all
rows are for training and none for the test. -/
theorem c101_ratio_violated (X : Fin n → α) (y : Fin n → β) (perm : List (Fin n)) (s : Bool) :
    (∀ train : ℝ, ∃ r, trainTestSplit X y train perm s = .ok r) ∧
    (perm.Perm (List.finRange n) → ∃ a c, trainTestSplit X y 2 perm s = .ok (a, [], c, [])) := by
  have hc : ∀ train : ℝ, train > 0 ∨ train < 1 := fun train => by
    by_cases h : train > 0
    · exact Or.inl h
    · exact Or.inr (by linarith)
  refine ⟨fun train => ⟨_, by unfold trainTestSplit; rw [dif_pos rfl, if_pos (hc train)]⟩, fun hp => ?_⟩
  have hlen : (if s then perm else List.finRange n).length = n := by
    split_ifs
    · rw [hp.length_eq, List.length_finRange]
    · exact List.length_finRange
  have hpy : pyInt (2 * (n : ℝ)) = ((2 * n : ℕ) : ℤ) := by
    unfold pyInt
    rw [if_pos (by positivity)]
    have : (2 * (n : ℝ)) = (((2 * n : ℕ) : ℤ) : ℝ) := by push_cast; ring
    rw [this, Int.floor_intCast]
  have hd : sliceFrom (if s then perm else List.finRange n) (pyInt (2 * (n : ℝ))) = [] := by
    unfold sliceFrom
    rw [hpy, if_pos (Int.natCast_nonneg _), Int.toNat_natCast]
    exact List.drop_eq_nil_of_le (by rw [hlen]; omega)
  set idx := if s then perm else List.finRange n with hidx
  refine ⟨(sliceTo idx (pyInt (2 * (n : ℝ)))).map X, (sliceTo idx (pyInt (2 * (n : ℝ)))).map y, ?_⟩
  unfold trainTestSplit
  rw [dif_pos rfl, if_pos (hc 2)]
  simp only [← hidx, hd, List.map_nil]
  rfl

example : ∃ a c, trainTestSplit ![10, 20, 30] ![1, 2, 3] 2 [2, 0, 1] true = .ok (a, [], c, []) :=
  (c101_ratio_violated _ _ _ _).2 (by decide)

/-! ## C69: standardising -/

theorem colMin_le (X : Fin (n+1) → Fin d → ℝ) (i : Fin (n+1)) (j : Fin d) : colMin X j ≤ X i j :=
  Finset.inf'_le (fun i => X i j) (Finset.mem_univ i)

theorem le_colMax (X : Fin (n+1) → Fin d → ℝ) (i : Fin (n+1)) (j : Fin d) : X i j ≤ colMax X j :=
  Finset.le_sup' (fun i => X i j) (Finset.mem_univ i)

theorem exists_colMin (X : Fin (n+1) → Fin d → ℝ) (j : Fin d) : ∃ i, X i j = colMin X j := by
  obtain ⟨i, -, h⟩ := Finset.exists_mem_eq_inf' Finset.univ_nonempty fun i => X i j
  exact ⟨i, h.symm⟩

theorem exists_colMax (X : Fin (n+1) → Fin d → ℝ) (j : Fin d) : ∃ i, X i j = colMax X j := by
  obtain ⟨i, -, h⟩ := Finset.exists_mem_eq_sup' Finset.univ_nonempty fun i => X i j
  exact ⟨i, h.symm⟩

theorem colMin_lt_colMax {X : Fin (n+1) → Fin d → ℝ} {j : Fin d} (h : ∃ a b, X a j ≠ X b j) : colMin X j < colMax X j := by
  obtain ⟨a, b, hab⟩ := h
  rcases lt_or_gt_of_ne hab with h | h
  · exact lt_of_le_of_lt (colMin_le X a j) (lt_of_lt_of_le h (le_colMax X b j))
  · exact lt_of_le_of_lt (colMin_le X b j) (lt_of_lt_of_le h (le_colMax X a j))

/-- C69 (partial: float arrays). Every non-constant column is mapped into `[-1, 1]`, both ends are attained, the order of
the entries is kept, `unstandardise` restores the data exactly, it undoes new standardised points as well, and
standardising twice changes nothing. -/
theorem c69_standardise_partial (X : Fin (n+1) → Fin d → ℝ) (hX : ∀ j, ∃ a b, X a j ≠ X b j) :
    (∀ i j, -1 ≤ standardise .float X i j ∧ standardise .float X i j ≤ 1) ∧
    (∀ j, (∃ i, standardise .float X i j = -1) ∧ ∃ i, standardise .float X i j = 1) ∧
    (∀ i k j, standardise .float X i j ≤ standardise .float X k j ↔ X i j ≤ X k j) ∧
    unstandardise .float (standardise .float X) X = X ∧
    standardise .float (standardise .float X) = standardise .float X := by
  have hpos : ∀ j, 0 < colMax X j - colMin X j := fun j => by have := colMin_lt_colMax (hX j); linarith
  have key : ∀ i j, standardise .float X i j = 2 * ((X i j - colMin X j) / (colMax X j - colMin X j)) - 1 := fun i j => rfl
  have hb : ∀ i j, -1 ≤ standardise .float X i j ∧ standardise .float X i j ≤ 1 := fun i j => by
    rw [key]
    have h1 : 0 ≤ (X i j - colMin X j) / (colMax X j - colMin X j) :=
      div_nonneg (by have := colMin_le X i j; linarith) (hpos j).le
    have h2 : (X i j - colMin X j) / (colMax X j - colMin X j) ≤ 1 :=
      (div_le_one (hpos j)).2 (by have := le_colMax X i j; linarith)
    constructor <;> linarith
  have hlo : ∀ j, ∃ i, standardise .float X i j = -1 := fun j => by
    obtain ⟨i, hi⟩ := exists_colMin X j
    exact ⟨i, by rw [key, hi, sub_self, zero_div]; norm_num⟩
  have hhi : ∀ j, ∃ i, standardise .float X i j = 1 := fun j => by
    obtain ⟨i, hi⟩ := exists_colMax X j
    exact ⟨i, by rw [key, hi, div_self (hpos j).ne']; norm_num⟩
  refine ⟨hb, fun j => ⟨hlo j, hhi j⟩, fun i k j => ?_, ?_, ?_⟩
  · rw [key, key]
    have : (X i j - colMin X j) / (colMax X j - colMin X j) ≤ (X k j - colMin X j) / (colMax X j - colMin X j) ↔ X i j ≤ X k j := by
      rw [div_le_div_iff_of_pos_right (hpos j)]
      constructor <;> intro h <;> linarith
    rw [← this]
    constructor <;> intro h <;> linarith
  · funext i j
    show 1/2 * (standardise .float X i j + 1) * (colMax X j - colMin X j) + colMin X j = X i j
    rw [key]
    have := (hpos j).ne'
    field_simp
    ring
  · have hmin : ∀ j, colMin (standardise .float X) j = -1 := fun j => by
      obtain ⟨i, hi⟩ := hlo j
      refine le_antisymm ?_ ?_
      · rw [← hi]; exact colMin_le _ i j
      · obtain ⟨k, hk⟩ := exists_colMin (standardise .float X) j
        rw [← hk]; exact (hb k j).1
    have hmax : ∀ j, colMax (standardise .float X) j = 1 := fun j => by
      obtain ⟨i, hi⟩ := hhi j
      refine le_antisymm ?_ ?_
      · obtain ⟨k, hk⟩ := exists_colMax (standardise .float X) j
        rw [← hk]; exact (hb k j).2
      · rw [← hi]; exact le_colMax _ i j
    funext i j
    show 2 * ((standardise .float X i j - colMin (standardise .float X) j) /
      (colMax (standardise .float X) j - colMin (standardise .float X) j)) - 1 = _
    rw [hmin, hmax]; ring

/-- Four rows, one column. -/
def colDemo : Fin (3+1) → Fin 1 → ℝ := fun i _ => ![0, 1, 2, 10] i

example : ∀ j, ∃ a b, colDemo a j ≠ colDemo b j := fun j => ⟨0, 1, by simp [colDemo]⟩

theorem colDemo_max : colMax colDemo 0 = 10 := by
  refine le_antisymm ?_ ?_
  · refine Finset.sup'_le _ _ fun i _ => ?_
    fin_cases i <;> norm_num [colDemo]
  · have := le_colMax colDemo 3 0
    simpa [colDemo] using this

theorem colDemo_min : colMin colDemo 0 = 0 := by
  refine le_antisymm ?_ ?_
  · have := colMin_le colDemo 0 0
    simpa [colDemo] using this
  · refine Finset.le_inf' _ _ fun i _ => ?_
    fin_cases i <;> simp [colDemo]

/-- C69 is violated for integer arrays: the result is stored in an array of the type of the data, so everything strictly
between the extreme values becomes 0. The column 0, 1, 2, 10 is standardised to -1, 0, 0, 1, and `unstandardise` returns 5
where the data hold 1 and 2. -/
theorem c69_integer_violated :
    standardise .int colDemo 1 0 = 0 ∧ standardise .int colDemo 2 0 = 0 ∧
    unstandardise .int (standardise .int colDemo) colDemo 1 0 = 5 ∧ colDemo 1 0 = 1 := by
  have h1 : standardise .int colDemo 1 0 = 0 := by
    show ((pyInt (2 * ((colDemo 1 0 - colMin colDemo 0) / (colMax colDemo 0 - colMin colDemo 0)) - 1) : ℤ) : ℝ) = 0
    rw [colDemo_max, colDemo_min]
    have : (2 * (((colDemo 1 0 : ℝ) - 0) / (10 - 0)) - 1) = -(4/5) := by simp [colDemo]; norm_num
    rw [this]
    unfold pyInt
    rw [if_neg (by norm_num)]
    have : ⌈(-(4/5) : ℝ)⌉ = 0 := by rw [Int.ceil_eq_iff]; norm_num
    rw [this]; simp
  have h2 : standardise .int colDemo 2 0 = 0 := by
    show ((pyInt (2 * ((colDemo 2 0 - colMin colDemo 0) / (colMax colDemo 0 - colMin colDemo 0)) - 1) : ℤ) : ℝ) = 0
    rw [colDemo_max, colDemo_min]
    have : (2 * (((colDemo 2 0 : ℝ) - 0) / (10 - 0)) - 1) = -(3/5) := by simp [colDemo]; norm_num
    rw [this]
    unfold pyInt
    rw [if_neg (by norm_num)]
    have : ⌈(-(3/5) : ℝ)⌉ = 0 := by rw [Int.ceil_eq_iff]; norm_num
    rw [this]; simp
  refine ⟨h1, h2, ?_, by simp [colDemo]⟩
  show ((pyInt (1/2 * (standardise .int colDemo 1 0 + 1) * (colMax colDemo 0 - colMin colDemo 0) + colMin colDemo 0) : ℤ) : ℝ) = 5
  rw [h1, colDemo_max, colDemo_min]
  unfold pyInt
  rw [if_pos (by norm_num)]
  have : ⌊(1/2 * (0 + 1) * (10 - 0) + 0 : ℝ)⌋ = 5 := by rw [Int.floor_eq_iff]; norm_num
  rw [this]; norm_num

/-! ## C100: scores -/

theorem mean_nonneg {v : Fin n → ℝ} (h : ∀ i, 0 ≤ v i) : 0 ≤ mean v :=
  div_nonneg (Finset.sum_nonneg fun i _ => h i) (Nat.cast_nonneg n)

theorem mean_eq_zero (hn : 0 < n) {v : Fin n → ℝ} (h : ∀ i, 0 ≤ v i) : mean v = 0 ↔ ∀ i, v i = 0 := by
  have hn' : (n : ℝ) ≠ 0 := by positivity
  unfold mean
  rw [div_eq_zero_iff, or_iff_left hn', Finset.sum_eq_zero_iff_of_nonneg fun i _ => h i]
  simp

theorem sq_mean_le (v : Fin n → ℝ) : mean v ^ 2 ≤ mean fun i => v i ^ 2 := by
  unfold mean
  rcases Nat.eq_zero_or_pos n with rfl | hn
  · simp
  have hn' : (0 : ℝ) < n := by exact_mod_cast hn
  have h := Finset.sum_mul_sq_le_sq_mul_sq Finset.univ (fun _ : Fin n => (1 : ℝ)) v
  simp only [one_mul, one_pow, Finset.sum_const, Finset.card_univ, Fintype.card_fin, nsmul_eq_mul, mul_one] at h
  rw [div_pow, div_le_div_iff₀ (by positivity) hn']
  nlinarith [mul_le_mul_of_nonneg_right h hn'.le]

theorem cov_self_nonneg (v : Fin n → ℝ) : 0 ≤ cov v v := mean_nonneg fun i => mul_self_nonneg _

theorem cov_sq_le (v w : Fin n → ℝ) : cov v w ^ 2 ≤ cov v v * cov w w := by
  unfold cov mean
  have h := Finset.sum_mul_sq_le_sq_mul_sq Finset.univ (fun i => v i - (∑ i, v i) / n) (fun i => w i - (∑ i, w i) / n)
  rw [div_pow, div_mul_div_comm, ← pow_two]
  refine div_le_div_of_nonneg_right ?_ (by positivity)
  calc _ ≤ _ := h
    _ = _ := by simp only [pow_two]

/-- The data are constant exactly if their variance is zero. -/
theorem cov_self_eq_zero (hn : 0 < n) (v : Fin n → ℝ) : cov v v = 0 ↔ ∀ a b, v a = v b := by
  unfold cov
  rw [mean_eq_zero hn fun i => mul_self_nonneg _]
  constructor
  · intro h a b
    have ha := mul_self_eq_zero.1 (h a)
    have hb := mul_self_eq_zero.1 (h b)
    linarith
  · intro h i
    have : mean v = v i := by
      unfold mean
      rw [Finset.sum_congr rfl fun k _ => h k i]
      have hn' : (n : ℝ) ≠ 0 := by positivity
      simp only [Finset.sum_const, Finset.card_univ, Fintype.card_fin, nsmul_eq_mul]
      field_simp
    rw [this]; simp

theorem mean_affine (hn : 0 < n) (a b : ℝ) (v : Fin n → ℝ) : mean (fun i => a * v i + b) = a * mean v + b := by
  have hn' : (n : ℝ) ≠ 0 := by positivity
  unfold mean
  rw [Finset.sum_add_distrib, ← Finset.mul_sum]
  simp only [Finset.sum_const, Finset.card_univ, Fintype.card_fin, nsmul_eq_mul]
  field_simp

theorem mean_mul (c : ℝ) (v : Fin n → ℝ) : mean (fun i => c * v i) = c * mean v := by
  unfold mean; rw [← Finset.mul_sum, mul_div_assoc]

theorem mean_add (v w : Fin n → ℝ) : mean (fun i => v i + w i) = mean v + mean w := by
  unfold mean; rw [Finset.sum_add_distrib, add_div]

/-- C100 (partial). The error scores: `mae`, `rmse` and `normalised_mae` (of non-constant data) are zero exactly for the
correct predictions; they are never negative, `mae` is at most `rmse`, and exchanging truth and prediction changes neither. -/
theorem c100_errors_partial (hn : 0 < n) (y p : Fin n → ℝ) (X : Option (ℕ × ℕ)) :
    ∃ m r, score y p .mae X = .ok m ∧ score y p .rmse X = .ok r ∧ score p y .mae X = .ok m ∧ score p y .rmse X = .ok r ∧
      0 ≤ m ∧ m ≤ r ∧ (m = 0 ↔ p = y) ∧ (r = 0 ↔ p = y) ∧
      ((∃ a b, y a ≠ y b) → ∃ e, score y p .normalisedMae X = .ok e ∧ 0 ≤ e ∧ (e = 0 ↔ p = y)) := by
  have h0 : 0 ≤ mean fun i => |y i - p i| := mean_nonneg fun i => abs_nonneg _
  have hz : (mean fun i => |y i - p i|) = 0 ↔ p = y := by
    rw [mean_eq_zero hn fun i => abs_nonneg _]
    constructor
    · intro h; funext i; have := abs_eq_zero.1 (h i); linarith
    · rintro rfl i; simp
  refine ⟨mean fun i => |y i - p i|, Real.sqrt (mean fun i => (y i - p i) ^ 2), rfl, rfl, ?_, ?_, h0, ?_, hz, ?_, ?_⟩
  · show Except.ok _ = _
    simp only [abs_sub_comm]
  · show Except.ok _ = _
    have : ∀ i, (p i - y i) ^ 2 = (y i - p i) ^ 2 := fun i => by ring
    simp only [this]
  · refine Real.le_sqrt_of_sq_le ?_
    have := sq_mean_le fun i => |y i - p i|
    simpa only [sq_abs] using this
  · rw [Real.sqrt_eq_zero (mean_nonneg fun i => sq_nonneg _), mean_eq_zero hn fun i => sq_nonneg _]
    constructor
    · intro h; funext i; have := pow_eq_zero_iff (two_ne_zero) |>.1 (h i); linarith
    · rintro rfl i; simp
  · rintro ⟨a, b, hab⟩
    have hs : 0 < std y := by
      unfold std
      refine Real.sqrt_pos.2 (lt_of_le_of_ne (mean_nonneg fun i => sq_nonneg _) fun h => hab ?_)
      refine (cov_self_eq_zero hn y).1 ?_ a b
      unfold cov
      rw [h]
      simp only [pow_two]
    exact ⟨_, rfl, div_nonneg h0 hs.le, by rw [div_eq_zero_iff, or_iff_left hs.ne', hz]⟩

example : ∃ m r, score ![1, 2] ![1, 4] .mae none = .ok m ∧ score ![1, 2] ![1, 4] .rmse none = .ok r ∧ 0 ≤ m ∧ m ≤ r := by
  obtain ⟨m, r, h1, h2, -, -, h3, h4, -⟩ := c100_errors_partial (by decide) ![1, 2] ![1, 4] none
  exact ⟨m, r, h1, h2, h3, h4⟩

/-- C100 (partial). `r2` lies in `[0, 1]`; for non-constant data it is 1 exactly if the predictions are some non-constant
affine function of the truth, in particular for the correct predictions. The adjusted score is at most 1 and never above
`r2` when there are more rows than columns plus one, and needs the inputs. -/
theorem c100_r2_partial (hn : 0 < n) (y p : Fin n → ℝ) (hy : ∃ a b, y a ≠ y b) (X : Option (ℕ × ℕ)) :
    ∃ s, score y p .r2 X = .ok s ∧ 0 ≤ s ∧ s ≤ 1 ∧ (s = 1 ↔ ∃ a b, a ≠ 0 ∧ ∀ i, p i = a * y i + b) ∧
      score y p .adjustedR2 none = .error .valueError ∧
      ∀ d, d + 1 < n → ∃ t, score y p .adjustedR2 (some (n, d)) = .ok t ∧ t ≤ s ∧ (s = 1 → t = 1) := by
  have hyv : 0 < cov y y := lt_of_le_of_ne (cov_self_nonneg y) fun h => by
    obtain ⟨a, b, hab⟩ := hy
    exact hab ((cov_self_eq_zero hn y).1 h.symm a b)
  have hr0 : 0 ≤ linregressR y p ^ 2 := sq_nonneg _
  have hval : cov p p ≠ 0 → linregressR y p ^ 2 = cov y p ^ 2 / (cov y y * cov p p) := by
    intro h
    have hpp : 0 < cov p p := lt_of_le_of_ne (cov_self_nonneg p) (Ne.symm h)
    unfold linregressR
    rw [if_neg (by rintro (h' | h') <;> [exact hyv.ne' h'; exact h h']), div_pow, Real.sq_sqrt (mul_pos hyv hpp).le]
  have hr1 : linregressR y p ^ 2 ≤ 1 := by
    by_cases h : cov p p = 0
    · unfold linregressR; rw [if_pos (Or.inr h)]; norm_num
    · have hpp : 0 < cov p p := lt_of_le_of_ne (cov_self_nonneg p) (Ne.symm h)
      rw [hval h, div_le_one (mul_pos hyv hpp)]
      exact cov_sq_le y p
  refine ⟨_, rfl, hr0, hr1, ⟨fun h => ?_, ?_⟩, rfl, fun d hd => ⟨_, rfl, ?_, fun h => ?_⟩⟩
  · have hpp : cov p p ≠ 0 := fun h' => by
      unfold linregressR at h; rw [if_pos (Or.inr h')] at h; norm_num at h
    have hpp' : 0 < cov p p := lt_of_le_of_ne (cov_self_nonneg p) (Ne.symm hpp)
    rw [hval hpp, div_eq_one_iff_eq (mul_pos hyv hpp').ne'] at h
    obtain ⟨a, ha⟩ : ∃ a, a = cov y p / cov y y := ⟨_, rfl⟩
    have hn' : (n : ℝ) ≠ 0 := by positivity
    have hex : (mean fun i => ((p i - mean p) - a * (y i - mean y)) ^ 2) = cov p p - 2 * a * cov y p + a ^ 2 * cov y y := by
      have e : ∀ i, ((p i - mean p) - a * (y i - mean y)) ^ 2 = (p i - mean p) * (p i - mean p) +
          ((-2 * a) * ((y i - mean y) * (p i - mean p)) + a ^ 2 * ((y i - mean y) * (y i - mean y))) := fun i => by ring
      simp only [e]
      rw [mean_add, mean_add, mean_mul, mean_mul]
      unfold cov
      ring
    have hzero : (mean fun i => ((p i - mean p) - a * (y i - mean y)) ^ 2) = 0 := by
      rw [hex, ha]
      field_simp
      linarith
    rw [mean_eq_zero hn fun i => sq_nonneg _] at hzero
    refine ⟨a, mean p - a * mean y, fun h0 => hpp ?_, fun i => ?_⟩
    · rw [cov_self_eq_zero hn]
      intro u v
      have hu := pow_eq_zero_iff (two_ne_zero) |>.1 (hzero u)
      have hv := pow_eq_zero_iff (two_ne_zero) |>.1 (hzero v)
      rw [h0] at hu hv
      linarith
    · have := pow_eq_zero_iff (two_ne_zero) |>.1 (hzero i)
      linarith
  · rintro ⟨a, b, ha, hp⟩
    have hp' : p = fun i => a * y i + b := funext hp
    have hm : mean p = a * mean y + b := by rw [hp']; exact mean_affine hn a b y
    have h1 : cov y p = a * cov y y := by
      unfold cov
      rw [← mean_mul, hm]
      congr 1
      funext i
      rw [hp i]; ring
    have h2 : cov p p = a ^ 2 * cov y y := by
      unfold cov
      rw [← mean_mul, hm]
      congr 1
      funext i
      rw [hp i]; ring
    have hpp : cov p p ≠ 0 := by rw [h2]; exact mul_ne_zero (pow_ne_zero 2 ha) hyv.ne'
    rw [hval hpp, h1, h2]
    have := hyv.ne'
    field_simp
  · have hd' : (0 : ℝ) < (n : ℝ) - d - 1 := by
      have : ((d + 1 : ℕ) : ℝ) < n := by exact_mod_cast hd
      push_cast at this; linarith
    have hd0 : (0 : ℝ) ≤ d := Nat.cast_nonneg d
    have : 1 - linregressR y p ^ 2 ≤ ((1 - linregressR y p ^ 2) * ((n : ℝ) - 1)) / ((n : ℝ) - d - 1) := by
      rw [le_div_iff₀ hd']
      exact mul_le_mul_of_nonneg_left (by linarith) (by linarith)
    linarith
  · rw [h]; simp

example : ∃ s, score ![0, 1, 5] ![0, 1, 5] .r2 none = .ok s ∧ s = 1 := by
  obtain ⟨s, h, -, -, h1, -⟩ := c100_r2_partial (by decide) ![0, 1, 5] ![0, 1, 5] ⟨0, 1, by simp⟩ none
  exact ⟨s, h, h1.2 ⟨1, 0, one_ne_zero, fun i => by ring⟩⟩

/-- C100 is violated for `r2` and `adjusted_r2`: they are squares of a correlation. Predictions with the opposite sign, or
off by any factor and any shift, get the perfect score 1 although they are wrong. -/
theorem c100_r2_violated (hn : 0 < n) (y : Fin n → ℝ) (hy : ∃ a b, y a ≠ y b) (X : Option (ℕ × ℕ)) :
    score y (fun i => -y i) .r2 X = .ok 1 ∧ score y (fun i => 100 * y i + 7) .r2 X = .ok 1 ∧ (fun i => -y i) ≠ y := by
  refine ⟨?_, ?_, fun h => ?_⟩
  · obtain ⟨s, h, -, -, h1, -⟩ := c100_r2_partial hn y (fun i => -y i) hy X
    rw [h, h1.2 ⟨-1, 0, by norm_num, fun i => by ring⟩]
  · obtain ⟨s, h, -, -, h1, -⟩ := c100_r2_partial hn y (fun i => 100 * y i + 7) hy X
    rw [h, h1.2 ⟨100, 7, by norm_num, fun i => by ring⟩]
  · obtain ⟨a, b, hab⟩ := hy
    have ha := congrFun h a
    have hb := congrFun h b
    exact hab (by linarith)

example : score ![0, 1, 5] (fun i => -(![0, 1, 5] : Fin 3 → ℝ) i) .r2 none = .ok 1 :=
  (c100_r2_violated (by decide) ![0, 1, 5] ⟨0, 1, by simp⟩ none).1

end EQ.Data
