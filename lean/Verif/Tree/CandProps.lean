import Verif.Tree.PruneProps

/-!
# Polynomial trees: the splits that are tried (C55, C88)
-/

namespace EQ.Tree
open EQ.Basis

variable {d : ℕ}

theorem mem_uniqueSorted {l : List ℝ} {a : ℝ} : a ∈ uniqueSorted l ↔ a ∈ l := by
  unfold uniqueSorted
  rw [List.mem_mergeSort, List.mem_dedup]

theorem idxLeft_congr {j : Fin d} {t t' : ℝ} {X : List (Pt d)} (h : ∀ x ∈ X, x j ≤ t ↔ x j ≤ t') :
    idxLeft j t X = idxLeft j t' X := by
  unfold idxLeft
  refine List.filter_congr fun i hi => ?_
  rw [List.mem_range] at hi
  rw [getD_lt X default i hi, decide_eq_decide]
  exact h _ (List.getElem_mem hi)

theorem splitData_congr {j : Fin d} {t t' : ℝ} {D : Data d} (h : ∀ x ∈ D.X, x j ≤ t ↔ x j ≤ t') :
    splitData j t D = splitData j t' D := by
  unfold splitData idxRight
  rw [idxLeft_congr h]

theorem exists_max (l : List ℝ) (h : l ≠ []) : ∃ m ∈ l, ∀ a ∈ l, a ≤ m := by
  induction l with
  | nil => exact absurd rfl h
  | cons a l ih =>
    by_cases hl : l = []
    · exact ⟨a, by simp, by simp [hl]⟩
    · obtain ⟨m, h1, h2⟩ := ih hl
      rcases le_total a m with h | h
      · exact ⟨m, by simp [h1], fun b hb => by
          rcases List.mem_cons.1 hb with rfl | hb
          · exact h
          · exact h2 b hb⟩
      · exact ⟨a, by simp, fun b hb => by
          rcases List.mem_cons.1 hb with rfl | hb
          · exact le_refl _
          · exact (h2 b hb).trans h⟩

/-- C55 and C88, the exhaustive search misses nothing: for every feature and every real threshold that
leaves enough samples on both sides, a split with the same two parts is among those tried. -/
theorem c88_exhaustive (cfg : Config) (hs : cfg.search = .exhaustive) (msl : ℕ) (hm : 0 < msl) (D : Data d)
    (j : Fin d) (t : ℝ) (h1 : msl ≤ (splitData j t D).1.X.length) (h2 : msl ≤ (splitData j t D).2.X.length) :
    ∃ c ∈ candidates cfg msl D, c.j = j ∧ c.left = (splitData j t D).1 ∧ c.right = (splitData j t D).2 := by
  have hne : ((D.X.filter fun x => decide (x j ≤ t)).map fun x => x j) ≠ [] := by
    intro h
    have h3 : (idxLeft j t D.X) ≠ [] := by
      intro h4
      simp only [splitData, gather, h4, List.map_nil, List.length_nil] at h1
      omega
    obtain ⟨i, hi⟩ := List.exists_mem_of_ne_nil _ h3
    unfold idxLeft at hi
    rw [List.mem_filter, List.mem_range, decide_eq_true_iff] at hi
    rw [getD_lt D.X default i hi.1] at hi
    rw [List.map_eq_nil_iff, List.filter_eq_nil_iff] at h
    exact h _ (List.getElem_mem hi.1) (by simpa using hi.2)
  obtain ⟨m, hmem, hmax⟩ := exists_max _ hne
  rw [List.mem_map] at hmem
  obtain ⟨x, hx, rfl⟩ := hmem
  rw [List.mem_filter, decide_eq_true_iff] at hx
  have hcg : splitData j (x j) D = splitData j t D := by
    refine splitData_congr fun y hy => ⟨fun h => h.trans hx.2, fun h => ?_⟩
    exact hmax _ (List.mem_map.2 ⟨y, List.mem_filter.2 ⟨hy, by simpa using h⟩, rfl⟩)
  refine ⟨⟨j, x j, (splitData j (x j) D).1, (splitData j (x j) D).2⟩, mem_candidates.2 ⟨?_, rfl, rfl, ?_, ?_⟩, rfl,
    by rw [hcg], by rw [hcg]⟩
  · unfold thresholds
    rw [hs]
    simp only
    rw [mem_uniqueSorted]
    exact List.mem_map.2 ⟨x, hx.1, rfl⟩
  · simp only; rw [hcg]; exact h1
  · simp only; rw [hcg]; exact h2

theorem foldl_min_spec (l : List ℝ) : ∀ a, l.foldl min a ≤ a ∧ (∀ b ∈ l, l.foldl min a ≤ b) ∧
    (l.foldl min a = a ∨ l.foldl min a ∈ l) := by
  induction l with
  | nil => intro a; simp
  | cons b l ih =>
    intro a
    obtain ⟨h1, h2, h3⟩ := ih (min a b)
    refine ⟨h1.trans (min_le_left _ _), fun c hc => ?_, ?_⟩
    · rcases List.mem_cons.1 hc with rfl | hc
      · exact h1.trans (min_le_right _ _)
      · exact h2 c hc
    · simp only [List.foldl_cons]
      rcases h3 with h3 | h3
      · rw [h3]
        rcases min_choice a b with h | h <;> rw [h] <;> simp
      · exact .inr (List.mem_cons_of_mem _ h3)

theorem foldl_max_spec (l : List ℝ) : ∀ a, a ≤ l.foldl max a ∧ (∀ b ∈ l, b ≤ l.foldl max a) ∧
    (l.foldl max a = a ∨ l.foldl max a ∈ l) := by
  induction l with
  | nil => intro a; simp
  | cons b l ih =>
    intro a
    obtain ⟨h1, h2, h3⟩ := ih (max a b)
    refine ⟨(le_max_left _ _).trans h1, fun c hc => ?_, ?_⟩
    · rcases List.mem_cons.1 hc with rfl | hc
      · exact (le_max_right _ _).trans h1
      · exact h2 c hc
    · simp only [List.foldl_cons]
      rcases h3 with h3 | h3
      · rw [h3]
        rcases max_choice a b with h | h <;> rw [h] <;> simp
      · exact .inr (List.mem_cons_of_mem _ h3)

/-- C55 and C88, the grid search: the thresholds tried for a feature are `samples` equally spaced values
(as many as there are rows, if that is less) from the smallest to the largest value of the feature, and
a split is tried exactly if its threshold is one of them and both sides have enough samples. -/
theorem c88_grid (cfg : Config) (hs : cfg.search = .grid) (msl : ℕ) (D : Data d) (hD : D.X ≠ []) (j : Fin d) :
    ∃ lo hi : ℝ, (∃ x ∈ D.X, x j = lo) ∧ (∃ x ∈ D.X, x j = hi) ∧ (∀ x ∈ D.X, lo ≤ x j ∧ x j ≤ hi) ∧
      ∀ c : Cand d, c.j = j → (c ∈ candidates cfg msl D ↔
        (∃ i : ℕ, i < min cfg.samples D.X.length ∧
          c.t = lo + (hi - lo) * i / ((min cfg.samples D.X.length : ℕ) - 1 : ℝ)) ∧
        c.left = (splitData j c.t D).1 ∧ c.right = (splitData j c.t D).2 ∧
        msl ≤ c.left.X.length ∧ msl ≤ c.right.X.length) := by
  set col := D.X.map fun x => x j with hcol
  obtain ⟨a1, a2, a3⟩ := foldl_min_spec col (col.headD 0)
  obtain ⟨b1, b2, b3⟩ := foldl_max_spec col (col.headD 0)
  have hhead : col.headD 0 ∈ col := by
    cases hX : D.X with
    | nil => exact absurd hX hD
    | cons x X => rw [hcol, hX]; simp
  have mem : ∀ v ∈ col, ∃ x ∈ D.X, x j = v := fun v hv => by
    obtain ⟨x, h1, h2⟩ := List.mem_map.1 hv
    exact ⟨x, h1, h2⟩
  refine ⟨_, _, mem _ (a3.elim (fun h => by rw [h]; exact hhead) id),
    mem _ (b3.elim (fun h => by rw [h]; exact hhead) id),
    fun x hx => ⟨a2 _ (List.mem_map_of_mem hx), b2 _ (List.mem_map_of_mem hx)⟩, ?_⟩
  rintro c rfl
  rw [mem_candidates]
  have hn : (if cfg.samples > D.X.length then D.X.length else cfg.samples) = min cfg.samples D.X.length := by
    split_ifs with h <;> omega
  have : c.t ∈ thresholds cfg D c.j ↔ ∃ i : ℕ, i < min cfg.samples D.X.length ∧
      c.t = col.foldl min (col.headD 0) + (col.foldl max (col.headD 0) - col.foldl min (col.headD 0)) * i /
        ((min cfg.samples D.X.length : ℕ) - 1 : ℝ) := by
    unfold thresholds
    simp only [hs]
    rw [mem_uniqueSorted, hn]
    unfold linspace
    simp only [List.mem_map, List.mem_range, ← hcol]
    exact ⟨fun ⟨i, h1, h2⟩ => ⟨i, h1, h2.symm⟩, fun ⟨i, h1, h2⟩ => ⟨i, h1, h2.symm⟩⟩
  rw [this]

example : ∃ c ∈ candidates (agnostic 2 3) 1 square, c.j = 0 ∧ c.left = half 0 ∧ c.right = half 1 := by
  have h : splitData 0 (1/2) square = (half 0, half 1) := by
    rw [← split_square]
    exact splitData_congr (by simp [square]; norm_num)
  obtain ⟨c, h1, h2, h3, h4⟩ := c88_exhaustive (agnostic 2 3) rfl 1 (by norm_num) square 0 (1/2)
    (by rw [h]; simp [half]) (by rw [h]; simp [half])
  rw [h] at h3 h4
  exact ⟨c, h1, h2, h3, h4⟩

example : square.X ≠ [] := by simp [square]

/-! ## C145: when `fit` completes -/

/-- C145, what holds: for every non-empty data set `fit` completes, whatever the polynomial fits yield, if
`min_samples_leaf` is not zero (or the criterion is model-agnostic) and the model-agnostic criterion is not combined with
logging. -/
theorem c145_fit_partial (cfg : Config) (fit : Fit d) (D : Data d) (s : State d) (hD : D.X ≠ [])
    (hcard : 0 < cfg.cardinality) (hm : cfg.criterion = .modelAware → s.msl ≠ some 0)
    (hlog : cfg.logging = true → cfg.criterion = .modelAware) : ∃ s', fitTree cfg fit D s = .ok s' := by
  unfold fitTree
  rw [if_neg (by
    rintro ⟨h1, h2, -⟩
    rw [hlog h1] at h2
    simp at h2), if_neg (not_fitsEmpty (fun hc => ?_) _ D 0 rfl hD)]
  · exact ⟨_, rfl⟩
  · have := hm hc
    unfold resolveMsl
    split
    · omega
    · split_ifs
      · omega
      · rename_i m _
        exact Nat.pos_of_ne_zero fun h0 => this (by simp_all)

/-- C145, violated for `min_samples_leaf = 0`, which the constructor accepts: with the model-aware criterion every `fit` of a
non-empty data set raises `UnboundLocalError` (with the grid search, if there are two points and two samples). -/
theorem c145_zero_leaf_violated (cfg : Config) (fit : Fit d) (D : Data d) (s : State d) (hD : D.X ≠ [])
    (hcard : 0 < cfg.cardinality) (hc : cfg.criterion = .modelAware) (hm : s.msl = some 0) (hdep : 0 < cfg.maxDepth)
    (hs : cfg.search = .grid → 2 ≤ cfg.samples ∧ 2 ≤ D.X.length) (j : Fin d) :
    fitTree cfg fit D s = .error .unboundLocalError := by
  have hr : resolveMsl cfg.cardinality s.msl = 0 := by
    rw [hm]
    unfold resolveMsl
    simp only
    rw [if_neg (by omega)]
  obtain ⟨t, ht, hmax⟩ : ∃ t ∈ thresholds cfg D j, ∀ x ∈ D.X, x j ≤ t := by
    set col := D.X.map fun x => x j with hcol
    obtain ⟨b1, b2, b3⟩ := foldl_max_spec col (col.headD 0)
    have hhead : col.headD 0 ∈ col := by
      cases hX : D.X with
      | nil => exact absurd hX hD
      | cons x X => rw [hcol, hX]; simp
    refine ⟨col.foldl max (col.headD 0), ?_, fun x hx => b2 _ (List.mem_map_of_mem hx)⟩
    unfold thresholds
    cases hsr : cfg.search with
    | exhaustive =>
      simp only
      rw [mem_uniqueSorted]
      exact b3.elim (fun h => by rw [h]; exact hhead) id
    | grid =>
      obtain ⟨g1, g2⟩ := hs hsr
      simp only
      rw [mem_uniqueSorted]
      obtain ⟨m, hm2⟩ : ∃ m : ℕ, (if cfg.samples > D.X.length then D.X.length else cfg.samples) = m + 2 := by
        split_ifs
        · exact ⟨D.X.length - 2, by omega⟩
        · exact ⟨cfg.samples - 2, by omega⟩
      rw [hm2]
      refine List.mem_map.2 ⟨m + 1, List.mem_range.2 (by omega), ?_⟩
      push_cast
      rw [show (m : ℝ) + 2 - 1 = m + 1 by ring, mul_div_assoc, div_self (by positivity)]
      ring
  have hcand : (⟨j, t, (splitData j t D).1, (splitData j t D).2⟩ : Cand d) ∈ candidates cfg 0 D :=
    mem_candidates.2 ⟨ht, rfl, rfl, Nat.zero_le _, Nat.zero_le _⟩
  have hempty : (splitData j t D).2.X.length = 0 := by
    have : idxRight j t D.X = [] := by
      unfold idxRight
      rw [List.filter_eq_nil_iff]
      intro i hi
      have hi' := List.mem_range.1 hi
      simp only [decide_not, Bool.not_eq_eq_eq_not, Bool.not_true, decide_eq_false_iff_not, not_not]
      unfold idxLeft
      rw [List.mem_filter, decide_eq_true_iff, getD_lt D.X default i hi']
      exact ⟨hi, hmax _ (List.getElem_mem hi')⟩
    simp [splitData, gather, this]
  unfold fitTree
  simp only [hr]
  rw [if_neg (by simp [hc]), if_pos]
  rw [fitsEmpty, if_pos hdep]
  exact .inr (.inl ⟨hc, ⟨j, t, (splitData j t D).1, (splitData j t D).2⟩, by rw [hr]; exact hcand, .inr hempty⟩)

/-- C145, the empty data set: `UnboundLocalError` too. -/
theorem c145_empty_violated (cfg : Config) (fit : Fit d) (y : List ℝ) (s : State d) :
    fitTree cfg fit ⟨[], y⟩ s = .error .unboundLocalError := by
  unfold fitTree
  simp only
  split_ifs with h1 h2
  · rfl
  · rfl
  · rw [fitsEmpty] at h2
    simp at h2

/-- C145: a tree that can be fitted, and one that cannot. -/
example (fit : Fit 2) : (∃ s', fitTree ⟨.modelAware, .exhaustive, 50, 2, true, 3⟩ fit square ⟨none, 1, none⟩ = .ok s') ∧
    fitTree ⟨.modelAware, .grid, 50, 2, true, 3⟩ fit square ⟨some 0, 1, none⟩ = .error .unboundLocalError :=
  ⟨c145_fit_partial _ fit square _ (by simp [square]) (by decide) (by simp) (by simp),
    c145_zero_leaf_violated _ fit square _ (by simp [square]) (by decide) rfl rfl (by decide) (by simp [square]) 0⟩

end EQ.Tree
