import Verif.Sampling.OrthLemmas

/-!
# Helper lemmas: ordering of the grid, `np.unique`, sampled weights, subsampling, induced mesh
-/

namespace EQ.Sampling
open EQ.Param EQ.Basis Spec

theorem lexLt_append {x y : List ℝ} (u v : List ℝ) (h : Spec.LexLt x y) :
    Spec.LexLt (x ++ u) (y ++ v) := by
  obtain ⟨pre, a, b, s, t, rfl, rfl, hab⟩ := h
  exact ⟨pre, a, b, s ++ u, t ++ v, by simp, by simp, hab⟩

theorem grid_lex (rules : List LocalRule) (hs : ∀ r ∈ rules, r.pts.Pairwise (· < ·)) :
    ((ixs (rules.map fun r => r.pts.length)).map (gridPoint rules)).Pairwise Spec.LexLt := by
  induction rules using List.reverseRecOn with
  | nil => simp [ixs]
  | append_singleton rs r ih =>
    have ih := ih fun q hq => hs q (by simp [hq])
    have hr := hs r (by simp)
    rw [List.map_append, List.map_singleton, ixs_concat, List.map_flatMap]
    have e : ((ixs (rs.map fun r => r.pts.length)).flatMap fun row =>
        ((List.range r.pts.length).map fun c => row ++ [c]).map (gridPoint (rs ++ [r]))) =
        (ixs (rs.map fun r => r.pts.length)).flatMap fun row =>
          (r.pts.map fun x => gridPoint rs row ++ [x]) := by
      apply List.flatMap_congr
      intro idx hidx
      have hl := ixs_length _ _ hidx
      rw [List.length_map] at hl
      conv_rhs => rw [← map_range_getD r.pts 0]
      rw [List.map_map, List.map_map]
      apply List.map_congr_left
      intro c _
      simp [gridPoint_concat rs r idx c hl]
    rw [e, List.pairwise_flatMap]
    refine ⟨fun idx _ => ?_, ?_⟩
    · rw [List.pairwise_map]
      exact hr.imp fun {a b} hab => ⟨gridPoint rs idx, a, b, [], [], rfl, rfl, hab⟩
    · rw [List.pairwise_map] at ih
      refine ih.imp fun {a b} hab => ?_
      intro x hx y hy
      obtain ⟨c, _, rfl⟩ := List.mem_map.1 hx
      obtain ⟨d, _, rfl⟩ := List.mem_map.1 hy
      exact lexLt_append _ _ hab

theorem localRules_sorted (params : List MParam) (hP : ∀ P ∈ params, Valid P) (orders : List ℕ) :
    ∀ r ∈ localRules params orders, r.pts.Pairwise (· < ·) := by
  intro r hr
  unfold localRules at hr
  rw [List.mem_iff_getElem] at hr
  obtain ⟨i, hi, rfl⟩ := hr
  rw [List.getElem_zipWith]
  exact localRule_sorted _ (hP _ (List.getElem_mem _)) _

theorem localRules_wts (params : List MParam) (hP : ∀ P ∈ params, Valid P) (orders : List ℕ) :
    ∀ r ∈ localRules params orders, r.wts.sum = 1 ∧ ∀ w ∈ r.wts, 0 < w := by
  intro r hr
  unfold localRules at hr
  rw [List.mem_iff_getElem] at hr
  obtain ⟨i, hi, rfl⟩ := hr
  rw [List.getElem_zipWith]
  exact ⟨localRule_sum _ (hP _ (List.getElem_mem _)) _,
    localRule_pos _ (hP _ (List.getElem_mem _)) _⟩

/-- Total weight of a grid whose univariate weights each sum to one. -/
theorem grid_sum_one (rules : List LocalRule) (hlen : ∀ r ∈ rules, r.pts.length = r.wts.length)
    (hs : ∀ r ∈ rules, r.wts.sum = 1) :
    ((ixs (rules.map fun r => r.pts.length)).map (gridWeight rules)).sum = 1 := by
  have h := grid_sum_prod rules (rules.map fun _ => fun _ => 1) (by simp) hlen
  have e1 : ∀ x : List ℝ, (List.zipWith (fun (f : ℝ → ℝ) x => f x)
      (rules.map fun _ => fun _ => 1) x).prod = 1 := by
    intro x
    apply List.prod_eq_one
    intro y hy
    rw [List.mem_iff_getElem] at hy
    obtain ⟨i, hi, rfl⟩ := hy
    simp
  simp only [e1, mul_one] at h
  rw [h]
  apply List.prod_eq_one
  intro y hy
  rw [List.mem_iff_getElem] at hy
  obtain ⟨i, hi, rfl⟩ := hy
  simp only [List.length_zipWith, List.length_map, Nat.min_self] at hi
  simp only [List.getElem_zipWith, List.getElem_map]
  refine Eq.trans ?_ (hs _ (List.getElem_mem hi))
  congr 1
  apply List.ext_getElem
  · simp [hlen _ (List.getElem_mem hi)]
  · intro j h1 h2; simp

/-! ### `np.unique` -/

theorem firstPositions_nodup (rows : List (List ℝ)) : (firstPositions rows).Nodup :=
  List.nodup_range.filter _

theorem uniqueIndex_perm (rows : List (List ℝ)) : (uniqueIndex rows).Perm (firstPositions rows) :=
  List.mergeSort_perm _ _

theorem mem_firstPositions (rows : List (List ℝ)) (i : ℕ) :
    i ∈ firstPositions rows ↔ ∃ h : i < rows.length, ∀ j (hj : j < i), rows[j] ≠ rows[i] := by
  classical
  unfold firstPositions
  rw [List.mem_filter, List.mem_range]
  constructor
  · rintro ⟨h, h2⟩
    refine ⟨h, fun j hj he => ?_⟩
    simp only [decide_eq_true_eq, List.getD_eq_getElem?_getD, List.getElem?_eq_getElem h,
      Option.getD_some] at h2
    exact h2 (List.mem_take_iff_getElem.2 ⟨j, by omega, he⟩)
  · rintro ⟨h, h2⟩
    refine ⟨h, ?_⟩
    simp only [decide_eq_true_eq, List.getD_eq_getElem?_getD, List.getElem?_eq_getElem h,
      Option.getD_some]
    intro hm
    obtain ⟨j, hj, he⟩ := List.mem_take_iff_getElem.1 hm
    exact h2 j (by omega) he

theorem mem_uniqueIndex (rows : List (List ℝ)) (i : ℕ) :
    i ∈ uniqueIndex rows ↔ ∃ h : i < rows.length, ∀ j (hj : j < i), rows[j] ≠ rows[i] := by
  rw [(uniqueIndex_perm rows).mem_iff, mem_firstPositions]

theorem rowLe_total : ∀ a b : List ℝ, RowLe a b ∨ RowLe b a := by
  intro a
  induction a with
  | nil => intro b; left; trivial
  | cons x xs ih =>
    intro b
    cases b with
    | nil => right; trivial
    | cons y ys =>
      simp only [RowLe]
      rcases lt_trichotomy x y with h | h | h
      · left; left; exact h
      · rcases ih ys with h' | h'
        · left; right; exact ⟨h, h'⟩
        · right; right; exact ⟨h.symm, h'⟩
      · right; left; exact h

theorem rowLe_trans : ∀ a b c : List ℝ, RowLe a b → RowLe b c → RowLe a c := by
  intro a
  induction a with
  | nil => intros; trivial
  | cons x xs ih =>
    intro b c h1 h2
    cases b with
    | nil => exact h1.elim
    | cons y ys =>
      cases c with
      | nil => exact h2.elim
      | cons z zs =>
        simp only [RowLe] at *
        rcases h1 with h1 | ⟨h1, h1'⟩ <;> rcases h2 with h2 | ⟨h2, h2'⟩
        · left; exact h1.trans h2
        · left; exact h2 ▸ h1
        · left; exact h1 ▸ h2
        · right; exact ⟨h1.trans h2, ih ys zs h1' h2'⟩

/-- For different rows of equal length the comparison is strict lexicographic order. -/
theorem rowLe_lexLt : ∀ a b : List ℝ, a.length = b.length → RowLe a b → a ≠ b → Spec.LexLt a b := by
  intro a
  induction a with
  | nil => intro b hl _ hne; exact absurd (List.length_eq_zero_iff.1 hl.symm).symm hne
  | cons x xs ih =>
    intro b hl h hne
    cases b with
    | nil => exact h.elim
    | cons y ys =>
      rcases h with h | ⟨h, h'⟩
      · exact ⟨[], x, y, xs, ys, rfl, rfl, h⟩
      · subst h
        obtain ⟨pre, a, b, s, t, rfl, rfl, hab⟩ := ih ys (by simpa using hl) h' (by simpa using hne)
        exact ⟨x :: pre, a, b, s, t, rfl, rfl, hab⟩

theorem uniqueIndex_sorted (rows : List (List ℝ)) :
    ((uniqueIndex rows).map fun i => rows.getD i []).Pairwise RowLe := by
  classical
  unfold uniqueIndex
  rw [List.pairwise_map]
  have := List.pairwise_mergeSort (le := fun i j => decide (RowLe (rows.getD i []) (rows.getD j [])))
    (by intro a b c h1 h2
        simp only [decide_eq_true_eq] at *
        exact rowLe_trans _ _ _ h1 h2)
    (by intro a b
        simp only [Bool.or_eq_true, decide_eq_true_eq]
        exact rowLe_total _ _) (firstPositions rows)
  exact this.imp fun {a b} h => by simpa using h

theorem uniqueIndex_points_nodup (rows : List (List ℝ)) :
    ((uniqueIndex rows).map fun i => rows.getD i []).Nodup := by
  have hnd : (uniqueIndex rows).Nodup := (uniqueIndex_perm rows).nodup_iff.2 (firstPositions_nodup rows)
  apply List.Nodup.map_on _ hnd
  intro i hi j hj he
  obtain ⟨h1, h1'⟩ := (mem_uniqueIndex rows i).1 hi
  obtain ⟨h2, h2'⟩ := (mem_uniqueIndex rows j).1 hj
  simp only [List.getD_eq_getElem?_getD, List.getElem?_eq_getElem h1, List.getElem?_eq_getElem h2,
    Option.getD_some] at he
  by_contra hne
  rcases Nat.lt_or_gt_of_ne hne with h | h
  · exact h2' i h he
  · exact h1' j h he.symm

theorem mem_unique_points (rows : List (List ℝ)) (x : List ℝ) :
    x ∈ (uniqueIndex rows).map (fun i => rows.getD i []) ↔ x ∈ rows := by
  classical
  constructor
  · intro h
    obtain ⟨i, hi, rfl⟩ := List.mem_map.1 h
    obtain ⟨h1, _⟩ := (mem_uniqueIndex rows i).1 hi
    simp [List.getD_eq_getElem?_getD, List.getElem?_eq_getElem h1]
  · intro h
    have hi : rows.idxOf x < rows.length := List.idxOf_lt_length_of_mem h
    refine List.mem_map.2 ⟨rows.idxOf x, (mem_uniqueIndex _ _).2 ⟨hi, fun j hj he => ?_⟩, ?_⟩
    · rw [List.getElem_idxOf hi] at he
      have := List.not_of_lt_findIdx hj
      simp [he] at this
    · simp [List.getD_eq_getElem?_getD, List.getElem?_eq_getElem hi]

/-- Sum over first occurrences plus sum over repeated occurrences. -/
theorem unique_sum (rows : List (List ℝ)) (w : List ℝ) (hw : w.length = rows.length) :
    ((uniqueIndex rows).map fun i => w.getD i 0).sum +
      (((List.range rows.length).filter fun i => i ∉ firstPositions rows).map fun i =>
        w.getD i 0).sum = w.sum := by
  classical
  rw [((uniqueIndex_perm rows).map _).sum_eq]
  conv_rhs => rw [← map_range_getD w 0, hw]
  have : firstPositions rows = (List.range rows.length).filter fun i => i ∈ firstPositions rows := by
    conv_lhs => unfold firstPositions
    apply List.filter_congr
    intro i hi
    rw [List.mem_range] at hi
    rw [decide_eq_decide]
    unfold firstPositions
    simp [hi]
  rw [this]
  have key : ∀ (l : List ℕ) (p : ℕ → Prop) [DecidablePred p] (f : ℕ → ℝ),
      ((l.filter fun i => p i).map f).sum + ((l.filter fun i => ¬ p i).map f).sum = (l.map f).sum := by
    intro l p _ f
    induction l with
    | nil => simp
    | cons a l ih =>
      by_cases h : p a
      · simp [h] at ih ⊢; linarith
      · simp [h] at ih ⊢; linarith
  have := key (List.range rows.length) (fun i => i ∈ firstPositions rows) (fun i => w.getD i 0)
  convert this using 3
  rename_i h
  rw [← h]

end EQ.Sampling
