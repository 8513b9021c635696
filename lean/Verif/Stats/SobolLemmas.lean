import Verif.Stats.LawLemmas

/-!
# Lemmas: variance and Sobol' indices as sums
-/

namespace EQ.Stats
open EQ.Basis EQ.Param EQ.Poly EQ.Sampling EQ.Sampling.Spec EQ.Poly.Spec EQ.Stats.Spec

theorem foldl_sq (l : List ℝ) (a : ℝ) :
    l.foldl (fun r x => r + x ^ 2) a = a + (l.map fun x => x ^ 2).sum := by
  induction l generalizing a with
  | nil => simp
  | cons x l ih => rw [List.foldl_cons, ih, List.map_cons, List.sum_cons, add_assoc]

/-- The value `variance` returns. -/
noncomputable def varSum (c : List ℝ) : ℝ := ((c.drop 1).map fun x => x ^ 2).sum

theorem variance_ok (c : List ℝ) (h : 2 ≤ c.length) : variance c = .ok (varSum c) := by
  unfold variance varSum
  rw [if_neg (by omega), foldl_sq, zero_add]

theorem varSum_nonneg (c : List ℝ) : 0 ≤ varSum c := by
  unfold varSum
  apply List.sum_nonneg
  intro x hx
  obtain ⟨y, _, rfl⟩ := List.mem_map.1 hx
  positivity

theorem varSum_eq (c : List ℝ) :
    varSum c = ∑ i ∈ Finset.range c.length, if i = 0 then 0 else c.getD i 0 ^ 2 := by
  cases c with
  | nil => simp [varSum]
  | cons a c =>
    rw [List.length_cons, Finset.sum_range_succ']
    unfold varSum
    rw [List.drop_succ_cons, List.drop_zero, map_eq_range c 0, range_map_sum]
    simp

theorem sobolPass_value (els : List (List ℕ)) (c : List ℝ) (var : ℝ) (d : ℕ) (D : Dict)
    (o : ℕ) (k : List ℕ) :
    sobolPass els c var d D o k = (if k ∈ combos d o then 0 else D k) +
      ((List.zip els c).map fun rc =>
        if (nonzero rc.1).length = o ∧ nonzero rc.1 = k then rc.2 ^ 2 / var else 0).sum := by
  unfold sobolPass
  exact foldl_addAt (List.zip els c) (fun rc => (nonzero rc.1).length = o)
    (fun rc => nonzero rc.1) (fun rc => rc.2 ^ 2 / var) _ k

/-- The share of the variance of the rows whose support is `k`. -/
noncomputable def share (els : List (List ℕ)) (c : List ℝ) (var : ℝ) (k : List ℕ) : ℝ :=
  ((List.zip els c).map fun rc => if nonzero rc.1 = k then rc.2 ^ 2 / var else 0).sum

theorem sobolFold_value (els : List (List ℕ)) (c : List ℝ) (var : ℝ) (d : ℕ) (orders : List ℕ)
    (hnd : orders.Nodup) (D : Dict) (k : List ℕ) (hk : k.Sublist (List.range d)) :
    (orders.foldl (sobolPass els c var d) D) k =
      if k.length ∈ orders then share els c var k else D k := by
  induction orders generalizing D with
  | nil => simp
  | cons o os ih =>
    rw [List.nodup_cons] at hnd
    rw [List.foldl_cons, ih hnd.2, sobolPass_value]
    by_cases h1 : k.length = o
    · subst h1
      rw [if_neg hnd.1, if_pos (mem_combos.2 ⟨hk, rfl⟩), if_pos (by simp), zero_add]
      unfold share
      congr 1
      apply List.map_congr_left
      intro rc _
      by_cases h2 : nonzero rc.1 = k
      · simp [h2]
      · simp [h2]
    · have h2 : k ∉ combos d o := fun h => h1 (mem_combos.1 h).2
      have h3 : ((List.zip els c).map fun rc =>
          if (nonzero rc.1).length = o ∧ nonzero rc.1 = k then rc.2 ^ 2 / var else 0).sum = 0 := by
        apply List.sum_eq_zero
        intro y hy
        obtain ⟨rc, _, rfl⟩ := List.mem_map.1 hy
        rw [if_neg]
        rintro ⟨h4, h5⟩
        exact h1 (h5 ▸ h4)
      rw [if_neg h2, h3, add_zero]
      simp [h1]

theorem nonzero_sublist (row : List ℕ) : (nonzero row).Sublist (List.range row.length) :=
  List.filter_sublist

theorem mem_nonzero {row : List ℕ} {k : ℕ} :
    k ∈ nonzero row ↔ k < row.length ∧ row.getD k 0 ≠ 0 := by
  simp [nonzero]

theorem nonzero_eq_iff {d : ℕ} {row S : List ℕ} (hr : row.length = d)
    (hS : S.Sublist (List.range d)) : nonzero row = S ↔ InvolvesExactly d row S := by
  constructor
  · rintro rfl k hk
    rw [mem_nonzero, hr]
    simp [hk]
  · intro h
    apply sublist_range_ext (hr ▸ nonzero_sublist row) hS
    intro k
    rw [mem_nonzero, hr]
    constructor
    · rintro ⟨h1, h2⟩
      exact (h k h1).2 h2
    · intro h1
      have h2 : k < d := List.mem_range.1 (hS.subset h1)
      exact ⟨h2, (h k h2).1 h1⟩

theorem nonzero_eq_nil {d : ℕ} {row : List ℕ} (hr : row.length = d) :
    nonzero row = [] ↔ row = List.replicate d 0 := by
  rw [nonzero_eq_iff hr (List.nil_sublist _)]
  unfold InvolvesExactly
  rw [List.eq_replicate_iff]
  constructor
  · intro h
    refine ⟨hr, fun b hb => ?_⟩
    obtain ⟨i, hi, rfl⟩ := List.mem_iff_getElem.1 hb
    have := (h i (by omega)).not.1 (by simp)
    rw [not_not, getD_of_lt _ _ _ hi] at this
    exact this
  · rintro ⟨_, h⟩ k hk
    rw [getD_of_lt _ _ _ (by omega)]
    simp [h _ (List.getElem_mem (by omega : k < row.length))]

/-- Sum of the shares over all subsets of sizes `1..m`. -/
theorem sum_share (els : List (List ℕ)) (c : List ℝ) (var : ℝ) (d m : ℕ)
    (hr : ∀ row ∈ els, row.length = d) (p : List ℕ → Prop) [DecidablePred p] :
    ((List.range' 1 m).map fun o => ((combos d o).map fun S =>
      if p S then share els c var S else 0).sum).sum =
    ((List.zip els c).map fun rc =>
      if 1 ≤ (nonzero rc.1).length ∧ (nonzero rc.1).length ≤ m ∧ p (nonzero rc.1)
        then rc.2 ^ 2 / var else 0).sum := by
  unfold share
  have hz : ∀ rc ∈ List.zip els c, rc.1.length = d := fun rc h => hr _ (List.of_mem_zip h).1
  generalize List.zip els c = Z at hz
  induction Z with
  | nil => simp
  | cons rc Z ih =>
    simp only [List.map_cons, List.sum_cons] at ih ⊢
    rw [← ih fun x hx => hz x (by simp [hx])]
    have key := sum_keys d m (nonzero rc.1)
      (by have := nonzero_sublist rc.1; rwa [hz rc (by simp)] at this)
      (if p (nonzero rc.1) then rc.2 ^ 2 / var else 0)
    have e : ∀ S, (if p S then (if nonzero rc.1 = S then rc.2 ^ 2 / var else 0) +
        (Z.map fun rc => if nonzero rc.1 = S then rc.2 ^ 2 / var else 0).sum else 0) =
        (if S = nonzero rc.1 then (if p (nonzero rc.1) then rc.2 ^ 2 / var else 0) else 0) +
        (if p S then (Z.map fun rc => if nonzero rc.1 = S then rc.2 ^ 2 / var else 0).sum
          else 0) := by
      intro S
      by_cases h1 : S = nonzero rc.1
      · subst h1
        by_cases h2 : p (nonzero rc.1) <;> simp [h2]
      · have h1' : ¬ nonzero rc.1 = S := fun h => h1 h.symm
        simp [h1, h1']
    simp only [e, List.sum_map_add]
    rw [key]
    congr 1
    by_cases h1 : 1 ≤ (nonzero rc.1).length ∧ (nonzero rc.1).length ≤ m
    · by_cases h2 : p (nonzero rc.1) <;> simp [h1, h2]
    · rw [if_neg h1, if_neg (fun h => h1 ⟨h.1, h.2.1⟩)]

end EQ.Stats
