import Verif.Basis.Lemmas
import Mathlib.Data.List.Sort
import Mathlib.Algebra.BigOperators.Group.List.Lemmas

namespace EQ.Basis
open Spec

theorem zipIdx_key (l : List ℕ) (n : ℕ) :
    ((l.zipIdx n).map fun p => 10 ^ p.2 * p.1).sum = 10 ^ n * decimalKey l := by
  induction l generalizing n with
  | nil => simp [decimalKey]
  | cons a as ih => simp [decimalKey, ih, pow_succ]; ring

theorem sortedRow_mergeSort (row : List ℕ) : IsSortedRow row (row.mergeSort (· ≤ ·)) := by
  refine ⟨List.mergeSort_perm _ _, ?_⟩
  have := List.pairwise_mergeSort (le := fun a b : ℕ => decide (a ≤ b))
    (by intro a b c; simp; omega) (by intro a b; simp; omega) row
  exact this.imp (by simp)

theorem sortedRow_unique {row s t : List ℕ} (hs : IsSortedRow row s) (ht : IsSortedRow row t) :
    s = t :=
  List.Perm.eq_of_pairwise (fun _ _ _ _ h1 h2 => le_antisymm h1 h2) hs.2 ht.2
    (hs.1.trans ht.1.symm)

theorem sortKey_eq {row s : List ℕ} (hs : IsSortedRow row s) : sortKey row = decimalKey s := by
  rw [sortedRow_unique hs (sortedRow_mergeSort row), sortKey, zipIdx_key]
  simp

theorem decimalKey_eq_zero (s : List ℕ) : decimalKey s = 0 ↔ ∀ x ∈ s, x = 0 := by
  induction s with
  | nil => simp [decimalKey]
  | cons a as ih => simp [decimalKey, ih]

theorem sortKey_eq_zero (row : List ℕ) : sortKey row = 0 ↔ row = zeroRow row.length := by
  rw [sortKey_eq (sortedRow_mergeSort row), decimalKey_eq_zero]
  simp only [zeroRow, List.eq_replicate_iff, true_and]
  constructor
  · intro h b hb
    exact h b ((sortedRow_mergeSort row).1.mem_iff.2 hb)
  · intro h b hb
    exact h b ((sortedRow_mergeSort row).1.mem_iff.1 hb)

theorem map_getD_range {α : Type} (l : List α) (d : α) :
    (List.range l.length).map (fun i => l.getD i d) = l := by
  apply List.ext_getElem
  · simp
  · intro i h1 h2
    have : i < l.length := by simpa using h1
    simp [List.getD_eq_getElem?_getD, this]

theorem sortElements_perm {argsort : List ℕ → List ℕ} (h : ArgsortContract argsort)
    (els : List (List ℕ)) : (sortElements argsort els).Perm els := by
  have h1 := (h.perm (els.map sortKey)).map (fun i => els.getD i [])
  rw [List.length_map, map_getD_range] at h1
  exact h1

theorem sortElements_sorted {argsort : List ℕ → List ℕ} (h : ArgsortContract argsort)
    (els : List (List ℕ)) :
    (sortElements argsort els).Pairwise (fun a b => sortKey a ≤ sortKey b) := by
  have h2 := h.sorted (els.map sortKey)
  have hmem : ∀ i ∈ argsort (els.map sortKey), i < els.length := by
    intro i hi
    have := (h.perm _).mem_iff.1 hi
    simpa using this
  rw [sortElements, List.pairwise_map]
  rw [List.pairwise_map] at h2
  refine List.Pairwise.imp_of_mem ?_ h2
  intro a b ha hb hab
  have ha' := hmem a ha
  have hb' := hmem b hb
  simpa [List.getD_eq_getElem?_getD, ha', hb'] using hab

theorem sortElements_length {argsort : List ℕ → List ℕ} (h : ArgsortContract argsort)
    (els : List (List ℕ)) : (sortElements argsort els).length = els.length :=
  (sortElements_perm h els).length_eq

/-- Pairwise `≤` of the sorted rearrangements when one row is below the other. -/
theorem decimalKey_mono {s t : List ℕ} (h : List.Forall₂ (· ≤ ·) s t) :
    decimalKey s ≤ decimalKey t := by
  induction h with
  | nil => simp [decimalKey]
  | cons hab _ ih => simp only [decimalKey]; omega

theorem decimalKey_strict {s t : List ℕ} (h : List.Forall₂ (· ≤ ·) s t) (hne : s ≠ t) :
    decimalKey s < decimalKey t := by
  induction h with
  | nil => exact absurd rfl hne
  | @cons a b l₁ l₂ hab hl ih =>
    simp only [decimalKey]
    by_cases hl' : l₁ = l₂
    · subst hl'
      have : a ≠ b := fun h => hne (by rw [h])
      omega
    · have := ih hl'
      omega

theorem orderedInsert_head {x : ℕ} {l : List ℕ} (h : (x :: l).Pairwise (· ≤ ·)) :
    l.orderedInsert (· ≤ ·) x = x :: l := by
  cases l with
  | nil => rfl
  | cons y ys =>
    rw [List.pairwise_cons] at h
    simp [h.1 y (by simp)]

/-- Inserting into sorted lists is monotone for the component-wise order. -/
theorem orderedInsert_mono {a b : ℕ} (hab : a ≤ b) {s t : List ℕ}
    (h : List.Forall₂ (· ≤ ·) s t) (hs : s.Pairwise (· ≤ ·)) (ht : t.Pairwise (· ≤ ·)) :
    List.Forall₂ (· ≤ ·) (s.orderedInsert (· ≤ ·) a) (t.orderedInsert (· ≤ ·) b) := by
  induction h generalizing a b with
  | nil => simpa using hab
  | @cons x y l₁ l₂ hxy hl ih =>
    have hs' := (List.pairwise_cons.1 hs).2
    have ht' := (List.pairwise_cons.1 ht).2
    simp only [List.orderedInsert]
    split_ifs with h1 h2 h2
    · exact .cons hab (.cons hxy hl)
    · refine .cons (by omega) ?_
      have := ih (a := x) (b := b) (by omega) hs' ht'
      rwa [orderedInsert_head hs] at this
    · refine .cons (by omega) ?_
      have := ih (a := a) (b := y) (by omega) hs' ht'
      rwa [orderedInsert_head ht] at this
    · exact .cons hxy (ih hab hs' ht')

theorem sortedRow_insertionSort (row : List ℕ) :
    IsSortedRow row (row.insertionSort (· ≤ ·)) :=
  ⟨List.perm_insertionSort _ _, List.pairwise_insertionSort _ _⟩

theorem insertionSort_mono {s t : List ℕ} (h : List.Forall₂ (· ≤ ·) s t) :
    List.Forall₂ (· ≤ ·) (s.insertionSort (· ≤ ·)) (t.insertionSort (· ≤ ·)) := by
  induction h with
  | nil => simp
  | cons hab _ ih =>
    exact orderedInsert_mono hab ih (List.pairwise_insertionSort _ _)
      (List.pairwise_insertionSort _ _)

theorem below_sum_le {a b : List ℕ} (h : Below a b) : a.sum ≤ b.sum := by
  induction h with
  | nil => simp
  | cons hab _ ih => simp; omega

theorem below_sum_eq {a b : List ℕ} (h : Below a b) (he : a.sum = b.sum) : a = b := by
  induction h with
  | nil => rfl
  | @cons x y l₁ l₂ hab hl ih =>
    have := below_sum_le hl
    simp at he
    rw [ih (by omega), show x = y by omega]

theorem sortKey_lt_of_below {a b : List ℕ} (h : Below a b) (hne : a ≠ b) :
    sortKey a < sortKey b := by
  rw [sortKey_eq (sortedRow_insertionSort a), sortKey_eq (sortedRow_insertionSort b)]
  refine decimalKey_strict (insertionSort_mono h) ?_
  intro he
  apply hne
  apply below_sum_eq h
  have h1 := (List.perm_insertionSort (· ≤ ·) a).sum_eq
  have h2 := (List.perm_insertionSort (· ≤ ·) b).sum_eq
  rw [← h1, ← h2, he]

end EQ.Basis
