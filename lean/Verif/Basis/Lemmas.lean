import Verif.Basis.Model
import Verif.Basis.Spec
import Mathlib.Data.List.Nodup
import Mathlib.Data.List.Perm.Basic
import Mathlib.Data.List.Range
import Mathlib.Algebra.BigOperators.Group.List.Basic
import Mathlib.Algebra.Order.BigOperators.Group.List
import Mathlib.Data.Nat.Choose.Sum
import Mathlib.Tactic.Linarith
import Mathlib.Tactic.Ring

namespace EQ.Basis
open Spec

/-! ### maximum -/

theorem foldl_max_ge (xs : List ℕ) (x : ℕ) : x ≤ xs.foldl max x := by
  induction xs generalizing x with
  | nil => simp
  | cons y ys ih => simpa using le_trans (le_max_left x y) (ih (max x y))

theorem foldl_max_isMax (xs : List ℕ) (x : ℕ) : MaxOf (xs.foldl max x) (x :: xs) := by
  induction xs generalizing x with
  | nil => simp [MaxOf]
  | cons y ys ih =>
    obtain ⟨h1, h2⟩ := ih (max x y)
    refine ⟨?_, ?_⟩
    · simp only [List.foldl_cons]
      rcases List.mem_cons.1 h1 with h | h
      · rw [h]; rcases max_choice x y with h' | h' <;> simp [h']
      · simp [h]
    · intro z hz
      simp only [List.foldl_cons]
      have hm := foldl_max_ge ys (max x y)
      simp only [List.mem_cons] at hz
      rcases hz with rfl | rfl | hz
      · exact le_trans (le_max_left _ _) hm
      · exact le_trans (le_max_right _ _) hm
      · exact h2 z (by simp [hz])

theorem npMax_ok {l : List ℕ} (h : l ≠ []) : ∃ m, npMax l = .ok m ∧ MaxOf m l := by
  cases l with
  | nil => exact absurd rfl h
  | cons x xs => exact ⟨_, rfl, foldl_max_isMax xs x⟩

theorem MaxOf.unique {l : List ℕ} {a b : ℕ} (ha : MaxOf a l) (hb : MaxOf b l) : a = b :=
  le_antisymm (hb.2 a ha.1) (ha.2 b hb.1)

/-! ### total order -/

theorem mem_totalOrderRec (d h : ℕ) (row : List ℕ) :
    row ∈ totalOrderRec (d + 1) h ↔ row.length = d + 1 ∧ row.sum = h := by
  induction d generalizing h row with
  | zero =>
    simp only [totalOrderRec, List.mem_singleton]
    constructor
    · rintro rfl; simp
    · rintro ⟨h1, h2⟩
      obtain ⟨a, rfl⟩ := List.length_eq_one_iff.1 h1
      simpa using h2
  | succ d ih =>
    simp only [totalOrderRec, List.mem_flatMap, List.mem_range, List.mem_map, ih]
    constructor
    · rintro ⟨j, hj, r, ⟨hr1, hr2⟩, rfl⟩
      simp [hr1, hr2]; omega
    · rintro ⟨h1, h2⟩
      cases row with
      | nil => simp at h1
      | cons j r =>
        simp at h1 h2
        exact ⟨j, by omega, r, ⟨by omega, by omega⟩, rfl⟩

theorem nodup_totalOrderRec (d h : ℕ) : (totalOrderRec (d + 1) h).Nodup := by
  induction d generalizing h with
  | zero => simp [totalOrderRec]
  | succ d ih =>
    simp only [totalOrderRec]
    rw [List.nodup_flatMap]
    refine ⟨fun j _ => (ih _).map (fun a b hab => by simpa using hab), ?_⟩
    refine List.nodup_range.imp ?_
    intro a b hab
    simp only [Function.onFun, List.disjoint_left, List.mem_map]
    rintro _ ⟨r, _, rfl⟩ ⟨s, _, hs⟩
    simp at hs
    exact hab hs.1.symm

theorem lexLt_cons {a b : List ℕ} (x : ℕ) (h : LexLt a b) : LexLt (x :: a) (x :: b) := by
  obtain ⟨p, u, v, s, t, rfl, rfl, huv⟩ := h
  exact ⟨x :: p, u, v, s, t, rfl, rfl, huv⟩

theorem lex_totalOrderRec (d h : ℕ) : (totalOrderRec (d + 1) h).Pairwise LexLt := by
  induction d generalizing h with
  | zero => simp [totalOrderRec]
  | succ d ih =>
    simp only [totalOrderRec]
    rw [List.pairwise_flatMap]
    refine ⟨fun j _ => ?_, ?_⟩
    · rw [List.pairwise_map]
      exact (ih _).imp fun h => lexLt_cons j h
    · refine List.pairwise_lt_range.imp ?_
      intro a b hab x hx y hy
      simp only [List.mem_map] at hx hy
      obtain ⟨r, _, rfl⟩ := hx
      obtain ⟨s, _, rfl⟩ := hy
      exact ⟨[], a, b, r, s, rfl, rfl, hab⟩

theorem length_totalOrderRec (d h : ℕ) :
    (totalOrderRec (d + 1) h).length = (h + d).choose d := by
  induction d generalizing h with
  | zero => simp [totalOrderRec]
  | succ d ih =>
    simp only [totalOrderRec, List.length_flatMap, List.length_map, ih]
    rw [show (List.map (fun a => (h - a + d).choose d) (List.range (h + 1))).sum
        = ∑ i ∈ Finset.range (h + 1), (h - i + d).choose d from rfl]
    rw [← Finset.sum_range_reflect]
    have : ∀ j ∈ Finset.range (h + 1), (h - (h + 1 - 1 - j) + d).choose d = (j + d).choose d := by
      intro j hj
      rw [Finset.mem_range] at hj
      congr 1; omega
    rw [Finset.sum_congr rfl this, Nat.sum_range_add_choose]
    congr 1

/-- The rows accumulated by the loop of `total_order_basis`. -/
theorem foldl_append_eq (f : ℕ → List (List ℕ)) (l : List ℕ) (acc : List (List ℕ)) :
    l.foldl (fun acc i => acc ++ f i) acc = acc ++ l.flatMap f := by
  induction l generalizing acc with
  | nil => simp
  | cons x xs ih => simp [ih]

theorem totalOrderBasis_eq {orders : List ℕ} {m : ℕ} (h : npMax orders = .ok m) :
    totalOrderBasis orders = .ok
      (List.replicate orders.length 0 ::
        (List.range' 1 m).flatMap (totalOrderRec orders.length)) := by
  simp only [totalOrderBasis, h, foldl_append_eq]
  rfl

theorem mem_totalOrderList (d m : ℕ) (hd : d ≠ 0) (row : List ℕ) :
    row ∈ (List.replicate d 0 :: (List.range' 1 m).flatMap (totalOrderRec d)) ↔
      row.length = d ∧ row.sum ≤ m := by
  obtain ⟨d, rfl⟩ := Nat.exists_eq_succ_of_ne_zero hd
  simp only [List.mem_cons, List.mem_flatMap, List.mem_range'_1, Nat.succ_eq_add_one,
    mem_totalOrderRec]
  constructor
  · rintro (rfl | ⟨a, ha, h1, h2⟩)
    · simp
    · omega
  · rintro ⟨h1, h2⟩
    by_cases h0 : row.sum = 0
    · left
      rw [List.eq_replicate_iff]
      refine ⟨h1, fun b hb => ?_⟩
      have := List.single_le_sum (l := row) (by simp) b hb
      omega
    · right; exact ⟨row.sum, by omega, h1, rfl⟩

theorem graded_totalOrderList (d m : ℕ) (hd : d ≠ 0) :
    (List.replicate d 0 :: (List.range' 1 m).flatMap (totalOrderRec d)).Pairwise GradedLt := by
  obtain ⟨d, rfl⟩ := Nat.exists_eq_succ_of_ne_zero hd
  rw [List.pairwise_cons]
  refine ⟨?_, ?_⟩
  · intro r hr
    simp only [List.mem_flatMap, List.mem_range'_1, Nat.succ_eq_add_one, mem_totalOrderRec] at hr
    obtain ⟨a, ha, _, h2⟩ := hr
    left; simp; omega
  · rw [List.pairwise_flatMap]
    refine ⟨fun j _ => ?_, ?_⟩
    · have h1 := lex_totalOrderRec d j
      refine List.Pairwise.imp_of_mem ?_ h1
      intro a b ha hb hab
      rw [mem_totalOrderRec] at ha hb
      exact Or.inr ⟨by omega, hab⟩
    · refine (List.pairwise_lt_range' 1).imp ?_
      intro a b hab x hx y hy
      rw [Nat.succ_eq_add_one, mem_totalOrderRec] at hx hy
      left; omega

theorem lexLt_irrefl_of (a : List ℕ) : ¬ LexLt a a := by
  rintro ⟨p, x, y, s, t, h1, h2, hxy⟩
  rw [h1] at h2
  have := List.append_cancel_left h2
  simp at this
  omega

theorem gradedLt_irrefl (a : List ℕ) : ¬ GradedLt a a := by
  rintro (h | ⟨_, h⟩)
  · omega
  · exact lexLt_irrefl_of a h

theorem length_totalOrderList (d m : ℕ) (hd : d ≠ 0) :
    (List.replicate d 0 :: (List.range' 1 m).flatMap (totalOrderRec d)).length
      = (m + d).choose d := by
  obtain ⟨d, rfl⟩ := Nat.exists_eq_succ_of_ne_zero hd
  simp only [List.length_cons, List.length_flatMap, Nat.succ_eq_add_one, length_totalOrderRec]
  have : (List.map (fun a => (a + d).choose d) (List.range' 1 m)).sum + 1
      = ∑ i ∈ Finset.range (m + 1), (i + d).choose d := by
    rw [Finset.sum_range_succ']
    simp only [zero_add, Nat.choose_self]
    congr 1
    rw [List.range'_eq_map_range, List.map_map]
    have : ((fun a => (a + d).choose d) ∘ fun x => 1 + x) = fun x => (x + 1 + d).choose d := by
      funext x; simp [add_comm 1 x]
    rw [this]; rfl
  rw [this, Nat.sum_range_add_choose]
  congr 1

/-! ### tensor grid -/

theorem length_tensorStep (I : List (List ℕ)) (o : ℕ) :
    (tensorStep I o).length = I.length * (o + 1) := by
  simp [tensorStep, List.length_flatMap]

theorem mem_tensorStep (I : List (List ℕ)) (o : ℕ) (r : List ℕ) :
    r ∈ tensorStep I o ↔ ∃ r' c, r' ∈ I ∧ c ≤ o ∧ r = r' ++ [c] := by
  simp only [tensorStep, List.mem_flatMap, List.mem_map, List.mem_range]
  constructor
  · rintro ⟨a, ha, c, hc, rfl⟩; exact ⟨a, c, ha, by omega, rfl⟩
  · rintro ⟨a, c, ha, hc, rfl⟩; exact ⟨a, ha, c, by omega, rfl⟩

/-- Rows below `os`, as seen by the loop. -/
theorem mem_foldl_tensorStep (os : List ℕ) (r : List ℕ) :
    r ∈ os.foldl tensorStep [[]] ↔ List.Forall₂ (· ≤ ·) r os := by
  induction os using List.reverseRecOn generalizing r with
  | nil => simp
  | append_singleton os o ih =>
    rw [List.foldl_append]
    simp only [List.foldl_cons, List.foldl_nil, mem_tensorStep, ih]
    constructor
    · rintro ⟨r', c, h1, h2, rfl⟩
      exact List.rel_append h1 (by simpa using h2)
    · intro h
      have hl := h.length_eq
      simp only [List.length_append, List.length_cons, List.length_nil] at hl
      obtain ⟨r', c, rfl⟩ : ∃ r' c, r = r' ++ [c] := by
        rcases List.eq_nil_or_concat r with rfl | ⟨r', c, rfl⟩
        · simp at hl
        · exact ⟨r', c, by simp⟩
      have hl' : r'.length = os.length := by simpa using hl
      rw [List.forall₂_iff_get] at h
      refine ⟨r', c, ?_, ?_, rfl⟩
      · rw [List.forall₂_iff_get]
        refine ⟨hl', fun i hi1 hi2 => ?_⟩
        have := h.2 i (by simp; omega) (by simp; omega)
        simpa [List.getElem_append_left hi1, List.getElem_append_left hi2] using this
      · have := h.2 os.length (by simp; omega) (by simp)
        simpa [← hl'] using this

theorem length_foldl_tensorStep (os : List ℕ) :
    (os.foldl tensorStep [[]]).length = (os.map (· + 1)).prod := by
  induction os using List.reverseRecOn with
  | nil => simp
  | append_singleton os o ih =>
    rw [List.foldl_append]
    simp [length_tensorStep, ih]

theorem lexLt_append {a b : List ℕ} (u v : List ℕ) (h : LexLt a b) : LexLt (a ++ u) (b ++ v) := by
  obtain ⟨p, x, y, s, t, rfl, rfl, hxy⟩ := h
  exact ⟨p, x, y, s ++ u, t ++ v, by simp, by simp, hxy⟩

theorem lex_foldl_tensorStep (os : List ℕ) :
    (os.foldl tensorStep [[]]).Pairwise LexLt := by
  induction os using List.reverseRecOn with
  | nil => simp
  | append_singleton os o ih =>
    rw [List.foldl_append]
    simp only [List.foldl_cons, List.foldl_nil, tensorStep]
    rw [List.pairwise_flatMap]
    refine ⟨fun r _ => ?_, ?_⟩
    · rw [List.pairwise_map]
      refine List.pairwise_lt_range.imp ?_
      intro a b hab
      exact ⟨r, a, b, [], [], rfl, rfl, hab⟩
    · refine ih.imp ?_
      intro a b hab x hx y hy
      simp only [List.mem_map] at hx hy
      obtain ⟨c, _, rfl⟩ := hx
      obtain ⟨c', _, rfl⟩ := hy
      exact lexLt_append _ _ hab

theorem head_foldl_tensorStep (os : List ℕ) :
    ∃ tl, os.foldl tensorStep [[]] = List.replicate os.length 0 :: tl := by
  induction os using List.reverseRecOn with
  | nil => exact ⟨[], rfl⟩
  | append_singleton os o ih =>
    obtain ⟨tl, h⟩ := ih
    rw [List.foldl_append]
    simp only [List.foldl_cons, List.foldl_nil, h, tensorStep, List.flatMap_cons]
    rw [List.range_succ_eq_map]
    simp only [List.map_cons, List.cons_append, List.length_append, List.length_cons,
      List.length_nil, List.cons.injEq]
    exact ⟨_, ⟨by simp [List.replicate_succ'], rfl⟩⟩

theorem pairwise_nodup_of {R : List ℕ → List ℕ → Prop} (hR : ∀ a, ¬ R a a)
    {L : List (List ℕ)} (h : L.Pairwise R) : L.Nodup := by
  refine h.imp ?_
  rintro a b hab rfl
  exact hR a hab

end EQ.Basis
