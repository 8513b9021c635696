import Verif.Sampling.Model
import Verif.Param.Props
import Verif.Basis.Props
import Mathlib.Tactic

/-!
# Helper lemmas on the tensor grid
-/

namespace EQ.Sampling
open EQ.Param EQ.Basis

theorem zipWith_replicate_left {α β γ : Type*} (f : α → β → γ) (a : α) (l : List β) :
    List.zipWith f (List.replicate l.length a) l = l.map (f a) := by
  induction l with
  | nil => rfl
  | cons x xs ih => simp [List.replicate_succ, ih]

theorem zipWith_kron {α β γ : Type*} (f : α → β → γ) (L : List α) (l : List β) :
    List.zipWith f (L.flatMap fun a => List.replicate l.length a)
      (List.replicate L.length l).flatten = L.flatMap fun a => l.map (f a) := by
  induction L with
  | nil => rfl
  | cons a as ih =>
    simp only [List.flatMap_cons, List.length_cons, List.replicate_succ, List.flatten_cons]
    rw [List.zipWith_append (by simp), ih, zipWith_replicate_left]

theorem map_range_getD {α : Type*} (l : List α) (d : α) :
    (List.range l.length).map (fun i => l.getD i d) = l := by
  apply List.ext_getElem
  · simp
  · intro i h1 h2
    simp [List.getD_eq_getElem?_getD, List.getElem?_eq_getElem h2]

/-- Index tuples of the tensor grid, in the order of the mesh (helper). -/
def ixs (ns : List ℕ) : List (List ℕ) :=
  ns.foldl (fun I n => I.flatMap fun row => (List.range n).map fun c => row ++ [c]) [[]]

theorem ixs_concat (ns : List ℕ) (n : ℕ) :
    ixs (ns ++ [n]) = (ixs ns).flatMap fun row => (List.range n).map fun c => row ++ [c] := by
  simp [ixs]

theorem mem_ixs (ns : List ℕ) : ∀ idx, idx ∈ ixs ns ↔ List.Forall₂ (· < ·) idx ns := by
  induction ns using List.reverseRecOn with
  | nil => intro idx; simp [ixs]
  | append_singleton ns n ih =>
    intro idx
    rw [ixs_concat]
    simp only [List.mem_flatMap, List.mem_map, List.mem_range]
    constructor
    · rintro ⟨row, hr, c, hc, rfl⟩
      exact List.rel_append ((ih row).1 hr) (.cons hc .nil)
    · intro h
      have hlen := h.length_eq
      simp only [List.length_append, List.length_singleton] at hlen
      have hne : idx ≠ [] := by rintro rfl; simp at hlen
      obtain ⟨row, c, rfl⟩ : ∃ row c, idx = row ++ [c] :=
        ⟨idx.dropLast, idx.getLast hne, (List.dropLast_append_getLast hne).symm⟩
      simp only [List.length_append, List.length_singleton, Nat.add_right_cancel_iff] at hlen
      have h' : List.Forall₂ (· < ·) row ns ∧ c < n := by
        clear ih hne
        induction row generalizing ns with
        | nil =>
          cases ns with
          | nil => simpa using h
          | cons _ _ => simp at hlen
        | cons a row ihr =>
          cases ns with
          | nil => simp at hlen
          | cons b ns =>
            simp only [List.cons_append, List.forall₂_cons] at h
            obtain ⟨h1, h2⟩ := ihr ns h.2 (by simpa using hlen)
            exact ⟨.cons h.1 h1, h2⟩
      exact ⟨row, (ih row).2 h'.1, c, h'.2, rfl⟩

theorem ixs_length (ns : List ℕ) (idx : List ℕ) (h : idx ∈ ixs ns) : idx.length = ns.length :=
  ((mem_ixs ns idx).1 h).length_eq

theorem ixs_nodup (ns : List ℕ) : (ixs ns).Nodup := by
  induction ns using List.reverseRecOn with
  | nil => simp [ixs]
  | append_singleton ns n ih =>
    rw [ixs_concat, List.nodup_flatMap]
    refine ⟨fun row _ => ?_, ?_⟩
    · refine (List.nodup_range).map fun a b h => ?_
      simpa using h
    · refine ih.imp ?_
      intro a b hab x hx hy
      simp only [List.mem_map] at hx hy
      obtain ⟨c, _, rfl⟩ := hx
      obtain ⟨c', _, h⟩ := hy
      exact hab (List.append_inj_left' h rfl).symm

/-- The point of the mesh with the given index tuple. -/
def gridPoint (rules : List LocalRule) (idx : List ℕ) : List ℝ :=
  List.zipWith (fun r i => r.pts.getD i 0) rules idx

/-- The product weight of an index tuple. -/
def gridWeight (rules : List LocalRule) (idx : List ℕ) : ℝ :=
  (List.zipWith (fun r i => r.wts.getD i 0) rules idx).prod

theorem gridPoint_concat (rules : List LocalRule) (r : LocalRule) (idx : List ℕ) (c : ℕ)
    (h : idx.length = rules.length) :
    gridPoint (rules ++ [r]) (idx ++ [c]) = gridPoint rules idx ++ [r.pts.getD c 0] := by
  unfold gridPoint
  rw [List.zipWith_append (by omega)]
  rfl

theorem gridWeight_concat (rules : List LocalRule) (r : LocalRule) (idx : List ℕ) (c : ℕ)
    (h : idx.length = rules.length) :
    gridWeight (rules ++ [r]) (idx ++ [c]) = gridWeight rules idx * r.wts.getD c 0 := by
  unfold gridWeight
  rw [List.zipWith_append (by omega)]
  simp

theorem foldl_tensorStep (rules : List LocalRule)
    (hlen : ∀ r ∈ rules, r.pts.length = r.wts.length) :
    rules.foldl tensorStep ([[]], [1.0]) =
      ((ixs (rules.map fun r => r.pts.length)).map (gridPoint rules),
       (ixs (rules.map fun r => r.pts.length)).map (gridWeight rules)) := by
  induction rules using List.reverseRecOn with
  | nil => simp [ixs, gridPoint, gridWeight]; norm_num
  | append_singleton rs r ih =>
    have hr : r.pts.length = r.wts.length := hlen r (by simp)
    rw [List.foldl_append, ih (fun q hq => hlen q (by simp [hq]))]
    simp only [List.foldl_cons, List.foldl_nil, tensorStep, leftSide, rightSide, kronWeights]
    rw [zipWith_kron, List.map_append, List.map_singleton, ixs_concat]
    simp only [List.flatMap_map, List.map_flatMap, List.map_map]
    refine Prod.ext ?_ ?_
    · apply List.flatMap_congr
      intro idx hidx
      have hl := ixs_length _ _ hidx
      rw [List.length_map] at hl
      conv_lhs => rw [← map_range_getD r.pts 0]
      rw [List.map_map]
      apply List.map_congr_left
      intro c _
      simp [gridPoint_concat rs r idx c hl]
    · apply List.flatMap_congr
      intro idx hidx
      have hl := ixs_length _ _ hidx
      rw [List.length_map] at hl
      conv_lhs => rw [← map_range_getD r.wts 0]
      rw [List.map_map, ← hr]
      apply List.map_congr_left
      intro c _
      simp [gridWeight_concat rs r idx c hl]

theorem tensorGrid_eq (rules : List LocalRule) (hne : rules ≠ [])
    (hlen : ∀ r ∈ rules, r.pts.length = r.wts.length) :
    tensorGrid rules = .ok
      ((ixs (rules.map fun r => r.pts.length)).map (gridPoint rules),
       (ixs (rules.map fun r => r.pts.length)).map (gridWeight rules)) := by
  rw [← foldl_tensorStep rules hlen]
  cases rules with
  | nil => exact absurd rfl hne
  | cons r rs => rfl

/-- Sums over the grid factorise. -/
theorem grid_sum_prod (rules : List LocalRule) (fs : List (ℝ → ℝ))
    (hf : fs.length = rules.length) (hlen : ∀ r ∈ rules, r.pts.length = r.wts.length) :
    ((ixs (rules.map fun r => r.pts.length)).map fun idx =>
        gridWeight rules idx * (List.zipWith (fun f x => f x) fs (gridPoint rules idx)).prod).sum =
      (List.zipWith (fun r f => (List.zipWith (fun x w => w * f x) r.pts r.wts).sum) rules fs).prod := by
  induction rules using List.reverseRecOn generalizing fs with
  | nil => simp [ixs, gridWeight, gridPoint]
  | append_singleton rs r ih =>
    have hne : fs ≠ [] := by rintro rfl; simp at hf
    obtain ⟨gs, g, rfl⟩ : ∃ gs g, fs = gs ++ [g] :=
      ⟨fs.dropLast, fs.getLast hne, (List.dropLast_append_getLast hne).symm⟩
    have hg : gs.length = rs.length := by simpa using hf
    have hr : r.pts.length = r.wts.length := hlen r (by simp)
    rw [List.zipWith_append (by omega), List.prod_append,
      ← ih gs hg (fun q hq => hlen q (by simp [hq])), List.map_append, List.map_singleton, ixs_concat]
    simp only [List.map_flatMap, List.map_map]
    rw [List.flatMap, List.sum_flatten, List.map_map, ← List.sum_map_mul_right]
    congr 1
    apply List.map_congr_left
    intro idx hidx
    have hl := ixs_length _ _ hidx
    rw [List.length_map] at hl
    have e : List.zipWith (fun x w => w * g x) r.pts r.wts =
        (List.range r.pts.length).map fun c => r.wts.getD c 0 * g (r.pts.getD c 0) := by
      apply List.ext_getElem
      · simp [hr]
      · intro i h1 h2
        simp at h1 h2
        simp [List.getD_eq_getElem?_getD, h1]
    simp only [List.zipWith_cons_cons, List.zipWith_nil_left, List.prod_cons, List.prod_nil, mul_one, e]
    rw [← List.sum_map_mul_left, Function.comp]
    congr 1
    apply List.map_congr_left
    intro c _
    have hgl : gs.length = (gridPoint rs idx).length := by simp [gridPoint, hl, hg]
    simp only [Function.comp]
    rw [gridWeight_concat _ _ _ _ hl, gridPoint_concat _ _ _ _ hl, List.zipWith_append hgl]
    simp
    ring

end EQ.Sampling
