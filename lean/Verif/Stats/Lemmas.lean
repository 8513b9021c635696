import Verif.Stats.Model
import Mathlib.Algebra.BigOperators.Ring.List
import Mathlib.Tactic.Ring
import Mathlib.Tactic.Linarith

/-!
# Lemmas on dictionaries, combinations and symmetric sums
-/

namespace EQ.Stats
open EQ.Basis EQ.Poly EQ.Sampling

/-! ## Dictionaries -/

theorem foldl_addAt {τ : Type} (l : List τ) (cond : τ → Prop) [DecidablePred cond]
    (key : τ → List ℕ) (v : τ → ℝ) (D : Dict) (k : List ℕ) :
    (l.foldl (fun D t => if cond t then addAt D (key t) (v t) else D) D) k =
      D k + (l.map fun t => if cond t ∧ key t = k then v t else 0).sum := by
  induction l generalizing D with
  | nil => simp
  | cons t l ih =>
    rw [List.foldl_cons, ih, List.map_cons, List.sum_cons]
    by_cases h : cond t
    · rw [if_pos h]
      unfold addAt
      by_cases hk : key t = k
      · subst hk
        rw [Function.update_self, if_pos ⟨h, rfl⟩]
        ring
      · rw [Function.update_of_ne (Ne.symm hk), if_neg (fun hh => hk hh.2)]
        ring
    · rw [if_neg h, if_neg (fun hh => h hh.1)]
      ring

/-! ## Combinations -/

theorem mem_combos {d k : ℕ} {S : List ℕ} :
    S ∈ combos d k ↔ S.Sublist (List.range d) ∧ S.length = k := List.mem_sublistsLen

theorem combos_nodup (d k : ℕ) : (combos d k).Nodup :=
  List.nodup_sublistsLen k List.nodup_range

theorem sublist_range_ext {d : ℕ} {S T : List ℕ} (hS : S.Sublist (List.range d))
    (hT : T.Sublist (List.range d)) (h : ∀ k, k ∈ S ↔ k ∈ T) : S = T := by
  have h1 := (List.pairwise_lt_range (n := d)).sublist hS
  have h2 := (List.pairwise_lt_range (n := d)).sublist hT
  exact List.Perm.eq_of_pairwise (fun a b _ _ h h' => absurd h (by omega)) h1 h2
    ((List.perm_ext_iff_of_nodup (h1.imp fun h => by omega) (h2.imp fun h => by omega)).2 h)

/-- All keys of orders `1..m`. -/
theorem sum_ite_eq_of_nodup {α : Type} [DecidableEq α] (l : List α) (hl : l.Nodup) (a : α)
    (v : ℝ) : (l.map fun x => if x = a then v else 0).sum = if a ∈ l then v else 0 := by
  induction l with
  | nil => simp
  | cons x l ih =>
    rw [List.nodup_cons] at hl
    rw [List.map_cons, List.sum_cons, ih hl.2]
    by_cases h : x = a
    · subst h; simp [hl.1]
    · simp [h, Ne.symm h]

/-- Over all keys of orders `1..m`, exactly one matches a given increasing tuple of length
between `1` and `m`. -/
theorem sum_keys (d m : ℕ) (S₀ : List ℕ) (h0 : S₀.Sublist (List.range d)) (v : ℝ) :
    ((List.range' 1 m).map fun o => ((combos d o).map fun S => if S = S₀ then v else 0).sum).sum =
      if 1 ≤ S₀.length ∧ S₀.length ≤ m then v else 0 := by
  have : (List.range' 1 m).map (fun o => ((combos d o).map fun S => if S = S₀ then v else 0).sum) =
      (List.range' 1 m).map fun o => if o = S₀.length then v else 0 := by
    apply List.map_congr_left
    intro o _
    rw [sum_ite_eq_of_nodup _ (combos_nodup d o)]
    have : S₀ ∈ combos d o ↔ o = S₀.length := by
      rw [mem_combos]
      exact ⟨fun h => h.2.symm, fun h => ⟨h0, h.symm⟩⟩
    simp only [this]
  rw [this, sum_ite_eq_of_nodup (List.range' 1 m) List.nodup_range']
  have : S₀.length ∈ List.range' 1 m ↔ 1 ≤ S₀.length ∧ S₀.length ≤ m := by
    rw [List.mem_range'_1]; omega
  simp only [this]

/-! ## Symmetric sums -/

section
variable {α : Type} [DecidableEq α]

omit [DecidableEq α] in
/-- `Σ_{p, q} = Σ_p F p p + 2 Σ_{p < q}`. -/
theorem sum_pairs (F : α → α → ℝ) (hF : ∀ p q, F p q = F q p) (l : List α) :
    (l.map fun p => (l.map fun q => F p q).sum).sum =
      (l.map fun p => F p p).sum + 2 * ((pairsLt l).map fun t => F t.1 t.2).sum := by
  induction l with
  | nil => simp [pairsLt]
  | cons x l ih =>
    simp only [List.map_cons, List.sum_cons, pairsLt, List.map_append, List.sum_append,
      List.map_map, List.sum_map_add, Function.comp_def]
    rw [ih]
    have : (l.map fun p => F p x) = l.map fun p => F x p :=
      List.map_congr_left fun p _ => hF p x
    rw [this]
    ring

theorem map_ite_ne (l : List α) (x : α) (hx : x ∉ l) (f : α → ℝ) :
    (l.map fun p => if p = x then 0 else f p).sum = (l.map f).sum := by
  congr 1
  apply List.map_congr_left
  intro p hp
  have : p ≠ x := fun h => hx (h ▸ hp)
  simp [this]

theorem map_ite_ne' (l : List α) (x : α) (hx : x ∉ l) (f : α → ℝ) :
    (l.map fun p => if x = p then 0 else f p).sum = (l.map f).sum := by
  congr 1
  apply List.map_congr_left
  intro p hp
  have : x ≠ p := fun h => hx (h ▸ hp)
  simp [this]

/-- `Σ_{p, q, r} = Σ_p F p p p + 3 Σ_{p ≠ q} F p p q + 6 Σ_{p < q < r} F p q r`. -/
theorem sum_triples (F : α → α → α → ℝ) (h12 : ∀ p q r, F p q r = F q p r)
    (h23 : ∀ p q r, F p q r = F p r q) (l : List α) (hl : l.Nodup) :
    (l.map fun p => (l.map fun q => (l.map fun r => F p q r).sum).sum).sum =
      (l.map fun p => F p p p).sum +
      3 * (l.map fun p => (l.map fun q => if p = q then 0 else F p p q).sum).sum +
      6 * ((triplesLt l).map fun t => F t.1 t.2.1 t.2.2).sum := by
  induction l with
  | nil => simp [triplesLt]
  | cons x l ih =>
    rw [List.nodup_cons] at hl
    have ih := ih hl.2
    simp only [List.map_cons, List.sum_cons, triplesLt, List.map_append, List.sum_append,
      List.map_map, List.sum_map_add, Function.comp_def, if_true, map_ite_ne l x hl.1,
      map_ite_ne' l x hl.1]
    rw [ih]
    have e1 : (l.map fun p => F x p x) = l.map fun p => F x x p :=
      List.map_congr_left fun p _ => h23 x p x
    have e2 : (l.map fun p => F p x x) = l.map fun p => F x x p :=
      List.map_congr_left fun p _ => by rw [h12 p x x, h23 x p x]
    have e3 : (l.map fun p => (l.map fun q => F p x q).sum) = l.map fun p => (l.map fun q => F x p q).sum :=
      List.map_congr_left fun p _ => by
        congr 1
        exact List.map_congr_left fun q _ => h12 p x q
    have e4 : (l.map fun p => (l.map fun q => F p q x).sum) = l.map fun p => (l.map fun q => F x p q).sum :=
      List.map_congr_left fun p _ => by
        congr 1
        exact List.map_congr_left fun q _ => by rw [h23 p q x, h12 p x q]
    have e5 : (l.map fun p => F p p x) = l.map fun p => F x p p :=
      List.map_congr_left fun p _ => by rw [h23 p p x, h12 p x p]
    have e6 := sum_pairs (F x) (h23 x) l
    rw [e1, e2, e3, e4, e5, e6]
    ring

omit [DecidableEq α] in
theorem mem_pairsLt {l : List α} {t : α × α} (h : t ∈ pairsLt l) : t.1 ∈ l ∧ t.2 ∈ l := by
  induction l with
  | nil => simp [pairsLt] at h
  | cons x l ih =>
    simp only [pairsLt, List.mem_append, List.mem_map] at h
    rcases h with ⟨q, hq, rfl⟩ | h
    · simp [hq]
    · have := ih h
      simp [this]

omit [DecidableEq α] in
theorem mem_triplesLt {l : List α} {t : α × α × α} (h : t ∈ triplesLt l) :
    t.1 ∈ l ∧ t.2.1 ∈ l ∧ t.2.2 ∈ l := by
  induction l with
  | nil => simp [triplesLt] at h
  | cons x l ih =>
    simp only [triplesLt, List.mem_append, List.mem_map] at h
    rcases h with ⟨q, hq, rfl⟩ | h
    · have := mem_pairsLt hq
      simp [this]
    · have := ih h
      simp [this]

omit [DecidableEq α] in
theorem mem_quadsLt {l : List α} {t : α × α × α × α} (h : t ∈ quadsLt l) :
    t.1 ∈ l ∧ t.2.1 ∈ l ∧ t.2.2.1 ∈ l ∧ t.2.2.2 ∈ l := by
  induction l with
  | nil => simp [quadsLt] at h
  | cons x l ih =>
    simp only [quadsLt, List.mem_append, List.mem_map] at h
    rcases h with ⟨q, hq, rfl⟩ | h
    · have := mem_triplesLt hq
      simp [this]
    · have := ih h
      simp [this]

/-- The fourth-power identity. -/
theorem sum_quads (F : α → α → α → α → ℝ) (h12 : ∀ p q r s, F p q r s = F q p r s)
    (h23 : ∀ p q r s, F p q r s = F p r q s) (h34 : ∀ p q r s, F p q r s = F p q s r)
    (l : List α) (hl : l.Nodup) :
    (l.map fun p => (l.map fun q => (l.map fun r => (l.map fun s => F p q r s).sum).sum).sum).sum =
      (l.map fun p => F p p p p).sum +
      4 * (l.map fun p => (l.map fun q => if p = q then 0 else F p p p q).sum).sum +
      6 * ((pairsLt l).map fun t => F t.1 t.1 t.2 t.2).sum +
      12 * (l.map fun p => ((pairsLt l).map fun t =>
        if t.1 = p ∨ t.2 = p then 0 else F p p t.1 t.2).sum).sum +
      24 * ((quadsLt l).map fun t => F t.1 t.2.1 t.2.2.1 t.2.2.2).sum := by
  induction l with
  | nil => simp [quadsLt, pairsLt]
  | cons x l ih =>
    rw [List.nodup_cons] at hl
    have ih := ih hl.2
    have p1 : ∀ p q r, F p x q r = F x p q r := fun p q r => h12 p x q r
    have p2 : ∀ p q r, F p q x r = F x p q r := fun p q r => by rw [h23, h12]
    have p3 : ∀ p q r, F p q r x = F x p q r := fun p q r => by rw [h34, h23, h12]
    -- the pair sum with exclusions
    have ex : ((pairsLt l).map fun t => if t.1 = x ∨ t.2 = x then 0 else F x x t.1 t.2).sum =
        ((pairsLt l).map fun t => F x x t.1 t.2).sum := by
      congr 1
      apply List.map_congr_left
      intro t ht
      have := mem_pairsLt ht
      rw [if_neg]
      rintro (h | h)
      · exact hl.1 (h ▸ this.1)
      · exact hl.1 (h ▸ this.2)
    have ex2 : (l.map fun p => (l.map fun q => if x = p ∨ q = p then 0 else F p p x q).sum).sum =
        (l.map fun p => (l.map fun q => if p = q then 0 else F x p p q).sum).sum := by
      congr 1
      apply List.map_congr_left
      intro p hp
      congr 1
      apply List.map_congr_left
      intro q _
      have : x ≠ p := fun h => hl.1 (h ▸ hp)
      simp only [this, false_or]
      by_cases h : q = p
      · simp [h]
      · rw [if_neg h, if_neg (Ne.symm h), p2]
    have ex3 : (l.map fun q => if True ∨ q = x then 0 else F x x x q).sum = 0 := by
      simp
    simp only [List.map_cons, List.sum_cons, quadsLt, pairsLt, List.map_append, List.sum_append,
      List.map_map, List.sum_map_add, Function.comp_def, if_true, map_ite_ne l x hl.1,
      map_ite_ne' l x hl.1]
    rw [ex, ex2, ex3, ih]
    have f2 := sum_pairs (F x x) (h34 x x) l
    have f3 := sum_triples (F x) (h23 x) (h34 x) l hl.2
    simp only [p1, p2, p3] at *
    rw [f2, f3]
    ring
end

/-! ## Restricting sums -/

theorem sum_filter_of_zero {α : Type} (l : List α) (P : α → Prop) [DecidablePred P] (f : α → ℝ)
    (h : ∀ a ∈ l, ¬ P a → f a = 0) : ((l.filter fun a => P a).map f).sum = (l.map f).sum := by
  induction l with
  | nil => rfl
  | cons a l ih =>
    have ih := ih fun b hb => h b (by simp [hb])
    by_cases hp : P a
    · simp [hp, ih]
    · simp [hp, ih, h a (by simp) hp]

theorem sum_product {α β : Type} (l : List α) (l' : List β) (f : α → β → ℝ) :
    ((l.product l').map fun t => f t.1 t.2).sum = (l.map fun a => (l'.map fun b => f a b).sum).sum := by
  induction l with
  | nil => rfl
  | cons a l ih =>
    rw [show (a :: l).product l' = l'.map (fun b => (a, b)) ++ l.product l' from rfl, List.map_append, List.sum_append, ih, List.map_cons, List.sum_cons,
      List.map_map]
    rfl

end EQ.Stats
