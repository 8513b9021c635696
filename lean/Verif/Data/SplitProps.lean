import Verif.Data.Props

/-!
# Splitting with the same seed: transformed data, further outputs, other fractions (C238)
-/

namespace EQ.Data
open EQ.Basis

variable {n m : ℕ} {α β γ δ : Type*}

/-- C238, data transformed row by row: with the same seed, splitting transformed inputs and outputs gives the
transformed parts; an error stays the same error. -/
theorem c238_rows (X : Fin n → α) (y : Fin m → β) (f : α → γ) (g : β → δ) (train : ℝ) (perm : List (Fin n)) (shuffle : Bool) :
    trainTestSplit (fun i => f (X i)) (fun i => g (y i)) train perm shuffle =
      match trainTestSplit X y train perm shuffle with
      | .ok (a, b, c, d) => .ok (a.map f, b.map f, c.map g, d.map g)
      | .error e => .error e := by
  unfold trainTestSplit
  by_cases h : n = m
  · rw [dif_pos h, dif_pos h]
    by_cases ht : train > 0 ∨ train < 1
    · rw [if_pos ht, if_pos ht]
      simp only [List.map_map]
      rfl
    · rw [if_neg ht, if_neg ht]
  · rw [dif_neg h, dif_neg h]

/-- C238, several outputs: splitting the same inputs with two outputs and the same seed gives the same inputs both
times, and the two outputs of each part belong to the same samples. -/
theorem c238_outputs (X : Fin n → α) (y : Fin n → β) (z : Fin n → γ) (train : ℝ) (perm : List (Fin n))
    (hp : perm.Perm (List.finRange n)) (shuffle : Bool) :
    ∃ a b c d c' d', trainTestSplit X y train perm shuffle = .ok (a, b, c, d) ∧
      trainTestSplit X z train perm shuffle = .ok (a, b, c', d') ∧
      (a.zip (c.zip c') ++ b.zip (d.zip d')).Perm (List.ofFn fun i => (X i, y i, z i)) := by
  obtain ⟨a, b, c, d, h, hperm, -, -, -⟩ := c68_split X (fun i => (y i, z i)) train perm hp shuffle
  have e1 := c238_rows X (fun i => (y i, z i)) id Prod.fst train perm shuffle
  have e2 := c238_rows X (fun i => (y i, z i)) id Prod.snd train perm shuffle
  rw [h] at e1 e2
  simp only [List.map_id] at e1 e2
  have hz : ∀ l : List (β × γ), (l.map Prod.fst).zip (l.map Prod.snd) = l := fun l => by
    rw [List.zip_map']; exact List.map_id l
  refine ⟨a, b, c.map Prod.fst, d.map Prod.fst, c.map Prod.snd, d.map Prod.snd, e1, e2, ?_⟩
  rw [hz, hz]
  exact hperm

/-- C238, other fractions: with the same seed a larger training fraction keeps every training sample of the smaller one
at its place and takes the additional ones from the front of its test set. -/
theorem c238_fraction (X : Fin n → α) (y : Fin n → β) (t t' : ℝ) (h0 : 0 ≤ t) (htt : t ≤ t') (perm : List (Fin n))
    (shuffle : Bool) :
    ∃ a b c d e e', trainTestSplit X y t perm shuffle = .ok (a, e ++ b, c, e' ++ d) ∧
      trainTestSplit X y t' perm shuffle = .ok (a ++ e, b, c ++ e', d) ∧ e.length = e'.length := by
  have hc : ∀ s : ℝ, s > 0 ∨ s < 1 := fun s => by
    by_cases h : s > 0
    · exact Or.inl h
    · exact Or.inr (by linarith)
  have hn : (0 : ℝ) ≤ n := Nat.cast_nonneg n
  have hi : ∀ s : ℝ, 0 ≤ s → pyInt (s * n) = ((⌊s * n⌋₊ : ℕ) : ℤ) := fun s hs => by
    unfold pyInt
    rw [if_pos (mul_nonneg hs hn)]
    exact (Int.natCast_floor_eq_floor (mul_nonneg hs hn)).symm
  obtain ⟨q, hq⟩ := Nat.exists_eq_add_of_le (Nat.floor_mono (mul_le_mul_of_nonneg_right htt hn))
  set p := ⌊t * n⌋₊ with hpd
  set idx := if shuffle then perm else List.finRange n with hidx
  have hto : ∀ k : ℕ, sliceTo idx (k : ℤ) = idx.take k := fun k => by
    unfold sliceTo
    rw [if_pos (Int.natCast_nonneg _), Int.toNat_natCast]
  have hfrom : ∀ k : ℕ, sliceFrom idx (k : ℤ) = idx.drop k := fun k => by
    unfold sliceFrom
    rw [if_pos (Int.natCast_nonneg _), Int.toNat_natCast]
  have split : ∀ s : ℝ, 0 ≤ s → trainTestSplit X y s perm shuffle =
      .ok ((idx.take ⌊s * n⌋₊).map X, (idx.drop ⌊s * n⌋₊).map X, (idx.take ⌊s * n⌋₊).map y, (idx.drop ⌊s * n⌋₊).map y) := by
    intro s hs
    unfold trainTestSplit
    rw [dif_pos rfl, if_pos (hc s)]
    simp only [hi s hs]
    rw [← hto, ← hfrom]
    rfl
  have e1 : idx.drop p = (idx.drop p).take q ++ idx.drop (p + q) := by
    rw [← List.drop_drop, List.take_append_drop]
  have e2 : idx.take (p + q) = idx.take p ++ (idx.drop p).take q := List.take_add
  refine ⟨(idx.take p).map X, (idx.drop (p + q)).map X, (idx.take p).map y, (idx.drop (p + q)).map y,
    ((idx.drop p).take q).map X, ((idx.drop p).take q).map y, ?_, ?_, ?_⟩
  · rw [split t h0, ← List.map_append, ← List.map_append, ← e1]
  · rw [split t' (h0.trans htt), ← List.map_append, ← List.map_append, hq, ← e2]
  · rw [List.length_map, List.length_map]

/-- Three rows in a shuffled order with the fractions 0.4 and 0.7. -/
example : ∃ a b c d e e', trainTestSplit ![10, 20, 30] ![1, 2, 3] (2/5) [2, 0, 1] true = .ok (a, e ++ b, c, e' ++ d) ∧
    trainTestSplit ![10, 20, 30] ![1, 2, 3] (7/10) [2, 0, 1] true = .ok (a ++ e, b, c ++ e', d) ∧ e.length = e'.length :=
  c238_fraction _ _ _ _ (by norm_num) (by norm_num) _ _

example : ([2, 0, 1] : List (Fin 3)).Perm (List.finRange 3) := by decide

end EQ.Data
