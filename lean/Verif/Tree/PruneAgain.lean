import Verif.Tree.PruneProps

/-!
# Pruning twice (C224)
-/

namespace EQ.Tree
open EQ.Basis

variable {d : ℕ}

theorem pruner_again : ∀ (t t' : Node d) (V : Data d) (e : ℝ), pruner t V = .ok (t', e) → pruner t' V = .ok (t', e)
  | .leaf p n D, t', V, e, h => by
    unfold pruner at h
    split_ifs at h with h1
    · cases h
      unfold pruner
      rw [if_pos h1]
    · cases p with
      | none => cases h
      | some f =>
        cases h
        unfold pruner
        rw [if_neg h1]
  | .branch p n j u l r, t', V, e, h => by
    unfold pruner at h
    split_ifs at h with h1
    · cases h
      unfold pruner
      rw [if_pos h1]
    · cases p with
      | none => cases h
      | some f =>
        simp only at h
        cases hl : pruner l (splitData j u V).1 with
        | error e => rw [hl] at h; cases h
        | ok pl =>
          obtain ⟨l', el⟩ := pl
          rw [hl] at h
          simp only at h
          cases hr : pruner r (splitData j u V).2 with
          | error e => rw [hr] at h; cases h
          | ok pr =>
            obtain ⟨r', er⟩ := pr
            rw [hr] at h
            simp only at h
            split_ifs at h with hc
            · cases h
              unfold pruner
              rw [if_neg h1]
            · cases h
              have il := pruner_again l l' _ el hl
              have ir := pruner_again r r' _ er hr
              unfold pruner
              rw [if_neg h1]
              simp only [il, ir]
              rw [if_neg hc]

/-- C224. Pruning once more with the same validation set succeeds and changes nothing: not the tree, and so no prediction. -/
theorem c224_again (s s' : State d) (V : Data d) (h : prune s V = .ok s') :
    prune s' V = .ok s' ∧ ∀ s'', prune s' V = .ok s'' → ∀ x, predict s'' x = predict s' x := by
  have key : prune s' V = .ok s' := by
    unfold prune at h
    split at h
    · cases h
    · cases h
    · rename_i p n j t l r htree
      split at h
      · cases h
      · rename_i l' el hl
        split at h
        · cases h
        · rename_i r' er hr
          cases h
          unfold prune
          simp only [pruner_again l l' _ el hl, pruner_again r r' _ er hr]
  refine ⟨key, fun s'' h'' x => ?_⟩
  rw [key] at h''
  cases h''
  rfl

/-- A pruning that changes the tree. -/
example : ∃ s', prune ⟨some 1, 0, some deepTree⟩ twoRows = .ok s' ∧ s'.tree ≠ some deepTree ∧ prune s' twoRows = .ok s' := by
  obtain ⟨s', t', h, ht, h4, h5⟩ := c56_error_violated
  refine ⟨s', h, fun hn => ?_, (c224_again _ _ _ h).1⟩
  rw [hn] at ht
  cases ht
  rw [h4] at h5
  norm_num at h5

end EQ.Tree
