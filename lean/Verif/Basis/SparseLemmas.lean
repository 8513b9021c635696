import Verif.Basis.Lemmas
import Mathlib.Algebra.Group.ForwardDiff
import Mathlib.Data.Nat.Choose.Cast

namespace EQ.Basis
open Spec

theorem forall2_replicate {d m : ℕ} {r : List ℕ} :
    List.Forall₂ (· ≤ ·) r (List.replicate d m) ↔ r.length = d ∧ ∀ x ∈ r, x ≤ m := by
  induction d generalizing r with
  | zero => cases r <;> simp
  | succ d ih =>
    cases r with
    | nil => simp [List.replicate_succ]
    | cons x xs => simp [List.replicate_succ, ih]; tauto

theorem sparseLevels_eq (level n : ℕ) :
    sparseLevels level (n + 1) = .ok
      (((List.replicate (n + 1) (level + n)).foldl tensorStep [[]]).filter
        fun row => row.sum ≤ level + n ∧ level ≤ row.sum) := rfl

theorem mem_sparseLevels (level n : ℕ) (L : List (List ℕ))
    (h : sparseLevels level (n + 1) = .ok L) (row : List ℕ) :
    row ∈ L ↔ row.length = n + 1 ∧ level ≤ row.sum ∧ row.sum ≤ level + n := by
  rw [sparseLevels_eq] at h
  injection h with h
  subst h
  simp only [List.mem_filter, mem_foldl_tensorStep, forall2_replicate, decide_eq_true_eq]
  constructor
  · rintro ⟨⟨h1, _⟩, h3, h4⟩; exact ⟨h1, h4, h3⟩
  · rintro ⟨h1, h2, h3⟩
    refine ⟨⟨h1, fun x hx => ?_⟩, h3, h2⟩
    have := List.single_le_sum (l := row) (by simp) x hx
    omega

theorem nodup_sparseLevels (level n : ℕ) (L : List (List ℕ))
    (h : sparseLevels level (n + 1) = .ok L) : L.Nodup := by
  rw [sparseLevels_eq] at h
  injection h with h
  subst h
  exact (pairwise_nodup_of lexLt_irrefl_of (lex_foldl_tensorStep _)).filter _

theorem sparseCoeff_eq (level n : ℕ) (row : List ℕ) (h1 : level ≤ row.sum) :
    sparseCoeff level (n + 1) row
      = (-1) ^ (level + n - row.sum) * (n.choose (level + n - row.sum) : ℚ) := by
  simp only [sparseCoeff, Nat.add_sub_cancel, one_mul]
  rw [show level + (n + 1) - 1 - row.sum = level + n - row.sum by omega,
    Nat.cast_choose ℚ (by omega : level + n - row.sum ≤ n)]
  rw [mul_comm ((_ : ℚ)) ((level + n - row.sum).factorial : ℚ)]

theorem alternating_choose (n y : ℕ) :
    ∑ k ∈ Finset.range (n + 1), ((-1 : ℤ) ^ (n - k) * n.choose k) * ((y + k).choose n : ℤ) = 1 := by
  have h := fwdDiff_iter_eq_sum_shift (h := 1) (fun x : ℕ => (x.choose n : ℤ)) n y
  have h2 := fwdDiff_iter_choose 0 n
  rw [Nat.add_zero] at h2
  rw [h2] at h
  simpa [eq_comm] using h

theorem sparse_sum_one (level n : ℕ) (L : List (List ℕ))
    (h : sparseLevels level (n + 1) = .ok L) :
    (L.map (sparseCoeff level (n + 1))).sum = 1 := by
  have hmem := mem_sparseLevels level n L h
  have hnd := nodup_sparseLevels level n L h
  rw [← List.sum_toFinset _ hnd]
  have hmaps : ∀ row ∈ L.toFinset, row.sum - level ∈ Finset.range (n + 1) := by
    intro row hrow
    rw [List.mem_toFinset, hmem] at hrow
    rw [Finset.mem_range]; omega
  rw [← Finset.sum_fiberwise_of_maps_to hmaps]
  have hfib : ∀ k ∈ Finset.range (n + 1),
      (∑ row ∈ L.toFinset with row.sum - level = k, sparseCoeff level (n + 1) row)
        = ((((-1 : ℤ) ^ (n - k) * n.choose k) * ((level + n + k).choose n : ℤ) : ℤ) : ℚ) := by
    intro k hk
    rw [Finset.mem_range] at hk
    have hset : (L.toFinset.filter fun row => row.sum - level = k)
        = (totalOrderRec (n + 1) (level + k)).toFinset := by
      ext row
      simp only [Finset.mem_filter, List.mem_toFinset, hmem, mem_totalOrderRec]
      omega
    rw [hset]
    have hc : ∀ row ∈ (totalOrderRec (n + 1) (level + k)).toFinset,
        sparseCoeff level (n + 1) row = (-1) ^ (n - k) * (n.choose k : ℚ) := by
      intro row hrow
      rw [List.mem_toFinset, mem_totalOrderRec] at hrow
      rw [sparseCoeff_eq _ _ _ (by omega), hrow.2, show level + n - (level + k) = n - k by omega,
        Nat.choose_symm (by omega)]
    rw [Finset.sum_congr rfl hc, Finset.sum_const, List.toFinset_card_of_nodup
      (nodup_totalOrderRec _ _), length_totalOrderRec, nsmul_eq_mul]
    rw [show level + n + k = level + k + n by omega]
    push_cast
    ring
  rw [Finset.sum_congr rfl hfib]
  have := alternating_choose n (level + n)
  exact_mod_cast this

end EQ.Basis
