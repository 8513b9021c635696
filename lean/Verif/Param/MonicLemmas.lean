import Verif.Param.ExactLemmas

/-!
# Helper lemmas: monic orthogonal polynomials for a linear functional
-/

namespace EQ.Param
open Polynomial Finset

/-- Monic polynomials of a recurrence. -/
noncomputable def mpoly (ab : Table) : ℕ → ℝ[X]
  | 0 => 1
  | 1 => X - C (ab 0).1
  | n + 2 => (X - C (ab (n + 1)).1) * mpoly ab (n + 1) - C (ab (n + 1)).2 * mpoly ab n

theorem mpoly_eval (ab : Table) (x : ℝ) : ∀ n, (mpoly ab n).eval x = monicVal ab x n
  | 0 => by simp [mpoly, monicVal]
  | 1 => by simp [mpoly, monicVal]
  | n + 2 => by
    simp only [mpoly, monicVal, eval_sub, eval_mul, eval_X, eval_C]
    rw [mpoly_eval ab x (n + 1), mpoly_eval ab x n]

theorem mpoly_opoly (ab : Table) (n : ℕ) (h : ∀ k, 1 ≤ k → k ≤ n → 0 < (ab k).2) :
    mpoly ab n = C (∏ k ∈ Icc 1 n, √(ab k).2) * opoly ab n := by
  apply Polynomial.funext
  intro x
  rw [mpoly_eval, monicVal_opoly ab x n h, eval_mul, eval_C]

theorem mpoly_monic (ab : Table) : ∀ n, (mpoly ab n).Monic ∧ (mpoly ab n).natDegree = n := by
  intro n
  induction n using Nat.strong_induction_on with
  | _ n ih =>
    match n with
    | 0 => simp [mpoly]
    | 1 => exact ⟨monic_X_sub_C _, natDegree_X_sub_C _⟩
    | n + 2 =>
      obtain ⟨m1, d1⟩ := ih (n + 1) (by omega)
      obtain ⟨m0, d0⟩ := ih n (by omega)
      have hX : (X - C (ab (n + 1)).1 : ℝ[X]).Monic := monic_X_sub_C _
      have hM := hX.mul m1
      have hD : ((X - C (ab (n + 1)).1) * mpoly ab (n + 1)).natDegree = n + 2 := by
        rw [hX.natDegree_mul m1, natDegree_X_sub_C, d1]; omega
      have hlt : (C (ab (n + 1)).2 * mpoly ab n).natDegree
          < ((X - C (ab (n + 1)).1) * mpoly ab (n + 1)).natDegree := by
        rw [hD]
        exact lt_of_le_of_lt (natDegree_C_mul_le _ _) (by omega)
      simp only [mpoly]
      exact ⟨hM.sub_of_left (degree_lt_degree hlt),
        by rw [natDegree_sub_eq_left_of_natDegree_lt hlt, hD]⟩

/-- `x π_i = π_{i+1} + a_i π_i + b_i π_{i-1}`. -/
theorem X_mul_mpoly (ab : Table) (i : ℕ) :
    X * mpoly ab i = mpoly ab (i + 1) + C (ab i).1 * mpoly ab i +
      (if 1 ≤ i then C (ab i).2 * mpoly ab (i - 1) else 0) := by
  match i with
  | 0 => simp [mpoly]
  | i + 1 => simp only [mpoly]; simp; ring

/-- The Stieltjes formulas imply orthogonality (induction), for any linear functional for which
the lower squares do not vanish. -/
theorem stieltjes_orthogonal (ab : Table) (L : ℝ[X] →ₗ[ℝ] ℝ) (m : ℕ)
    (hne : ∀ k, k < m → L (mpoly ab k * mpoly ab k) ≠ 0)
    (ha : ∀ k, k < m → (ab k).1 = L (X * (mpoly ab k * mpoly ab k)) / L (mpoly ab k * mpoly ab k))
    (hb : ∀ k, 1 ≤ k → k < m → (ab k).2 =
      L (mpoly ab k * mpoly ab k) / L (mpoly ab (k - 1) * mpoly ab (k - 1))) :
    ∀ n, n ≤ m → ∀ i, i < n → L (mpoly ab i * mpoly ab n) = 0 := by
  intro n
  induction n using Nat.strong_induction_on with
  | _ n ih =>
    intro hn i hi
    obtain ⟨n, rfl⟩ : ∃ k, n = k + 1 := ⟨n - 1, by omega⟩
    have hX := X_mul_mpoly ab n
    have e1 : mpoly ab (n + 1) = X * mpoly ab n - C (ab n).1 * mpoly ab n -
        (if 1 ≤ n then C (ab n).2 * mpoly ab (n - 1) else 0) := by rw [hX]; ring
    have orth : ∀ p q, p ≤ n → q ≤ n → p ≠ q → L (mpoly ab p * mpoly ab q) = 0 := by
      intro p q hp hq hpq
      rcases lt_or_gt_of_ne hpq with h | h
      · exact ih q (by omega) (by omega) p h
      · rw [mul_comm]; exact ih p (by omega) (by omega) q h
    have hsplit : L (mpoly ab i * mpoly ab (n + 1)) = L (X * (mpoly ab i * mpoly ab n)) -
        (ab n).1 * L (mpoly ab i * mpoly ab n) -
        (if 1 ≤ n then (ab n).2 * L (mpoly ab i * mpoly ab (n - 1)) else 0) := by
      rw [e1]
      have : mpoly ab i * (X * mpoly ab n - C (ab n).1 * mpoly ab n -
          (if 1 ≤ n then C (ab n).2 * mpoly ab (n - 1) else 0)) =
          X * (mpoly ab i * mpoly ab n) - (ab n).1 • (mpoly ab i * mpoly ab n) -
          (if 1 ≤ n then (ab n).2 • (mpoly ab i * mpoly ab (n - 1)) else 0) := by
        split_ifs <;> simp only [smul_eq_C_mul] <;> ring
      rw [this, map_sub, map_sub, map_smul, smul_eq_mul]
      split_ifs <;> simp
    by_cases hin : i = n
    · subst hin
      rw [hsplit, ha i (by omega)]
      have h0 : (if 1 ≤ i then (ab i).2 * L (mpoly ab i * mpoly ab (i - 1)) else 0) = 0 := by
        split_ifs with h
        · rw [orth i (i - 1) le_rfl (by omega) (by omega), mul_zero]
        · rfl
      rw [h0]
      have := hne i (by omega)
      field_simp
      ring
    · have hlt : i < n := by omega
      have hXi := X_mul_mpoly ab i
      have h2 : L (X * (mpoly ab i * mpoly ab n)) = L (mpoly ab (i + 1) * mpoly ab n) := by
        have : X * (mpoly ab i * mpoly ab n) = mpoly ab (i + 1) * mpoly ab n +
            (ab i).1 • (mpoly ab i * mpoly ab n) +
            (if 1 ≤ i then (ab i).2 • (mpoly ab (i - 1) * mpoly ab n) else 0) := by
          rw [← mul_assoc, hXi]
          split_ifs <;> simp only [smul_eq_C_mul] <;> ring
        rw [this, map_add, map_add, map_smul, orth i n (by omega) le_rfl (by omega)]
        split_ifs with h
        · rw [map_smul, orth (i - 1) n (by omega) le_rfl (by omega)]; simp
        · simp
      rw [hsplit, h2, orth i n (by omega) le_rfl (by omega), if_pos (by omega : 1 ≤ n)]
      by_cases hi1 : i + 1 = n
      · subst hi1
        rw [Nat.add_sub_cancel, hb (i + 1) (by omega) (by omega), Nat.add_sub_cancel]
        have := hne i (by omega)
        field_simp
        ring
      · rw [orth (i + 1) n (by omega) le_rfl (by omega),
          orth i (n - 1) (by omega) (by omega) (by omega)]
        ring

/-- Squares multiply up when orthogonality holds. -/
theorem sq_step (ab : Table) (L : ℝ[X] →ₗ[ℝ] ℝ) (n : ℕ)
    (orth : ∀ p q, p ≤ n + 2 → q ≤ n + 2 → p ≠ q → L (mpoly ab p * mpoly ab q) = 0) :
    L (mpoly ab (n + 1) * mpoly ab (n + 1)) = (ab (n + 1)).2 * L (mpoly ab n * mpoly ab n) := by
  have h1 := X_mul_mpoly ab n
  have h2 := X_mul_mpoly ab (n + 1)
  have e1 : L (mpoly ab (n + 1) * (X * mpoly ab n)) = L (mpoly ab (n + 1) * mpoly ab (n + 1)) := by
    rw [h1]
    have : mpoly ab (n + 1) * (mpoly ab (n + 1) + C (ab n).1 * mpoly ab n +
        (if 1 ≤ n then C (ab n).2 * mpoly ab (n - 1) else 0)) =
        mpoly ab (n + 1) * mpoly ab (n + 1) + (ab n).1 • (mpoly ab (n + 1) * mpoly ab n) +
        (if 1 ≤ n then (ab n).2 • (mpoly ab (n + 1) * mpoly ab (n - 1)) else 0) := by
      split_ifs <;> simp only [smul_eq_C_mul] <;> ring
    rw [this, map_add, map_add, map_smul, orth (n + 1) n (by omega) (by omega) (by omega)]
    split_ifs with h
    · rw [map_smul, orth (n + 1) (n - 1) (by omega) (by omega) (by omega)]; simp
    · simp
  have e2 : L (mpoly ab (n + 1) * (X * mpoly ab n)) = (ab (n + 1)).2 * L (mpoly ab n * mpoly ab n) := by
    have : mpoly ab (n + 1) * (X * mpoly ab n) = (X * mpoly ab (n + 1)) * mpoly ab n := by ring
    rw [this, h2, if_pos (by omega), Nat.add_sub_cancel]
    have : (mpoly ab (n + 1 + 1) + C (ab (n + 1)).1 * mpoly ab (n + 1) +
        C (ab (n + 1)).2 * mpoly ab n) * mpoly ab n =
        mpoly ab (n + 2) * mpoly ab n + (ab (n + 1)).1 • (mpoly ab (n + 1) * mpoly ab n) +
        (ab (n + 1)).2 • (mpoly ab n * mpoly ab n) := by
      simp only [smul_eq_C_mul]; ring
    rw [this, map_add, map_add, map_smul, map_smul, orth (n + 1) n (by omega) (by omega) (by omega),
      orth (n + 2) n (by omega) (by omega) (by omega)]
    simp
  rw [← e1, e2]

/-- From monic orthogonality and the product formula to orthonormality of the computed
polynomials. -/
theorem orthonormal_of_monic (ab : Table) (L : ℝ[X] →ₗ[ℝ] ℝ) (m : ℕ)
    (hpos : ∀ k, 1 ≤ k → k ≤ m → 0 < (ab k).2)
    (orth : ∀ p q, p ≤ m → q ≤ m → p ≠ q → L (mpoly ab p * mpoly ab q) = 0)
    (hsq : ∀ k, k < m → L (mpoly ab (k + 1) * mpoly ab (k + 1)) =
      (ab (k + 1)).2 * L (mpoly ab k * mpoly ab k))
    (i j : ℕ) (hi : i ≤ m) (hj : j ≤ m) :
    L (opoly ab i * opoly ab j) = if i = j then L 1 else 0 := by
  have hprod : ∀ n, n ≤ m → L (mpoly ab n * mpoly ab n) = (∏ k ∈ Icc 1 n, (ab k).2) * L 1 := by
    intro n
    induction n with
    | zero => intro _; simp [mpoly]
    | succ n ih =>
      intro hn
      rw [hsq n (by omega), ih (by omega), prod_Icc_succ_top (by omega : 1 ≤ n + 1)]; ring
  have hc : ∀ n, n ≤ m → (∏ k ∈ Icc 1 n, √(ab k).2) ≠ 0 := by
    intro n hn
    apply Finset.prod_ne_zero_iff.2
    intro k hk
    rw [mem_Icc] at hk
    exact Real.sqrt_ne_zero'.2 (hpos k hk.1 (by omega))
  have hm : ∀ n, n ≤ m → ∀ k, 1 ≤ k → k ≤ n → 0 < (ab k).2 := fun n hn k h1 h2 => hpos k h1 (by omega)
  have hrel : L (mpoly ab i * mpoly ab j) = (∏ k ∈ Icc 1 i, √(ab k).2) *
      (∏ k ∈ Icc 1 j, √(ab k).2) * L (opoly ab i * opoly ab j) := by
    rw [mpoly_opoly ab i (hm i hi), mpoly_opoly ab j (hm j hj)]
    have : C (∏ k ∈ Icc 1 i, √(ab k).2) * opoly ab i * (C (∏ k ∈ Icc 1 j, √(ab k).2) * opoly ab j)
        = ((∏ k ∈ Icc 1 i, √(ab k).2) * (∏ k ∈ Icc 1 j, √(ab k).2)) • (opoly ab i * opoly ab j) := by
      rw [smul_eq_C_mul, C_mul]; ring
    rw [this, map_smul, smul_eq_mul]
  by_cases hij : i = j
  · subst hij
    rw [if_pos rfl]
    rw [hprod i hi, ← prod_mul_distrib] at hrel
    have : ∏ k ∈ Icc 1 i, √(ab k).2 * √(ab k).2 = ∏ k ∈ Icc 1 i, (ab k).2 := by
      apply prod_congr rfl
      intro k hk
      rw [mem_Icc] at hk
      exact Real.mul_self_sqrt (hpos k hk.1 (by omega)).le
    rw [this] at hrel
    have hne : (∏ k ∈ Icc 1 i, (ab k).2) ≠ 0 := by
      rw [← this, prod_mul_distrib]; exact mul_ne_zero (hc i hi) (hc i hi)
    exact (mul_left_cancel₀ hne hrel).symm
  · rw [if_neg hij]
    rw [orth i j hi hj hij] at hrel
    rcases mul_eq_zero.1 hrel.symm with h | h
    · exact absurd h (mul_ne_zero (hc i hi) (hc j hj))
    · exact h

end EQ.Param
