import Verif.Param.Model
import Mathlib.Algebra.Polynomial.Degree.Lemmas
import Mathlib.Algebra.Polynomial.Derivative
import Mathlib.Analysis.Calculus.Deriv.Polynomial
import Mathlib.Tactic

/-!
# Helper lemmas: loops of `_get_orthogonal_polynomial` and `get_jacobi_matrix`
-/

namespace EQ.Param
open Polynomial

/-- The polynomials behind the loops (a helper of the proofs; statements quantify over it). -/
noncomputable def opoly (ab : Table) : ℕ → ℝ[X]
  | 0 => 1
  | 1 => C (√(ab 1).2)⁻¹ * (X - C (ab 0).1)
  | n + 2 => C (√(ab (n + 2)).2)⁻¹ *
      ((X - C (ab (n + 1)).1) * opoly ab (n + 1) - C √(ab (n + 1)).2 * opoly ab n)

theorem fillFrom2_eq (rhs : (ℕ → ℝ) → ℕ → ℝ) (A q : ℕ → ℝ)
    (order : ℕ)
    (hcong : ∀ (B : ℕ → ℝ) (u : ℕ), u + 2 < order → B (u + 1) = q (u + 1) → B u = q u →
      rhs B (u + 2) = q (u + 2))
    (h0 : A 0 = q 0) (h1 : A 1 = q 1) :
    ∀ v, v < order → 2 ≤ order → fillFrom2 rhs order A v = q v := by
  have key : ∀ m, m + 2 ≤ order → (∀ v, v < 2 + m →
      (List.range' 2 m).foldl (fun A u => Function.update A u (rhs A u)) A v = q v) := by
    intro m
    induction m with
    | zero =>
      intro _ v hv
      have : v = 0 ∨ v = 1 := by omega
      rcases this with rfl | rfl
      · simpa using h0
      · simpa using h1
    | succ m ih =>
      intro hm v hv
      rw [List.range'_concat, List.foldl_append]
      simp only [List.foldl_cons, List.foldl_nil, one_mul]
      by_cases hvm : v = 2 + m
      · subst hvm
        rw [Function.update_self, Nat.add_comm 2 m]
        exact hcong _ _ (by omega) (ih (by omega) _ (by omega)) (ih (by omega) _ (by omega))
      · rw [Function.update_of_ne hvm]
        exact ih (by omega) v (by omega)
  intro v hv h2
  exact key (order - 2) (by omega) v (by omega)

/-- Every defined entry of the three tables, as evaluations of `opoly` and its derivatives. -/
theorem orthoTables_eq (ab : Table) (order : ℕ) (x : ℝ) (n : ℕ) (hn : n < order) :
    (orthoTables ab order x).poly n = (opoly ab n).eval x ∧
    (orthoTables ab order x).deriv n = (derivative (opoly ab n)).eval x ∧
    (orthoTables ab order x).dderiv n = (derivative (derivative (opoly ab n))).eval x := by
  unfold orthoTables
  by_cases h1 : order = 1
  · have : n = 0 := by omega
    subst this
    rw [if_pos h1]
    refine ⟨by simp [opoly]; norm_num, by simp [opoly], by simp [opoly]⟩
  · rw [if_neg h1]
    have hP1 : ∀ v, v < 2 → Function.update (Function.update (fun _ => (0 : ℝ)) 0 1.0) 1
        (((x - (ab 0).1) * Function.update (fun _ => (0 : ℝ)) 0 1.0 0) * 1.0 / (1.0 * √(ab 1).2)) v
        = (opoly ab v).eval x := by
      intro v hv
      have : v = 0 ∨ v = 1 := by omega
      rcases this with rfl | rfl
      · simp [opoly]; norm_num
      · simp only [Function.update_self, opoly, eval_mul, eval_C, eval_sub, eval_X]
        rw [div_eq_mul_inv, mul_inv]; norm_num; ring
    have hD1 : ∀ v, v < 2 → Function.update (fun _ => (0 : ℝ)) 1
        (Function.update (fun _ => (0 : ℝ)) 0 1.0 0 / √(ab 1).2) v
        = (derivative (opoly ab v)).eval x := by
      intro v hv
      have : v = 0 ∨ v = 1 := by omega
      rcases this with rfl | rfl
      · simp [opoly]
      · simp [opoly]; norm_num
    have hDD1 : ∀ v, v < 2 → (0 : ℝ) = (derivative (derivative (opoly ab v))).eval x := by
      intro v hv
      have : v = 0 ∨ v = 1 := by omega
      rcases this with rfl | rfl
      · simp [opoly]
      · simp [opoly]
    by_cases h2 : order = 2
    · rw [if_pos h2]
      exact ⟨hP1 n (by omega), hD1 n (by omega), hDD1 n (by omega)⟩
    · rw [if_neg h2]
      have hP := fillFrom2_eq (polyRhs ab x) _ (fun v => (opoly ab v).eval x) order (by
          intro B u hu hb1 hb2
          simp only [polyRhs, Nat.add_sub_cancel, show u + 2 - 1 = u + 1 by omega, hb1, hb2]
          simp only [opoly, eval_mul, eval_C, eval_sub, eval_X]
          rw [div_eq_mul_inv, mul_inv]; norm_num; ring)
          (hP1 0 (by omega)) (hP1 1 (by omega))
      dsimp only
      generalize fillFrom2 (polyRhs ab x) order _ = Pt at hP ⊢
      have hD := fillFrom2_eq (derivRhs ab x Pt) _ (fun v => (derivative (opoly ab v)).eval x) order
        (by
          intro B u hu hb1 hb2
          have e3 := hP (u + 1) (by omega) (by omega)
          simp only [derivRhs, Nat.add_sub_cancel, show u + 2 - 1 = u + 1 by omega, hb1, hb2]
          rw [e3]
          simp only [opoly, derivative_mul, derivative_sub, derivative_C, derivative_X, eval_add,
            eval_mul, eval_sub, eval_C, eval_X, eval_zero, eval_one]
          rw [div_eq_mul_inv, mul_inv]; norm_num; ring)
          (hD1 0 (by omega)) (hD1 1 (by omega))
      generalize fillFrom2 (derivRhs ab x Pt) order _ = Dt at hD ⊢
      have hDD := fillFrom2_eq (dderivRhs ab x Dt) (fun _ => 0)
        (fun v => (derivative (derivative (opoly ab v))).eval x) order
        (by
          intro B u hu hb1 hb2
          have e3 := hD (u + 1) (by omega) (by omega)
          simp only [dderivRhs, Nat.add_sub_cancel, show u + 2 - 1 = u + 1 by omega, hb1, hb2]
          rw [e3]
          simp only [opoly, derivative_mul, derivative_sub, derivative_C, derivative_X,
            derivative_add, derivative_zero, derivative_one, eval_add,
            eval_mul, eval_sub, eval_C, eval_X, eval_zero, eval_one]
          rw [div_eq_mul_inv, mul_inv]; norm_num; ring)
          (hDD1 0 (by omega)) (hDD1 1 (by omega))
      exact ⟨hP n hn (by omega), hD n hn (by omega), hDD n hn (by omega)⟩

theorem opoly_degree (ab : Table) : ∀ n, (∀ k, 1 ≤ k → k ≤ n → 0 < (ab k).2) →
    (opoly ab n).natDegree = n ∧
    (opoly ab n).leadingCoeff = ∏ k ∈ Finset.Icc 1 n, (√(ab k).2)⁻¹ := by
  intro n
  induction n using Nat.strong_induction_on with
  | _ n ih =>
    match n with
    | 0 => intro _; simp [opoly]
    | 1 =>
      intro h
      have hb : (√(ab 1).2)⁻¹ ≠ 0 := inv_ne_zero (Real.sqrt_ne_zero'.2 (h 1 le_rfl le_rfl))
      simp only [opoly]
      refine ⟨?_, ?_⟩
      · rw [natDegree_C_mul hb, natDegree_X_sub_C]
      · rw [leadingCoeff_mul, leadingCoeff_C, leadingCoeff_X_sub_C]; simp
    | n + 2 =>
      intro h
      have hb : (√(ab (n + 2)).2)⁻¹ ≠ 0 :=
        inv_ne_zero (Real.sqrt_ne_zero'.2 (h (n + 2) (by omega) le_rfl))
      obtain ⟨d1, l1⟩ := ih (n + 1) (by omega) (fun k h1 h2 => h k h1 (by omega))
      obtain ⟨d0, l0⟩ := ih n (by omega) (fun k h1 h2 => h k h1 (by omega))
      have hne : opoly ab (n + 1) ≠ 0 := by
        intro h0; rw [h0] at d1; simp at d1
      have hXm : (X - C (ab (n + 1)).1 : ℝ[X]).natDegree = 1 := natDegree_X_sub_C _
      have hprod : ((X - C (ab (n + 1)).1) * opoly ab (n + 1)).natDegree = n + 2 := by
        rw [natDegree_mul (X_sub_C_ne_zero _) hne, hXm, d1]; omega
      have hlow : (C √(ab (n + 1)).2 * opoly ab n).natDegree < n + 2 :=
        lt_of_le_of_lt (natDegree_C_mul_le _ _) (by omega)
      have hlt : (C √(ab (n + 1)).2 * opoly ab n).natDegree
          < ((X - C (ab (n + 1)).1) * opoly ab (n + 1)).natDegree := by omega
      simp only [opoly]
      refine ⟨?_, ?_⟩
      · rw [natDegree_C_mul hb, natDegree_sub_eq_left_of_natDegree_lt hlt, hprod]
      · rw [leadingCoeff_mul, leadingCoeff_C, leadingCoeff_sub_of_degree_lt (degree_lt_degree hlt),
          leadingCoeff_mul, leadingCoeff_X_sub_C, one_mul, l1,
          Finset.prod_Icc_succ_top (by omega : 1 ≤ n + 1 + 1), mul_comm]

/-- Closed form of the Jacobi matrix entries. -/
theorem jacobiEntries_eq (ab : Table) (n : ℕ) (hn : 1 ≤ n) (i j : ℕ) (hi : i < n) (hj : j < n) :
    jacobiEntries ab n i j =
      if i = j then (ab i).1 else if i + 1 = j then √(ab j).2
      else if j + 1 = i then √(ab i).2 else 0 := by
  unfold jacobiEntries
  by_cases h1 : n = 1
  · rw [if_pos h1]
    have : i = 0 := by omega
    have : j = 0 := by omega
    subst_vars
    simp [setEntry]
  · rw [if_neg h1]
    have key : ∀ m, ∀ i j : ℕ, (List.range' 1 m).foldl (fun M u =>
        setEntry (setEntry (setEntry M u u (ab u).1) u (u - 1) √(ab u).2) u (u + 1) √(ab (u + 1)).2)
        (setEntry (setEntry (fun _ _ => (0 : ℝ)) 0 0 (ab 0).1) 0 1 √(ab 1).2) i j
        = if i ≤ m then
            (if i = j then (ab i).1 else if i + 1 = j then √(ab j).2
              else if j + 1 = i then √(ab i).2 else 0)
          else 0 := by
      intro m
      induction m with
      | zero =>
        intro i j
        simp only [List.range'_zero, List.foldl_nil, setEntry]
        by_cases hi : i = 0
        · subst hi
          by_cases hj : j = 0
          · subst hj; simp
          · by_cases hj1 : j = 1
            · subst hj1; simp
            · have : ¬ (1 = j) := fun h => hj1 h.symm
              have : ¬ (0 = j) := fun h => hj h.symm
              simp [*]
        · simp [hi]
      | succ m ih =>
        intro i j
        rw [List.range'_concat, List.foldl_append]
        simp only [List.foldl_cons, List.foldl_nil, one_mul]
        simp only [setEntry] at ih ⊢
        rw [ih]
        by_cases hi : i = 1 + m
        · subst hi
          by_cases hj : j = 1 + m + 1
          · subst hj; simp; omega
          · by_cases hj2 : j = m
            · subst hj2; simp; split_ifs <;> first | rfl | omega
            · by_cases hj3 : j = 1 + m
              · subst hj3; simp; omega
              · have e1 : ¬ (1 + m = j) := fun h => hj3 h.symm
                have e2 : ¬ (1 + m + 1 = j) := fun h => hj h.symm
                have e3 : ¬ (j + 1 = 1 + m) := by omega
                have e4 : ¬ (j = 1 + m - 1) := by omega
                simp [hj, hj3, e1, e2, e3]
                omega
        · have : (i ≤ m + 1) ↔ i ≤ m := by omega
          simp [hi, this]
    simp only
    have hk := key (n - 1 - 1)
    simp only [setEntry] at hk ⊢
    rw [hk i j]
    by_cases hi' : i = n - 1
    · subst hi'
      by_cases hj' : j = n - 2
      · subst hj'
        have e1 : ¬ (n - 1 = n - 2) := by omega
        have e2 : ¬ (n - 1 + 1 = n - 2) := by omega
        have e3 : n - 2 + 1 = n - 1 := by omega
        simp [e1, e2, e3]
      · by_cases hj2 : j = n - 1
        · subst hj2
          simp [hj']
        · have e1 : ¬ (n - 1 = j) := fun h => hj2 h.symm
          have e2 : ¬ (n - 1 + 1 = j) := by omega
          have e3 : ¬ (j + 1 = n - 1) := by omega
          have e4 : ¬ (n - 1 ≤ n - 1 - 1) := by omega
          simp [hj', hj2, e1, e2, e3]
    · have : i ≤ n - 1 - 1 := by omega
      simp [hi', this]

end EQ.Param
