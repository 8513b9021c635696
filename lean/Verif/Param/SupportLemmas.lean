import Verif.Param.LawLemmas
import Verif.Param.EndLemmas

/-!
# Helper lemmas: positivity of the Beta functional
-/

namespace EQ.Param
open Polynomial Finset EQ.ParamSpec MeasureTheory

theorem orth_sq_pos (ab : Table) (hb : ∀ k, 1 ≤ k → 0 < (ab k).2) (c : ℝ) (hc : 0 < c)
    (L : ℝ[X] →ₗ[ℝ] ℝ) (hL : ∀ m, Orth ab m c L) (q : ℝ[X]) (hq : q ≠ 0) : 0 < L (q * q) := by
  obtain ⟨d, hd⟩ := opoly_span ab q.natDegree (fun k h1 _ => hb k h1) q le_rfl
  have e : L (q * q) = ∑ i ∈ range (q.natDegree + 1), c * d i ^ 2 := by
    conv_lhs => rw [hd]
    rw [sum_mul_sum, map_sum]
    apply sum_congr rfl
    intro i hi
    rw [map_sum, sum_eq_single i]
    · have e1 : C (d i) * opoly ab i * (C (d i) * opoly ab i) =
          (d i ^ 2) • (opoly ab i * opoly ab i) := by
        rw [smul_eq_C_mul, C_pow]; ring
      rw [e1, map_smul, hL i i i le_rfl le_rfl, if_pos rfl, smul_eq_mul]; ring
    · intro j _ hj
      have e1 : C (d i) * opoly ab i * (C (d j) * opoly ab j) =
          (d i * d j) • (opoly ab i * opoly ab j) := by
        rw [smul_eq_C_mul, C_mul]; ring
      rw [e1, map_smul, hL (max i j) i j (le_max_left _ _) (le_max_right _ _),
        if_neg (Ne.symm hj), smul_zero]
    · intro h; exact absurd hi h
  rw [e]
  by_contra hle
  push Not at hle
  have hnn : ∀ i ∈ range (q.natDegree + 1), 0 ≤ c * d i ^ 2 := fun i _ => by positivity
  have h0 := (sum_eq_zero_iff_of_nonneg hnn).mp (le_antisymm hle (sum_nonneg hnn))
  apply hq
  rw [hd]
  apply sum_eq_zero
  intro i hi
  have := h0 i hi
  have hdi : d i = 0 := by
    rcases mul_eq_zero.mp this with h | h
    · exact absurd h hc.ne'
    · exact pow_eq_zero_iff (two_ne_zero) |>.mp h
  rw [hdi]; simp

section
variable {A B l u : ℝ}

theorem beta_orth (hA : 0 < A) (hB : 0 < B) (hlu : l < u) (m : ℕ) :
    Orth (jtab (B - 1) (A - 1) l u) m 1 (betaL hA hB hlu) := by
  intro i j _ _
  rw [betaL_apply]
  simp only [eval_mul]
  exact beta_orthonormal hA hB hlu i j

theorem beta_tab_pos (hA : 0 < A) (hB : 0 < B) (hlu : l < u) (k : ℕ) (hk : 1 ≤ k) :
    0 < (jtab (B - 1) (A - 1) l u k).2 :=
  jtab_pos (by linarith) (by linarith) hlu k hk

theorem beta_sq_pos (hA : 0 < A) (hB : 0 < B) (hlu : l < u) (q : ℝ[X]) (hq : q ≠ 0) :
    0 < betaL hA hB hlu (q * q) :=
  orth_sq_pos _ (beta_tab_pos hA hB hlu) 1 one_pos _ (beta_orth hA hB hlu) q hq

theorem beta_pos_lower (hA : 0 < A) (hB : 0 < B) (hlu : l < u) (q : ℝ[X]) (hq : q ≠ 0) :
    0 < betaL hA hB hlu ((X - C l) * (q * q)) := by
  have hA1 : 0 < A + 1 := by linarith
  have h := beta_sq_pos hA1 hB hlu q hq
  rw [betaL_apply, betaE] at h ⊢
  have hm := betaWeight_mass_pos hA1 hB hlu
  have hm' := betaWeight_mass_pos hA hB hlu
  have e : ∫ x in l..u, ((X - C l) * (q * q)).eval x * betaWeight A B l u x =
      ∫ x in l..u, (q * q).eval x * betaWeight (A + 1) B l u x := by
    apply intervalIntegral.integral_congr
    intro x hx
    rw [Set.uIcc_of_le hlu.le] at hx
    have e1 : (x - l) ^ (A + 1 - 1) = (x - l) * (x - l) ^ (A - 1) := by
      rcases eq_or_lt_of_le (show 0 ≤ x - l by linarith [hx.1]) with h0 | h0
      · rw [← h0, add_sub_cancel_right, Real.zero_rpow hA.ne', zero_mul]
      · rw [add_sub_cancel_right, mul_comm, ← Real.rpow_add_one h0.ne', sub_add_cancel]
    simp only [betaWeight, eval_mul, eval_sub, eval_X, eval_C]
    rw [e1]; ring
  rw [e]
  exact div_pos ((div_pos_iff_of_pos_right hm).mp h) hm'

theorem beta_pos_upper (hA : 0 < A) (hB : 0 < B) (hlu : l < u) (q : ℝ[X]) (hq : q ≠ 0) :
    0 < betaL hA hB hlu ((C u - X) * (q * q)) := by
  have hB1 : 0 < B + 1 := by linarith
  have h := beta_sq_pos hA hB1 hlu q hq
  rw [betaL_apply, betaE] at h ⊢
  have hm := betaWeight_mass_pos hA hB1 hlu
  have hm' := betaWeight_mass_pos hA hB hlu
  have e : ∫ x in l..u, ((C u - X) * (q * q)).eval x * betaWeight A B l u x =
      ∫ x in l..u, (q * q).eval x * betaWeight A (B + 1) l u x := by
    apply intervalIntegral.integral_congr
    intro x hx
    rw [Set.uIcc_of_le hlu.le] at hx
    have e1 : (u - x) ^ (B + 1 - 1) = (u - x) * (u - x) ^ (B - 1) := by
      rcases eq_or_lt_of_le (show 0 ≤ u - x by linarith [hx.2]) with h0 | h0
      · rw [← h0, add_sub_cancel_right, Real.zero_rpow hB.ne', zero_mul]
      · rw [add_sub_cancel_right, mul_comm, ← Real.rpow_add_one h0.ne', sub_add_cancel]
    simp only [betaWeight, eval_mul, eval_sub, eval_X, eval_C]
    rw [e1]; ring
  rw [e]
  exact div_pos ((div_pos_iff_of_pos_right hm).mp h) hm'

/-- The mean of the Beta law is the first recurrence coefficient. -/
theorem beta_mean (hA : 0 < A) (hB : 0 < B) (hlu : l < u) :
    betaE A B l u (fun x => x) = l + (u - l) * (A / (A + B)) := by
  have h := beta_orthonormal hA hB hlu 1 0
  have hb := beta_tab_pos hA hB hlu 1 le_rfl
  have hs : √(jtab (B - 1) (A - 1) l u 1).2 ≠ 0 := Real.sqrt_ne_zero'.2 hb
  have h' : betaL hA hB hlu (opoly (jtab (B - 1) (A - 1) l u) 1) = 0 := by
    rw [betaL_apply]
    simpa [opoly] using h
  rw [opoly, ← smul_eq_C_mul, map_smul, smul_eq_mul, mul_eq_zero,
    or_iff_right (inv_ne_zero hs), map_sub] at h'
  have h1 : betaL hA hB hlu (C (jtab (B - 1) (A - 1) l u 0).1) = (jtab (B - 1) (A - 1) l u 0).1 := by
    have := map_smul (betaL hA hB hlu) (jtab (B - 1) (A - 1) l u 0).1 (1 : ℝ[X])
    rw [smul_eq_C_mul, mul_one, betaL_one, smul_eq_mul, mul_one] at this
    exact this
  rw [h1, sub_eq_zero, betaL_apply] at h'
  simp only [eval_X] at h'
  rw [h']
  simp only [jtab, jacobiRow, if_true]
  have : A + B ≠ 0 := by linarith
  have e : B - 1 + (A - 1) + 2 = A + B := by ring
  rw [e]
  field_simp
  ring

end
end EQ.Param
