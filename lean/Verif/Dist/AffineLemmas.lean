import Verif.Dist.Model
import Verif.Param.Props

/-!
# Affine maps and the loop of `custom_recurrence_coefficients`: helper lemmas
-/

namespace EQ.DistLemmas
open EQ.Param Polynomial

/-- The affine substitution `x ↦ α x + β`. -/
noncomputable def aff (α β : ℝ) : ℝ[X] := C α * X + C β

theorem affine_rows (data data' : List (ℝ × ℝ)) (α β : ℝ)
    (h : ∀ f, dsum data' f = dsum data (f.comp (aff α β))) (hα : α ≠ 0) (m : ℕ)
    (hne : ∀ k ≤ m, dsum data (mpoly (customT data) k * mpoly (customT data) k) ≠ 0) :
    ∀ k ≤ m, (mpoly (customT data') k).comp (aff α β) = C (α ^ k) * mpoly (customT data) k ∧
      customT data' k = (α * (customT data k).1 + β, if k = 0 then (customT data k).2 else α ^ 2 * (customT data k).2) := by
  intro k
  induction k using Nat.strong_induction_on with
  | _ k ih =>
    intro hk
    have hp : (mpoly (customT data') k).comp (aff α β) = C (α ^ k) * mpoly (customT data) k := by
      match k, ih, hk with
      | 0, _, _ => simp [mpoly]
      | 1, ih, hk =>
        have h0 := (ih 0 (by omega) (by omega)).2
        simp only [mpoly, sub_comp, X_comp, C_comp, h0, pow_one]
        simp only [aff, map_add, map_mul]
        ring
      | n + 2, ih, hk =>
        have h1 := ih (n + 1) (by omega) (by omega)
        have h0 := ih n (by omega) (by omega)
        simp only [mpoly, sub_comp, mul_comp, X_comp, C_comp, h1.1, h0.1, h1.2, if_neg (Nat.succ_ne_zero n)]
        simp only [aff, map_add, map_mul, map_pow]
        ring
    refine ⟨hp, ?_⟩
    have hsq : ∀ j, j ≤ m → (mpoly (customT data') j).comp (aff α β) = C (α ^ j) * mpoly (customT data) j →
        dsum data' (mpoly (customT data') j * mpoly (customT data') j) =
          α ^ (2 * j) * dsum data (mpoly (customT data) j * mpoly (customT data) j) := by
      intro j _ hj
      rw [h, mul_comp, hj, show C (α ^ j) * mpoly (customT data) j * (C (α ^ j) * mpoly (customT data) j) =
        C (α ^ (2 * j)) * (mpoly (customT data) j * mpoly (customT data) j) by
          rw [two_mul, pow_add, C_mul]; ring, ← smul_eq_C_mul, map_smul, smul_eq_mul]
    have hx : ∀ j, (mpoly (customT data') j).comp (aff α β) = C (α ^ j) * mpoly (customT data) j →
        dsum data' (X * (mpoly (customT data') j * mpoly (customT data') j)) =
          α ^ (2 * j) * (α * dsum data (X * (mpoly (customT data) j * mpoly (customT data) j)) +
            β * dsum data (mpoly (customT data) j * mpoly (customT data) j)) := by
      intro j hj
      rw [h, mul_comp, mul_comp, hj, X_comp, aff, show (C α * X + C β) * (C (α ^ j) * mpoly (customT data) j *
        (C (α ^ j) * mpoly (customT data) j)) = (α ^ (2 * j) * α) • (X * (mpoly (customT data) j * mpoly (customT data) j)) +
          (α ^ (2 * j) * β) • (mpoly (customT data) j * mpoly (customT data) j) by
          simp only [smul_eq_C_mul, two_mul, pow_add, C_mul]; ring, map_add, map_smul, map_smul, smul_eq_mul, smul_eq_mul]
      ring
    cases k with
    | zero =>
      have e1 := hsq 0 (by omega) hp
      have e2 := hx 0 hp
      have hn := hne 0 (by omega)
      simp only [mpoly, mul_one, mul_zero, pow_zero, one_mul] at e1 e2 hn
      rw [customT_zero, customT_zero, e1, e2]
      simp only [if_true]
      refine Prod.ext ?_ rfl
      simp only
      field_simp
    | succ k =>
      have e1 := hsq (k + 1) hk hp
      have e0 := hsq k (by omega) (ih k (by omega) (by omega)).1
      have e2 := hx (k + 1) hp
      have hn := hne (k + 1) hk
      have hn0 := hne k (by omega)
      rw [customT_succ data' k, customT_succ data k, e1, e0, e2]
      simp only [if_neg (Nat.succ_ne_zero k)]
      refine Prod.ext ?_ ?_
      · simp only
        field_simp
      · simp only
        rw [show 2 * (k + 1) = 2 * k + 2 by ring, pow_add]
        field_simp

theorem dsum_affine (x w : List ℝ) (α β γ : ℝ) (hγ : γ ≠ 0) (f : ℝ[X]) :
    dsum (customData (x.map fun t => α * t + β) (w.map fun v => γ * v)) f =
      dsum (customData x w) (f.comp (aff α β)) := by
  rw [dsum_customData, dsum_customData, List.zip_map, List.map_map]
  congr 1
  apply List.map_congr_left
  rintro ⟨a, b⟩ _
  simp only [Function.comp, Prod.map, eval_comp, aff, eval_add, eval_mul, eval_C, eval_X]
  rw [show (w.map fun v => γ * v).sum = γ * w.sum from by have := List.sum_map_mul_left w id γ; simpa using this, mul_div_mul_left _ _ hγ]

theorem customData_facts (x w : List ℝ) (hw : ∀ v ∈ w, 0 ≤ v) (hs : w.sum ≠ 0) :
    (∀ q ∈ customData x w, 0 < q.2) ∧
    (customData x w).map Prod.fst = ((x.zip w).filter fun q => q.2 ≠ 0).map Prod.fst := by
  have hsum : 0 < w.sum := lt_of_le_of_ne (List.sum_nonneg hw) (Ne.symm hs)
  have hz : x.zip (w.map fun v => v / w.sum) = (x.zip w).map fun q => (q.1, q.2 / w.sum) := by
    rw [List.zip_map_right]; rfl
  constructor
  · intro q hq
    rw [customData, hz, List.mem_filter, List.mem_map] at hq
    obtain ⟨⟨p, hp, rfl⟩, hne⟩ := hq
    have h1 : 0 ≤ p.2 := hw _ (List.of_mem_zip hp).2
    have h2 : p.2 ≠ 0 := by
      intro h; simp [h] at hne
    exact div_pos (lt_of_le_of_ne h1 (Ne.symm h2)) hsum
  · rw [customData, hz, List.filter_map, List.map_map]
    congr 1
    apply List.filter_congr
    intro q _
    simp [hs]

theorem custom_sq_ne (x w : List ℝ) (hw : ∀ v ∈ w, 0 ≤ v) (hs : w.sum ≠ 0) (m : ℕ)
    (hd : m < (((x.zip w).filter fun q => q.2 ≠ 0).map Prod.fst).toFinset.card) (k : ℕ) (hk : k ≤ m) :
    dsum (customData x w) (mpoly (customT (customData x w)) k * mpoly (customT (customData x w)) k) ≠ 0 := by
  obtain ⟨h1, h2⟩ := customData_facts x w hw hs
  obtain ⟨hmon, hdeg⟩ := mpoly_monic (customT (customData x w)) k
  exact (dsum_sq_pos _ h1 _ hmon.ne_zero (by rw [h2]; omega)).ne'

/-- The orthonormal polynomials of two tables related by an affine map. -/
theorem opoly_affine (T T' : Table) (α β : ℝ) (hα : α ≠ 0) (m : ℕ) (hb : ∀ k, 1 ≤ k → k ≤ m → 0 < (T k).2)
    (h : ∀ k ≤ m, T' k = (α * (T k).1 + β, if k = 0 then (T k).2 else α ^ 2 * (T k).2)) (t : ℝ) :
    ∀ j ≤ m, (opoly T' j).eval (α * t + β) = (α / |α|) ^ j * (opoly T j).eval t := by
  have habs : 0 < |α| := abs_pos.2 hα
  have hsq : (α / |α|) ^ 2 = 1 := by
    rw [div_pow, sq_abs, div_self (pow_ne_zero 2 hα)]
  have hr : ∀ k, 1 ≤ k → k ≤ m → √(T' k).2 = |α| * √(T k).2 := by
    intro k h1 h2
    rw [h k h2]
    simp only [if_neg (by omega : ¬ k = 0)]
    rw [Real.sqrt_mul (sq_nonneg α), Real.sqrt_sq_eq_abs]
  intro j
  induction j using Nat.strong_induction_on with
  | _ j ih =>
    intro hj
    match j, ih, hj with
    | 0, _, _ => simp [opoly]
    | 1, _, hj =>
      simp only [opoly, eval_mul, eval_C, eval_sub, eval_X]
      rw [hr 1 le_rfl hj, h 0 (by omega)]
      have := (Real.sqrt_pos.2 (hb 1 le_rfl hj)).ne'
      simp only [pow_one]
      field_simp
      ring
    | n + 2, ih, hj =>
      have i1 := ih (n + 1) (by omega) (by omega)
      have i0 := ih n (by omega) (by omega)
      simp only [opoly, eval_mul, eval_C, eval_sub, eval_X]
      rw [i1, i0, hr (n + 2) (by omega) hj, hr (n + 1) (by omega) (by omega), h (n + 1) (by omega)]
      have s2 := (Real.sqrt_pos.2 (hb (n + 2) (by omega) hj)).ne'
      simp only
      have e : (α / |α|) ^ n = (α / |α|) ^ (n + 2) := by rw [pow_add, hsq, mul_one]
      rw [e, pow_succ (α / |α|) (n + 1)]
      generalize (α / |α|) ^ (n + 1) = s at *
      field_simp
      ring

end EQ.DistLemmas
