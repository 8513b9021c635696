import Verif.Param.MonicLemmas
import Verif.Param.ExactLemmas
import Mathlib.MeasureTheory.Integral.Gamma
import Mathlib.Analysis.SpecialFunctions.Gaussian.GaussianIntegral
import Mathlib.MeasureTheory.Measure.Lebesgue.Integral

/-!
# Laguerre and Hermite recurrence coefficients: C163, C164
-/

namespace EQ.Param
open EQ.Basis Polynomial MeasureTheory Set
open scoped Polynomial

/-! ## Model -/

/-- `recurrence_utils.py:15-27`: row `i` of the table of `laguerre_recurrence_coefficients`. -/
noncomputable def laguerreRow (a : ℝ) (i : ℕ) : ℝ × ℝ :=
  if i = 0 then (a + 1, Real.Gamma (a + 1)) else (2 * i + a + 1, i * (i + a))

/-- `laguerre_recurrence_coefficients(a, order)` (`recurrence_utils.py:4-28`). -/
noncomputable def laguerreCoeffs (a : ℝ) (order : ℕ) : Except Err (List (ℝ × ℝ)) :=
  if a ≤ -1 then .error .valueError else .ok ((List.range (order + 1)).map (laguerreRow a))

/-- `nh[j]` after `recurrence_utils.py:86-89`: half of `j + 1`, plus the second parameter at even positions. -/
noncomputable def hermiteNh (sigma2 : ℝ) (j : ℕ) : ℝ := if j % 2 = 0 then (j + 1 : ℝ) / 2 + sigma2 else (j + 1 : ℝ) / 2

/-- `hermite_recurrence_coefficients(param_A, param_B, order)` (`recurrence_utils.py:64-100`): `order` rows, of which the first is overwritten at line 98.
Without rows that line raises `IndexError`. -/
noncomputable def hermiteCoeffs (A B : ℝ) (order : ℕ) : Except Err (List (ℝ × ℝ)) :=
  if order = 0 then .error .indexError
  else .ok ((List.range order).map fun i => (0, if i = 0 then Real.Gamma (A + 0.5) else hermiteNh B (i - 1)))

/-! ## Specification -/

/-- Integral against the weight of the gamma laws. -/
noncomputable def gammaInt (a : ℝ) (f : ℝ → ℝ) : ℝ := ∫ x in Ioi (0 : ℝ), f x * (Real.exp (-x) * x ^ a)

/-- Integral against the weight `|x|^(2 m) exp(-x²)` of the generalised Hermite polynomials. -/
noncomputable def hermiteInt (m : ℝ) (f : ℝ → ℝ) : ℝ := ∫ x : ℝ, f x * (|x| ^ (2 * m) * Real.exp (-x ^ 2))

/-! ## Functionals -/

/-- The functional of a weight whose moments exist. -/
noncomputable def weightL (μ : Measure ℝ) (w : ℝ → ℝ) (h : ∀ k : ℕ, Integrable (fun x => x ^ k * w x) μ) : ℝ[X] →ₗ[ℝ] ℝ :=
  have hp : ∀ p : ℝ[X], Integrable (fun x => p.eval x * w x) μ := by
    intro p
    have : (fun x => p.eval x * w x) = fun x => ∑ k ∈ p.support, p.coeff k * (x ^ k * w x) := by
      funext x
      rw [eval_eq_sum, Polynomial.sum, Finset.sum_mul]
      apply Finset.sum_congr rfl
      intro k _
      ring
    rw [this]
    exact integrable_finsetSum _ fun k _ => (h k).const_mul _
  { toFun := fun p => ∫ x, p.eval x * w x ∂μ
    map_add' := fun p q => by
      rw [← integral_add (hp p) (hp q)]
      congr 1
      funext x
      rw [eval_add]; ring
    map_smul' := fun c p => by
      simp only [RingHom.id_apply, smul_eq_mul]
      rw [← integral_const_mul]
      congr 1
      funext x
      rw [eval_smul, smul_eq_mul]; ring }

theorem weightL_apply (μ : Measure ℝ) (w : ℝ → ℝ) (h : ∀ k : ℕ, Integrable (fun x => x ^ k * w x) μ) (p : ℝ[X]) :
    weightL μ w h p = ∫ x, p.eval x * w x ∂μ := rfl

theorem weightL_pow (μ : Measure ℝ) (w : ℝ → ℝ) (h : ∀ k : ℕ, Integrable (fun x => x ^ k * w x) μ) (k : ℕ) :
    weightL μ w h (X ^ k) = ∫ x, x ^ k * w x ∂μ := by
  rw [weightL_apply]
  simp

/-- A functional that vanishes on all monic polynomials of positive degree makes them orthogonal. -/
theorem orth_of_vanish (ab : Table) (L : ℝ[X] →ₗ[ℝ] ℝ) (h : ∀ n, L (mpoly ab (n + 1)) = 0) (p q : ℕ) (hpq : p ≠ q) :
    L (mpoly ab p * mpoly ab q) = 0 := by
  have key : ∀ i j, i < j → L (mpoly ab i * mpoly ab j) = 0 := by
    intro i
    induction i using Nat.strong_induction_on with
    | _ i ih =>
      intro j hij
      match i with
      | 0 =>
        obtain ⟨j, rfl⟩ : ∃ k, j = k + 1 := ⟨j - 1, by omega⟩
        rw [mpoly, one_mul]
        exact h j
      | i + 1 =>
        have h1 := X_mul_mpoly ab i
        have h2 := X_mul_mpoly ab j
        rw [if_pos (by omega : 1 ≤ j)] at h2
        have e : mpoly ab (i + 1) * mpoly ab j = mpoly ab i * mpoly ab (j + 1) + (ab j).1 • (mpoly ab i * mpoly ab j) +
            (ab j).2 • (mpoly ab i * mpoly ab (j - 1)) - (ab i).1 • (mpoly ab i * mpoly ab j) -
            (if 1 ≤ i then (ab i).2 • (mpoly ab (i - 1) * mpoly ab j) else 0) := by
          have h3 : mpoly ab (i + 1) = X * mpoly ab i - C (ab i).1 * mpoly ab i - (if 1 ≤ i then C (ab i).2 * mpoly ab (i - 1) else 0) := by
            rw [h1]; ring
          rw [h3]
          simp only [smul_eq_C_mul]
          split_ifs <;> linear_combination mpoly ab i * h2
        rw [e, map_sub, map_sub, map_add, map_add, map_smul, map_smul, map_smul, ih i (by omega) (j + 1) (by omega), ih i (by omega) j (by omega),
          ih i (by omega) (j - 1) (by omega)]
        split_ifs
        · rw [map_smul, ih (i - 1) (by omega) j (by omega)]; simp
        · simp
  rcases lt_or_gt_of_ne hpq with h | h
  · exact key p q h
  · rw [mul_comm]; exact key q p h

/-- Orthonormal polynomials from the vanishing of the functional. -/
theorem orthonormal_of_vanish (ab : Table) (hpos : ∀ k, 1 ≤ k → 0 < (ab k).2) (L : ℝ[X] →ₗ[ℝ] ℝ) (h : ∀ n, L (mpoly ab (n + 1)) = 0) (i j : ℕ) :
    L (opoly ab i * opoly ab j) = if i = j then L 1 else 0 :=
  orthonormal_of_monic ab L (max i j) (fun k h1 _ => hpos k h1) (fun p q _ _ hpq => orth_of_vanish ab L h p q hpq)
    (fun k _ => sq_step ab L k fun p q _ _ hpq => orth_of_vanish ab L h p q hpq) i j (le_max_left _ _) (le_max_right _ _)

/-! ## Laguerre -/

theorem laguerre_zero (a : ℝ) : (laguerreRow a 0).1 = a + 1 := by simp [laguerreRow]

theorem laguerre_fst (a : ℝ) (n : ℕ) : (laguerreRow a n).1 = 2 * n + a + 1 := by
  unfold laguerreRow
  split_ifs with h
  · simp [h]
  · rfl

theorem laguerre_snd (a : ℝ) (n : ℕ) : (laguerreRow a (n + 1)).2 = (n + 1) * (n + 1 + a) := by
  simp [laguerreRow]

theorem laguerre_structure (a : ℝ) (n : ℕ) : X * derivative (mpoly (laguerreRow a) (n + 1)) =
    C (n + 1 : ℝ) * mpoly (laguerreRow a) (n + 1) + C ((n + 1 : ℝ) * (n + 1 + a)) * mpoly (laguerreRow a) n := by
  induction n using Nat.twoStepInduction with
  | zero =>
    simp only [mpoly, laguerre_fst, derivative_sub, derivative_X, derivative_C]
    simp only [Nat.cast_zero, C_add, C_mul, C_1, C_0]
    ring
  | one =>
    simp only [mpoly, laguerre_fst, laguerre_snd, derivative_sub, derivative_mul, derivative_X, derivative_C]
    have e : (C (1 : ℝ) : ℝ[X]) = 1 := C_1
    simp only [Nat.cast_zero, Nat.cast_one, zero_add, C_add, C_mul, e, C_0, map_ofNat, derivative_one]
    ring
  | more n ih0 ih1 =>
    have r3 : mpoly (laguerreRow a) (n + 3) = (X - C (2 * (n + 2 : ℝ) + a + 1)) * mpoly (laguerreRow a) (n + 2) -
        C ((n + 2 : ℝ) * (n + 2 + a)) * mpoly (laguerreRow a) (n + 1) := by
      rw [mpoly, laguerre_fst, laguerre_snd]
      push_cast
      ring_nf
    have r2 : mpoly (laguerreRow a) (n + 2) = (X - C (2 * (n + 1 : ℝ) + a + 1)) * mpoly (laguerreRow a) (n + 1) -
        C ((n + 1 : ℝ) * (n + 1 + a)) * mpoly (laguerreRow a) n := by
      rw [mpoly, laguerre_fst, laguerre_snd]
      push_cast
      ring_nf
    change X * derivative (mpoly (laguerreRow a) (n + 3)) = C (((n + 2 : ℕ) : ℝ) + 1) * mpoly (laguerreRow a) (n + 3) +
      C ((((n + 2 : ℕ) : ℝ) + 1) * (((n + 2 : ℕ) : ℝ) + 1 + a)) * mpoly (laguerreRow a) (n + 2)
    have ih1' : X * derivative (mpoly (laguerreRow a) (n + 2)) = C (((n + 1 : ℕ) : ℝ) + 1) * mpoly (laguerreRow a) (n + 2) +
      C ((((n + 1 : ℕ) : ℝ) + 1) * (((n + 1 : ℕ) : ℝ) + 1 + a)) * mpoly (laguerreRow a) (n + 1) := ih1
    rw [r3]
    simp only [derivative_sub, derivative_mul, derivative_X, derivative_C]
    generalize derivative (mpoly (laguerreRow a) (n + 2)) = d2 at *
    generalize derivative (mpoly (laguerreRow a) (n + 1)) = d1 at *
    generalize mpoly (laguerreRow a) (n + 2) = p2 at *
    generalize mpoly (laguerreRow a) (n + 1) = p1 at *
    generalize mpoly (laguerreRow a) n = p0 at *
    push_cast at *
    simp only [C_add, C_mul, C_1, map_ofNat] at *
    generalize (C (n : ℝ) : ℝ[X]) = N at *
    generalize (C a : ℝ[X]) = A at *
    linear_combination (X - (2 * (N + 2) + A + 1)) * ih1' - (N + 2) * (N + 2 + A) * ih0 - (N + 2) * (N + 2 + A) * r2

theorem gamma_integrable (a : ℝ) (ha : -1 < a) (k : ℕ) : Integrable (fun x : ℝ => x ^ k * (Real.exp (-x) * x ^ a)) (volume.restrict (Ioi 0)) := by
  have h := Real.GammaIntegral_convergent (s := k + a + 1) (by have : (0:ℝ) ≤ k := Nat.cast_nonneg k; linarith)
  refine h.congr_fun (fun x hx => ?_) measurableSet_Ioi
  have hx : 0 < x := hx
  change Real.exp (-x) * x ^ ((k : ℝ) + a + 1 - 1) = _
  rw [show (k : ℝ) + a + 1 - 1 = k + a by ring, Real.rpow_add hx, Real.rpow_natCast]
  ring

theorem gamma_moment (a : ℝ) (ha : -1 < a) (k : ℕ) : ∫ x in Ioi (0 : ℝ), x ^ k * (Real.exp (-x) * x ^ a) = Real.Gamma (k + a + 1) := by
  rw [Real.Gamma_eq_integral (by have : (0:ℝ) ≤ k := Nat.cast_nonneg k; linarith)]
  refine setIntegral_congr_fun measurableSet_Ioi fun x hx => ?_
  have hx : 0 < x := hx
  change _ = _
  rw [show (k : ℝ) + a + 1 - 1 = k + a by ring, Real.rpow_add hx, Real.rpow_natCast]
  ring

theorem linear_ext {L M : ℝ[X] →ₗ[ℝ] ℝ} (h : ∀ k : ℕ, L (X ^ k) = M (X ^ k)) (p : ℝ[X]) : L p = M p := by
  have : L = M := by
    apply Polynomial.lhom_ext'
    intro k
    apply LinearMap.ext_ring
    have := h k
    simpa [← X_pow_eq_monomial] using this
  rw [this]

theorem gamma_pearson (a : ℝ) (ha : -1 < a) (p : ℝ[X]) :
    weightL _ _ (gamma_integrable a ha) (X * derivative p) = weightL _ _ (gamma_integrable a ha) ((X - C (a + 1)) * p) := by
  set L := weightL _ _ (gamma_integrable a ha) with hL
  have hk : ∀ k : ℕ, L (X ^ k) = Real.Gamma (k + a + 1) := fun k => by rw [hL, weightL_pow]; exact gamma_moment a ha k
  have := linear_ext (L := L.comp ((LinearMap.mulLeft ℝ X).comp derivative)) (M := L.comp (LinearMap.mulLeft ℝ (X - C (a + 1)))) (fun k => ?_) p
  · simpa using this
  · simp only [LinearMap.comp_apply, LinearMap.mulLeft_apply]
    have e1 : X * derivative (X ^ k : ℝ[X]) = (k : ℝ) • X ^ k := by
      rw [derivative_X_pow, smul_eq_C_mul]
      cases k with
      | zero => simp
      | succ k => simp only [Nat.add_sub_cancel, pow_succ]; ring
    have e2 : (X - C (a + 1)) * X ^ k = X ^ (k + 1) - (a + 1) • X ^ k := by
      rw [smul_eq_C_mul, pow_succ]; ring
    have hne : (k : ℝ) + a + 1 ≠ 0 := by have : (0:ℝ) ≤ k := Nat.cast_nonneg k; exact ne_of_gt (by linarith)
    rw [e1, e2, map_smul, map_sub, map_smul, hk, hk, smul_eq_mul, smul_eq_mul]
    push_cast
    rw [show (k : ℝ) + 1 + a + 1 = (k + a + 1) + 1 by ring, Real.Gamma_add_one hne]
    ring

theorem gamma_vanish (a : ℝ) (ha : -1 < a) (n : ℕ) : weightL _ _ (gamma_integrable a ha) (mpoly (laguerreRow a) (n + 1)) = 0 := by
  set L := weightL _ _ (gamma_integrable a ha) with hL
  induction n with
  | zero =>
    have := gamma_pearson a ha 1
    rw [← hL] at this
    simp only [derivative_one, mul_zero, map_zero, mul_one] at this
    rw [mpoly, laguerre_zero]
    exact this.symm
  | succ n ih =>
    have h := gamma_pearson a ha (mpoly (laguerreRow a) (n + 1))
    rw [← hL, laguerre_structure] at h
    have r : (X - C (a + 1)) * mpoly (laguerreRow a) (n + 1) = mpoly (laguerreRow a) (n + 2) + (2 * (n + 1 : ℝ)) • mpoly (laguerreRow a) (n + 1) +
        ((n + 1 : ℝ) * (n + 1 + a)) • mpoly (laguerreRow a) n := by
      rw [mpoly, laguerre_fst, laguerre_snd]
      simp only [smul_eq_C_mul]
      push_cast
      simp only [C_add, C_mul, C_1, map_ofNat]
      ring
    rw [r, ← smul_eq_C_mul, ← smul_eq_C_mul, map_add, map_add, map_add, map_smul, map_smul, map_smul, ih] at h
    simp only [smul_eq_mul, mul_zero] at h
    linarith

theorem opoly_rows_of {l : List (ℝ × ℝ)} {g : ℕ → ℝ × ℝ} {m : ℕ} (hl : l = (List.range m).map g) (n : ℕ) (hn : n < m) : opoly (rows l) n = opoly g n := by
  have hr : ∀ k, k < m → rows l k = g k := fun k hk => by
    rw [rows, hl]
    simp [List.getD, hk]
  exact opoly_congr _ _ n (fun k hk => by rw [hr k (by omega)]) fun k _ hk => by rw [hr k (by omega)]

/-- **C163.** For every shape above `-1` and every order the table has `order + 1` rows, the first entry of the second column is the total mass of the weight,
and the polynomials evaluated from the table are orthogonal for the weight `x^a exp(-x)` on the positive half line, all with the square norm of the
constant. Other shapes are refused. -/
theorem c163_laguerre (a : ℝ) (order : ℕ) :
    (a ≤ -1 → laguerreCoeffs a order = .error .valueError) ∧
    (-1 < a → ∃ l, laguerreCoeffs a order = .ok l ∧ l.length = order + 1 ∧ (∀ q ∈ l, 0 < q.2) ∧ (rows l 0).2 = gammaInt a (fun _ => 1) ∧
      ∀ i j, i < order + 1 → j < order + 1 → gammaInt a (fun x => (orthoTables (rows l) (order + 1) x).poly i * (orthoTables (rows l) (order + 1) x).poly j) =
        if i = j then gammaInt a (fun _ => 1) else 0) := by
  refine ⟨fun h => if_pos h, fun ha => ⟨_, if_neg (not_le.2 ha), by simp, ?_, ?_, ?_⟩⟩
  · intro q hq
    obtain ⟨k, -, rfl⟩ := List.mem_map.1 hq
    cases k with
    | zero => simp only [laguerreRow, if_true]; exact Real.Gamma_pos_of_pos (by linarith)
    | succ k => rw [laguerre_snd]; have : (0:ℝ) ≤ k := Nat.cast_nonneg k; exact mul_pos (by linarith) (by linarith)
  · have := gamma_moment a ha 0
    simp only [pow_zero, Nat.cast_zero, zero_add] at this
    rw [gammaInt, this]
    simp [rows, laguerreRow, List.range_succ_eq_map]
  · intro i j hi hj
    have h := orthonormal_of_vanish (laguerreRow a) (fun k hk => by
      obtain ⟨k, rfl⟩ : ∃ m, k = m + 1 := ⟨k - 1, by omega⟩
      rw [laguerre_snd]; have : (0:ℝ) ≤ k := Nat.cast_nonneg k; exact mul_pos (by linarith) (by linarith)) _ (gamma_vanish a ha) i j
    have e1 : weightL _ _ (gamma_integrable a ha) 1 = gammaInt a (fun _ => 1) := by
      rw [weightL_apply, gammaInt]; simp
    rw [e1] at h
    rw [← h, weightL_apply, gammaInt]
    congr 1
    funext x
    rw [(orthoTables_eq _ (order + 1) x i hi).1, (orthoTables_eq _ (order + 1) x j hj).1, opoly_rows_of rfl i hi, opoly_rows_of rfl j hj, eval_mul]

/-- The usual polynomials, of shape zero, meet the hypothesis. -/
example : ∃ l, laguerreCoeffs 0 3 = .ok l ∧ l.length = 4 := by
  obtain ⟨l, h1, h2, -⟩ := (c163_laguerre 0 3).2 (by norm_num)
  exact ⟨l, h1, h2⟩

/-! ## Hermite -/

/-- The table of the generalised Hermite polynomials, all rows. -/
noncomputable def hermiteRow (A B : ℝ) (i : ℕ) : ℝ × ℝ := (0, if i = 0 then Real.Gamma (A + 0.5) else hermiteNh B (i - 1))

theorem hermite_snd (A B : ℝ) (n : ℕ) : (hermiteRow A B (n + 1)).2 = hermiteNh B n := by simp [hermiteRow]

theorem hermiteNh_step (B : ℝ) (n : ℕ) : hermiteNh B (n + 2) = hermiteNh B n + 1 := by
  unfold hermiteNh
  rw [Nat.add_mod_right]
  split_ifs <;> push_cast <;> ring

theorem hermiteNh_pair (B : ℝ) (n : ℕ) : hermiteNh B n + hermiteNh B (n + 1) = n + 3 / 2 + B := by
  unfold hermiteNh
  rcases Nat.mod_two_eq_zero_or_one n with h | h
  · rw [if_pos h, if_neg (by omega)]; push_cast; ring
  · rw [if_neg (by omega), if_pos (by omega)]; push_cast; ring

theorem hermiteNh_pos (B : ℝ) (hB : -(1 / 2) < B) (n : ℕ) : 0 < hermiteNh B n := by
  have : (0:ℝ) ≤ n := Nat.cast_nonneg n
  unfold hermiteNh
  split_ifs <;> linarith

theorem hermite_rec (A B : ℝ) (n : ℕ) : mpoly (hermiteRow A B) (n + 2) = X * mpoly (hermiteRow A B) (n + 1) - C (hermiteNh B n) * mpoly (hermiteRow A B) n := by
  rw [mpoly, hermite_snd]
  simp [hermiteRow]

theorem hermite_one (A B : ℝ) : mpoly (hermiteRow A B) 1 = X := by
  simp [mpoly, hermiteRow]

theorem hermite_structure (A B : ℝ) (n : ℕ) : X * derivative (mpoly (hermiteRow A B) (n + 2)) =
    C (n + 2 : ℝ) * mpoly (hermiteRow A B) (n + 2) + C (2 * hermiteNh B (n + 1) * hermiteNh B n) * mpoly (hermiteRow A B) n := by
  have h0 : mpoly (hermiteRow A B) 0 = 1 := rfl
  have h1 := hermite_one A B
  have h2 := hermite_rec A B 0
  have h3 := hermite_rec A B 1
  simp only [zero_add] at h2
  rw [h0, h1] at h2
  change mpoly (hermiteRow A B) 3 = _ at h3
  rw [h1, show (1 : ℕ) + 1 = 2 from rfl, h2] at h3
  have b0 : hermiteNh B 0 = 1 / 2 + B := by norm_num [hermiteNh]
  have b1 : hermiteNh B 1 = 1 := by norm_num [hermiteNh]
  have b2 : hermiteNh B 2 = 3 / 2 + B := by have := hermiteNh_step B 0; rw [b0] at this; change hermiteNh B 2 = _ at this; rw [this]; ring
  have e1 : (C (1 : ℝ) : ℝ[X]) = 1 := C_1
  induction n using Nat.twoStepInduction with
  | zero =>
    simp only [zero_add]
    rw [h2, h0, b1]
    simp only [derivative_sub, derivative_mul, derivative_X, derivative_C, Nat.cast_zero, zero_add, C_mul, e1, map_ofNat, derivative_one]
    ring
  | one =>
    change X * derivative (mpoly (hermiteRow A B) 3) = _ * mpoly (hermiteRow A B) 3 + _
    rw [h3, h1, b1, show (1:ℕ) + 1 = 2 from rfl, b2, b0]
    simp only [derivative_sub, derivative_mul, derivative_X, derivative_C, Nat.cast_one, C_mul, C_add, e1, map_ofNat, derivative_one, derivative_add]
    have e2 : (2 : ℝ[X]) * C (3 / 2 : ℝ) = 3 := by rw [show (2 : ℝ[X]) = C (2 : ℝ) from rfl, ← C_mul]; norm_num; rfl
    have e3 : (2 : ℝ[X]) * C (1 / 2 : ℝ) = 1 := by rw [show (2 : ℝ[X]) = C (2 : ℝ) from rfl, ← C_mul]; norm_num
    linear_combination X * e3 - X * e2
  | more n ih0 ih1 =>
    have r4 := hermite_rec A B (n + 2)
    have r3 := hermite_rec A B (n + 1)
    have r2 := hermite_rec A B n
    change X * derivative (mpoly (hermiteRow A B) (n + 4)) = C (((n + 2 : ℕ) : ℝ) + 2) * mpoly (hermiteRow A B) (n + 4) +
      C (2 * hermiteNh B (n + 3) * hermiteNh B (n + 2)) * mpoly (hermiteRow A B) (n + 2)
    change mpoly (hermiteRow A B) (n + 4) = X * mpoly (hermiteRow A B) (n + 3) - _ at r4
    change mpoly (hermiteRow A B) (n + 3) = X * mpoly (hermiteRow A B) (n + 2) - _ at r3
    have ih1' : X * derivative (mpoly (hermiteRow A B) (n + 3)) = C (((n + 1 : ℕ) : ℝ) + 2) * mpoly (hermiteRow A B) (n + 3) +
      C (2 * hermiteNh B (n + 2) * hermiteNh B (n + 1)) * mpoly (hermiteRow A B) (n + 1) := ih1
    rw [r4, show n + 3 = n + 1 + 2 from rfl, hermiteNh_step B (n + 1), hermiteNh_step B n]
    rw [hermiteNh_step B n] at ih1'
    simp only [derivative_sub, derivative_mul, derivative_X, derivative_C]
    change X * (1 * mpoly (hermiteRow A B) (n + 3) + X * derivative (mpoly (hermiteRow A B) (n + 3)) - _) = _ * (X * mpoly (hermiteRow A B) (n + 3) - _) + _
    clear h0 h1 h2 h3 b0 b1 b2 r4 r3 ih1
    generalize derivative (mpoly (hermiteRow A B) (n + 3)) = d3 at *
    generalize derivative (mpoly (hermiteRow A B) (n + 2)) = d2 at *
    generalize mpoly (hermiteRow A B) (n + 3) = p3 at *
    generalize mpoly (hermiteRow A B) (n + 2) = p2 at *
    generalize mpoly (hermiteRow A B) (n + 1) = p1 at *
    generalize mpoly (hermiteRow A B) n = p0 at *
    push_cast at *
    simp only [C_add, C_mul, e1, map_ofNat] at *
    generalize (C (n : ℝ) : ℝ[X]) = N at *
    generalize (C (hermiteNh B n) : ℝ[X]) = c0 at *
    generalize (C (hermiteNh B (n + 1)) : ℝ[X]) = c1 at *
    linear_combination X * ih1' - (c0 + 1) * ih0 - 2 * (c0 + 1) * c1 * r2

theorem abs_integrable {f : ℝ → ℝ} (h : IntegrableOn f (Ioi 0)) : Integrable fun x => f |x| := by
  have hf : IntegrableOn (fun x => f |x|) (Ioi 0) :=
    h.congr_fun (fun x hx => by have hx : 0 < x := hx; simp only [abs_of_pos hx]) measurableSet_Ioi
  have int_Iic : IntegrableOn (fun x => f |x|) (Iic 0) := by
    rw [← Measure.map_neg_eq_self (volume : Measure ℝ)]
    let m : MeasurableEmbedding fun x : ℝ => -x := (Homeomorph.neg ℝ).measurableEmbedding
    rw [m.integrableOn_map_iff]
    simp_rw [Function.comp_def, abs_neg, neg_preimage, neg_Iic, neg_zero]
    exact Iff.mpr integrableOn_Ici_iff_integrableOn_Ioi hf
  rw [← integrableOn_univ, ← Iic_union_Ioi (a := (0 : ℝ))]
  exact int_Iic.union hf

theorem hermite_half (B : ℝ) (k : ℕ) {x : ℝ} (hx : 0 < x) :
    x ^ k * (x ^ (2 * B) * Real.exp (-x ^ 2)) = x ^ ((k : ℝ) + 2 * B) * Real.exp (-x ^ (2 : ℝ)) := by
  rw [Real.rpow_add hx, Real.rpow_natCast, Real.rpow_two]
  ring

theorem hermite_integrable (B : ℝ) (hB : -(1 / 2) < B) (k : ℕ) : Integrable (fun x : ℝ => x ^ k * (|x| ^ (2 * B) * Real.exp (-x ^ 2))) volume := by
  have h1 : IntegrableOn (fun x : ℝ => x ^ k * (x ^ (2 * B) * Real.exp (-x ^ 2))) (Ioi 0) := by
    refine (integrableOn_rpow_mul_exp_neg_rpow (p := 2) (s := k + 2 * B) (by have : (0:ℝ) ≤ k := Nat.cast_nonneg k; linarith) (by norm_num)).congr_fun
      (fun x hx => ?_) measurableSet_Ioi
    exact (hermite_half B k hx).symm
  have h2 := abs_integrable h1
  refine h2.mono ?_ (Filter.Eventually.of_forall fun x => ?_)
  · exact Measurable.aestronglyMeasurable (by fun_prop)
  · simp only [norm_mul, norm_pow, Real.norm_eq_abs, abs_abs, sq_abs]
    exact le_refl _

theorem hermite_moment_even (B : ℝ) (hB : -(1 / 2) < B) (m : ℕ) :
    ∫ x : ℝ, x ^ (2 * m) * (|x| ^ (2 * B) * Real.exp (-x ^ 2)) = Real.Gamma (m + B + 1 / 2) := by
  have e : (fun x : ℝ => x ^ (2 * m) * (|x| ^ (2 * B) * Real.exp (-x ^ 2))) =
      fun x => (fun t : ℝ => t ^ (2 * m) * (t ^ (2 * B) * Real.exp (-t ^ 2))) |x| := by
    funext x
    simp only [pow_mul, sq_abs]
  rw [e, integral_comp_abs (f := fun t : ℝ => t ^ (2 * m) * (t ^ (2 * B) * Real.exp (-t ^ 2))), setIntegral_congr_fun measurableSet_Ioi fun x hx => hermite_half B (2 * m) hx,
    integral_rpow_mul_exp_neg_rpow (by norm_num) (by have : (0:ℝ) ≤ ((2 * m : ℕ) : ℝ) := Nat.cast_nonneg _; linarith)]
  push_cast
  rw [show (2 * (m : ℝ) + 2 * B + 1) / 2 = m + B + 1 / 2 by ring]
  ring

theorem hermite_moment_odd (B : ℝ) (m : ℕ) : ∫ x : ℝ, x ^ (2 * m + 1) * (|x| ^ (2 * B) * Real.exp (-x ^ 2)) = 0 := by
  have h := integral_neg_eq_self (fun x : ℝ => x ^ (2 * m + 1) * (|x| ^ (2 * B) * Real.exp (-x ^ 2))) volume
  have e : ∀ x : ℝ, (-x) ^ (2 * m + 1) * (|(-x)| ^ (2 * B) * Real.exp (-(-x) ^ 2)) = -(x ^ (2 * m + 1) * (|x| ^ (2 * B) * Real.exp (-x ^ 2))) := by
    intro x
    rw [abs_neg, neg_sq, Odd.neg_pow ⟨m, rfl⟩]
    ring
  simp only [e, integral_neg] at h
  linarith

theorem hermite_pearson (B : ℝ) (hB : -(1 / 2) < B) (p : ℝ[X]) :
    weightL _ _ (hermite_integrable B hB) (X * derivative p) = weightL _ _ (hermite_integrable B hB) ((2 * X ^ 2 - C (2 * B + 1)) * p) := by
  set L := weightL _ _ (hermite_integrable B hB) with hL
  have he : ∀ k : ℕ, L (X ^ (2 * k)) = Real.Gamma (k + B + 1 / 2) := fun k => by rw [hL, weightL_pow]; exact hermite_moment_even B hB k
  have ho : ∀ k : ℕ, L (X ^ (2 * k + 1)) = 0 := fun k => by rw [hL, weightL_pow]; exact hermite_moment_odd B k
  have := linear_ext (L := L.comp ((LinearMap.mulLeft ℝ X).comp derivative)) (M := L.comp (LinearMap.mulLeft ℝ (2 * X ^ 2 - C (2 * B + 1)))) (fun k => ?_) p
  · simpa using this
  · simp only [LinearMap.comp_apply, LinearMap.mulLeft_apply]
    have e1 : X * derivative (X ^ k : ℝ[X]) = (k : ℝ) • X ^ k := by
      rw [derivative_X_pow, smul_eq_C_mul]
      cases k with
      | zero => simp
      | succ k => simp only [Nat.add_sub_cancel, pow_succ]; ring
    have e2 : (2 * X ^ 2 - C (2 * B + 1)) * X ^ k = (2 : ℝ) • X ^ (k + 2) - (2 * B + 1) • X ^ k := by
      rw [smul_eq_C_mul, smul_eq_C_mul, map_ofNat, pow_add]; ring
    rw [e1, e2, map_smul, map_sub, map_smul, map_smul]
    simp only [smul_eq_mul]
    rcases Nat.even_or_odd' k with ⟨m, rfl | rfl⟩
    · have hne : (m : ℝ) + B + 1 / 2 ≠ 0 := by have : (0:ℝ) ≤ m := Nat.cast_nonneg m; exact ne_of_gt (by linarith)
      rw [show 2 * m + 2 = 2 * (m + 1) by ring, he, he]
      push_cast
      rw [show (m : ℝ) + 1 + B + 1 / 2 = (m + B + 1 / 2) + 1 by ring, Real.Gamma_add_one hne]
      ring
    · rw [show 2 * m + 1 + 2 = 2 * (m + 1) + 1 by ring, ho, ho]
      ring

theorem hermite_vanish (A B : ℝ) (hB : -(1 / 2) < B) (n : ℕ) : weightL _ _ (hermite_integrable B hB) (mpoly (hermiteRow A B) (n + 1)) = 0 := by
  set L := weightL _ _ (hermite_integrable B hB) with hL
  have hpe := hermite_pearson B hB
  rw [← hL] at hpe
  have hrec : ∀ n : ℕ, (2 * X ^ 2 - C (2 * B + 1)) * mpoly (hermiteRow A B) (n + 2) = (2 : ℝ) • mpoly (hermiteRow A B) (n + 4) +
      (2 * (n + 2 : ℝ)) • mpoly (hermiteRow A B) (n + 2) + (2 * hermiteNh B (n + 1) * hermiteNh B n) • mpoly (hermiteRow A B) n := by
    intro n
    have r4 := hermite_rec A B (n + 2)
    have r3 := hermite_rec A B (n + 1)
    have r2 := hermite_rec A B n
    have hb : hermiteNh B (n + 1) + hermiteNh B (n + 2) = (n + 1 : ℝ) + 3 / 2 + B := by
      have := hermiteNh_pair B (n + 1)
      push_cast at this
      exact this
    have hb' : (C (2 * (hermiteNh B (n + 1) + hermiteNh B (n + 2))) : ℝ[X]) = C (2 * B + 1 + 2 * (n + 2)) := by rw [hb]; congr 1; ring
    change mpoly (hermiteRow A B) (n + 4) = X * mpoly (hermiteRow A B) (n + 3) - _ at r4
    change mpoly (hermiteRow A B) (n + 3) = X * mpoly (hermiteRow A B) (n + 2) - _ at r3
    rw [r4, r3]
    simp only [smul_eq_C_mul]
    have e1 : (C (1 : ℝ) : ℝ[X]) = 1 := C_1
    simp only [C_add, C_mul, e1, map_ofNat] at *
    linear_combination mpoly (hermiteRow A B) (n + 2) * hb' - 2 * C (hermiteNh B (n + 1)) * r2
  induction n using Nat.strong_induction_on with
  | _ n ih =>
    match n with
    | 0 =>
      rw [hermite_one]
      have := hermite_moment_odd B 0
      rw [hL, ← pow_one X, weightL_pow]
      exact this
    | 1 =>
      have := hpe 1
      simp only [derivative_one, mul_zero, map_zero, mul_one] at this
      have e : 2 * X ^ 2 - C (2 * B + 1) = (2 : ℝ) • mpoly (hermiteRow A B) 2 := by
        have h2 := hermite_rec A B 0
        simp only [zero_add] at h2
        rw [h2, hermite_one, show mpoly (hermiteRow A B) 0 = 1 from rfl, show hermiteNh B 0 = 1 / 2 + B by norm_num [hermiteNh], smul_eq_C_mul, mul_sub,
          mul_one, ← C_mul, show (2 : ℝ) * (1 / 2 + B) = 2 * B + 1 by ring, map_ofNat]
        ring
      rw [e, map_smul, smul_eq_mul] at this
      change L (mpoly (hermiteRow A B) 2) = 0
      linarith
    | 2 =>
      have h3 := hermite_rec A B 1
      have h2 := hermite_rec A B 0
      simp only [zero_add] at h2
      change mpoly (hermiteRow A B) 3 = X * mpoly (hermiteRow A B) 2 - _ at h3
      rw [h2, hermite_one, show mpoly (hermiteRow A B) 0 = 1 from rfl] at h3
      have e : mpoly (hermiteRow A B) 3 = X ^ (2 * 1 + 1) - (hermiteNh B 0 + hermiteNh B 1) • X ^ (2 * 0 + 1) := by
        rw [h3, smul_eq_C_mul, C_add]; ring
      change L (mpoly (hermiteRow A B) 3) = 0
      have ho : ∀ k : ℕ, L (X ^ (2 * k + 1)) = 0 := fun k => by rw [hL, weightL_pow]; exact hermite_moment_odd B k
      rw [e, map_sub, map_smul, ho, ho]
      simp
    | n + 3 =>
      have h := hpe (mpoly (hermiteRow A B) (n + 2))
      rw [hermite_structure, hrec, ← smul_eq_C_mul, ← smul_eq_C_mul, map_add, map_add, map_add, map_smul, map_smul, map_smul, map_smul,
        ih (n + 1) (by omega)] at h
      simp only [smul_eq_mul, mul_zero] at h
      change L (mpoly (hermiteRow A B) (n + 4)) = 0
      linarith

theorem hermiteCoeffs_ok (A B : ℝ) {order : ℕ} (ho : 1 ≤ order) : hermiteCoeffs A B order = .ok ((List.range order).map (hermiteRow A B)) :=
  if_neg (by omega)

theorem hermite_mass (B : ℝ) (hB : -(1 / 2) < B) : hermiteInt B (fun _ => 1) = Real.Gamma (B + 1 / 2) := by
  have := hermite_moment_even B hB 0
  simp only [mul_zero, pow_zero, Nat.cast_zero, zero_add] at this
  rw [hermiteInt, this]

/-- **C164 (partial).** For every order of one and more the polynomials evaluated from the table are orthogonal for `|x|^(2 B) exp(-x²)` on the line, all with
the square norm of the constant, whatever the first parameter is; the first entry of the second column is the total mass when both parameters are equal.
Missing: one row more than the order, the order zero, and the total mass for different parameters; these fail, see below. -/
theorem c164_hermite_partial (A B : ℝ) (hB : -(1 / 2) < B) (order : ℕ) (ho : 1 ≤ order) :
    ∃ l, hermiteCoeffs A B order = .ok l ∧ l.length = order ∧ (A = B → (rows l 0).2 = hermiteInt B (fun _ => 1)) ∧
      ∀ i j, i < order → j < order → hermiteInt B (fun x => (orthoTables (rows l) order x).poly i * (orthoTables (rows l) order x).poly j) =
        if i = j then hermiteInt B (fun _ => 1) else 0 := by
  refine ⟨_, hermiteCoeffs_ok A B ho, by simp, ?_, ?_⟩
  · rintro rfl
    obtain ⟨m, rfl⟩ : ∃ m, order = m + 1 := ⟨order - 1, by omega⟩
    rw [hermite_mass A hB]
    have : (0.5 : ℝ) = 1 / 2 := by norm_num
    simp [rows, hermiteRow, List.range_succ_eq_map, this]
  · intro i j hi hj
    have h := orthonormal_of_vanish (hermiteRow A B) (fun k hk => by
      obtain ⟨k, rfl⟩ : ∃ m, k = m + 1 := ⟨k - 1, by omega⟩
      rw [hermite_snd]; exact hermiteNh_pos B hB k) _ (hermite_vanish A B hB) i j
    have e1 : weightL _ _ (hermite_integrable B hB) 1 = hermiteInt B (fun _ => 1) := by
      rw [weightL_apply, hermiteInt]; simp
    rw [e1] at h
    rw [← h, weightL_apply, hermiteInt]
    congr 1
    funext x
    rw [(orthoTables_eq _ order x i hi).1, (orthoTables_eq _ order x j hj).1, opoly_rows_of rfl i hi, opoly_rows_of rfl j hj, eval_mul]

/-- The usual Hermite polynomials meet the hypotheses. -/
example : ∃ l, hermiteCoeffs 0 0 5 = .ok l ∧ l.length = 5 := by
  obtain ⟨l, h1, h2, -⟩ := c164_hermite_partial 0 0 (by norm_num) 5 (by norm_num)
  exact ⟨l, h1, h2⟩

/-- **C164, refuted.** The documented number of rows, one more than the order, is never returned; for the order zero, whose polynomial is the constant,
the call fails. -/
theorem c164_rows_violated (A B : ℝ) : (∀ order l, hermiteCoeffs A B order = .ok l → l.length ≠ order + 1) ∧ hermiteCoeffs A B 0 = .error .indexError := by
  refine ⟨fun order l h => ?_, rfl⟩
  rcases Nat.eq_zero_or_pos order with rfl | ho
  · simp [hermiteCoeffs] at h
  · rw [hermiteCoeffs_ok A B ho] at h
    injection h with h
    rw [← h]
    simp

/-- **C164, refuted.** The rows after the first belong to the second parameter, the first row to the other: for the parameters `1/2` and `5/2` the
polynomials are those of a weight of mass two, and the first row says one. -/
theorem c164_mass_violated : ∃ l, hermiteCoeffs (1 / 2) (5 / 2) 4 = .ok l ∧ (rows l 0).2 = 1 ∧ hermiteInt (5 / 2) (fun _ => 1) = 2 := by
  refine ⟨_, hermiteCoeffs_ok _ _ (by norm_num), ?_, ?_⟩
  · have : (1 / 2 : ℝ) + 0.5 = 1 := by norm_num
    simp only [rows, hermiteRow, List.range_succ_eq_map, List.map_cons, List.getD_cons_zero, if_true, this]
    exact Real.Gamma_one
  · rw [hermite_mass _ (by norm_num), show (5 / 2 + 1 / 2 : ℝ) = ((2 : ℕ) : ℝ) + 1 by norm_num, Real.Gamma_nat_eq_factorial]
    norm_num [Nat.factorial]

end EQ.Param
