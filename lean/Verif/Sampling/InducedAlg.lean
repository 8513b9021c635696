import Verif.Sampling.InducedModel
import Verif.Param.SupportLemmas

/-!
# Helper lemmas: the algebra of quadratic modifications
-/

namespace EQ.Sampling
open EQ.Param Polynomial

/-- Squared norms of the monic polynomials. -/
noncomputable def nrm (T : Table) : ℕ → ℝ
  | 0 => 1
  | n + 1 => (T (n + 1)).2 * nrm T n

/-- The Christoffel sums. -/
noncomputable def ksum (T : Table) (x0 : ℝ) : ℕ → ℝ
  | 0 => 1
  | n + 1 => ksum T x0 n + monicVal T x0 (n + 1) ^ 2 / nrm T (n + 1)

/-- `γ_n`. -/
noncomputable def gam (T : Table) (x0 : ℝ) (n : ℕ) : ℝ :=
  monicVal T x0 (n + 1) * monicVal T x0 n / (nrm T n * ksum T x0 n)

/-- `δ_n`. -/
noncomputable def del (T : Table) (x0 : ℝ) (n : ℕ) : ℝ := monicVal T x0 (n + 1) ^ 2 / (nrm T n * ksum T x0 n)

/-- The modified table, all rows. -/
noncomputable def modTable (T : Table) (x0 : ℝ) : Table := fun i =>
  ((T (i + 1)).1 + (quadTemp T x0 (i + 1) - quadTemp T x0 i), (T (i + 1)).2 * quadCorrect T x0 i)

section
variable (T : Table) (x0 : ℝ) (hT : ∀ k, 1 ≤ k → 0 < (T k).2)
include hT

theorem nrm_pos : ∀ n, 0 < nrm T n
  | 0 => one_pos
  | n + 1 => mul_pos (hT _ (by omega)) (nrm_pos n)

theorem ksum_pos : ∀ n, 0 < ksum T x0 n
  | 0 => one_pos
  | n + 1 => add_pos_of_pos_of_nonneg (ksum_pos n) (div_nonneg (sq_nonneg _) (nrm_pos T hT _).le)

theorem chris_eq (h0 : (T 0).2 = 1) : ∀ n,
    christoffel T x0 (n + 1) * (√(nrm T (n + 1)) * √(ksum T x0 n)) = monicVal T x0 (n + 1) := by
  intro n
  induction n using Nat.strong_induction_on with
  | _ n ih =>
    have hs : ∀ k, 0 < √(nrm T k) := fun k => Real.sqrt_pos.2 (nrm_pos T hT k)
    have hk : ∀ k, 0 < √(ksum T x0 k) := fun k => Real.sqrt_pos.2 (ksum_pos T x0 hT k)
    have hb : ∀ k, 1 ≤ k → 0 < √(T k).2 := fun k h => Real.sqrt_pos.2 (hT k h)
    have hn1 : ∀ k, √(nrm T (k + 1)) = √(T (k + 1)).2 * √(nrm T k) := fun k =>
      Real.sqrt_mul (hT _ (by omega)).le _
    have hn0 : √(nrm T 0) = 1 := by simp [nrm]
    have hk0 : √(ksum T x0 0) = 1 := by simp [ksum]
    -- √(1 + C²) = √K_{n+1} / √K_n
    have hroot : ∀ k, christoffel T x0 (k + 1) * (√(nrm T (k + 1)) * √(ksum T x0 k)) = monicVal T x0 (k + 1) →
        √(1.0 + christoffel T x0 (k + 1) ^ 2) * √(ksum T x0 k) = √(ksum T x0 (k + 1)) := by
      intro k h
      rw [← Real.sqrt_mul (by norm_num; positivity)]
      congr 1
      have e1 := Real.sq_sqrt (nrm_pos T hT (k + 1)).le
      have e2 := Real.sq_sqrt (ksum_pos T x0 hT k).le
      have h3 := (nrm_pos T hT (k + 1)).ne'
      rw [ksum, ← h, mul_pow, mul_pow, e1, e2]
      field_simp
      norm_num
      ring
    match n with
    | 0 =>
      rw [hn1, hn0, hk0]
      have := hb 1 le_rfl
      simp only [christoffel, monicVal]
      norm_num
      field_simp
    | 1 =>
      have i0 := ih 0 (by omega)
      have r0 := hroot 0 i0
      have e : christoffel T x0 2 = 1.0 / √(1.0 + christoffel T x0 1 ^ 2) *
          ((x0 - (T 1).1) * christoffel T x0 1 - √(T 1).2) / (1.0 * √(T 2).2) := rfl
      have hc : √(1.0 + christoffel T x0 1 ^ 2) = √(ksum T x0 1) := by rw [← r0, hk0, mul_one]
      rw [hk0, mul_one] at i0
      have m1 : monicVal T x0 2 = (x0 - (T 1).1) * monicVal T x0 1 - (T 1).2 * monicVal T x0 0 := rfl
      have h1 := hb 1 le_rfl
      have h2 := hb 2 (by omega)
      have h3 := hk 1
      have s1 := Real.mul_self_sqrt (hT 1 le_rfl).le
      simp only [zero_add] at i0
      rw [m1, ← i0, e, hc, hn1 1, hn1 0, hn0]
      simp only [monicVal]
      norm_num
      field_simp
      nlinarith [s1]
    | n + 2 =>
      have i1 := ih (n + 1) (by omega)
      have i0 := ih n (by omega)
      have r1 := hroot _ i1
      have r0 := hroot _ i0
      have e : christoffel T x0 (n + 3) = 1.0 / √(1.0 + christoffel T x0 (n + 2) ^ 2) *
          ((x0 - (T (n + 2)).1) * christoffel T x0 (n + 2) -
            √(T (n + 2)).2 * christoffel T x0 (n + 1) / √(1.0 + christoffel T x0 (n + 1) ^ 2)) / √(T (n + 3)).2 := by
        conv_lhs => rw [christoffel]
      have m1 : monicVal T x0 (n + 3) =
          (x0 - (T (n + 2)).1) * monicVal T x0 (n + 2) - (T (n + 2)).2 * monicVal T x0 (n + 1) := rfl
      have q1 : 0 < √(1.0 + christoffel T x0 (n + 2) ^ 2) := Real.sqrt_pos.2 (by norm_num; positivity)
      have q0 : 0 < √(1.0 + christoffel T x0 (n + 1) ^ 2) := Real.sqrt_pos.2 (by norm_num; positivity)
      have h2 := hb (n + 2) (by omega)
      have h3 := hb (n + 3) (by omega)
      have s1 := Real.sq_sqrt (hT (n + 2) (by omega)).le
      simp only [show n + 1 + 1 = n + 2 from rfl, show n + 2 + 1 = n + 3 from rfl] at *
      rw [m1, ← i1, ← i0, e, ← r1, ← r0, hn1 (n + 2), hn1 (n + 1)]
      generalize √(1.0 + christoffel T x0 (n + 2) ^ 2) = R1 at *
      generalize √(1.0 + christoffel T x0 (n + 1) ^ 2) = R0 at *
      generalize √(T (n + 3)).2 = B3 at *
      generalize christoffel T x0 (n + 2) = C2 at *
      generalize christoffel T x0 (n + 1) = C1 at *
      generalize √(T (n + 2)).2 = B2 at *
      rw [← s1]
      norm_num
      field_simp

theorem chris_sq (h0 : (T 0).2 = 1) (n : ℕ) : 1 + christoffel T x0 (n + 1) ^ 2 = ksum T x0 (n + 1) / ksum T x0 n := by
  have e1 := Real.sq_sqrt (nrm_pos T hT (n + 1)).le
  have e2 := Real.sq_sqrt (ksum_pos T x0 hT n).le
  have h3 := (nrm_pos T hT (n + 1)).ne'
  have h4 := (ksum_pos T x0 hT n).ne'
  rw [ksum, ← chris_eq T x0 hT h0 n, mul_pow, mul_pow, e1, e2]
  field_simp

theorem quadTemp_eq (h0 : (T 0).2 = 1) (n : ℕ) : quadTemp T x0 n = gam T x0 n := by
  have hn1 : ∀ k, √(nrm T (k + 1)) = √(T (k + 1)).2 * √(nrm T k) := fun k =>
    Real.sqrt_mul (hT _ (by omega)).le _
  unfold gam
  cases n with
  | zero =>
    have h := chris_eq T x0 hT h0 0
    simp only [quadTemp, if_true]
    have : monicVal T x0 0 = 1 := rfl
    rw [← h, this, hn1]
    simp [nrm, ksum]
    ring
  | succ n =>
    rw [← chris_eq T x0 hT h0 (n + 1), ← chris_eq T x0 hT h0 n, hn1 (n + 1)]
    rw [quadTemp, if_neg (by omega)]
    have hq : √(1.0 + christoffel T x0 (n + 1) ^ 2) = √(ksum T x0 (n + 1)) / √(ksum T x0 n) := by
      rw [← Real.sqrt_div (ksum_pos T x0 hT (n + 1)).le, ← chris_sq T x0 hT h0 n]
      norm_num
    rw [hq]
    have a1 := Real.mul_self_sqrt (nrm_pos T hT (n + 1)).le
    have a2 := Real.mul_self_sqrt (ksum_pos T x0 hT (n + 1)).le
    have b1 := Real.sqrt_pos.2 (nrm_pos T hT (n + 1))
    have b2 := Real.sqrt_pos.2 (ksum_pos T x0 hT (n + 1))
    have b3 := Real.sqrt_pos.2 (ksum_pos T x0 hT n)
    rw [← a1]
    conv_rhs => rw [← a2]
    norm_num
    generalize √(nrm T (n + 1)) = N1 at *
    generalize √(ksum T x0 (n + 1)) = K1 at *
    generalize √(ksum T x0 n) = K0 at *
    field_simp

theorem quadCorrect_zero (h0 : (T 0).2 = 1) : quadCorrect T x0 0 = ksum T x0 1 := by
  have h := chris_sq T x0 hT h0 0
  simp only [quadCorrect, if_true]
  have : christoffel T x0 0 = 1 := by simp [christoffel, h0]; norm_num
  rw [this]
  have k0 : ksum T x0 0 = 1 := rfl
  rw [k0] at h
  norm_num at h ⊢
  exact h

theorem quadCorrect_succ (h0 : (T 0).2 = 1) (n : ℕ) :
    quadCorrect T x0 (n + 1) = ksum T x0 (n + 2) * ksum T x0 n / ksum T x0 (n + 1) ^ 2 := by
  rw [quadCorrect, if_neg (by omega), chris_sq T x0 hT h0 (n + 1), chris_sq T x0 hT h0 n]
  have h1 := (ksum_pos T x0 hT n).ne'
  have h2 := (ksum_pos T x0 hT (n + 1)).ne'
  norm_num
  field_simp

/-- One step of the recurrence in terms of numbers only. -/
theorem gam_step (n : ℕ) :
    (x0 + gam T x0 (n + 2)) * (T (n + 2)).1 + del T x0 (n + 2) =
      ((T (n + 2)).1 + (gam T x0 (n + 2) - gam T x0 (n + 1))) * (x0 + gam T x0 (n + 1)) +
        (T (n + 2)).2 * (ksum T x0 (n + 2) * ksum T x0 n / ksum T x0 (n + 1) ^ 2) * (del T x0 n / (T (n + 1)).2) ∧
    -(T (n + 2)).2 = del T x0 (n + 1) -
        (T (n + 2)).2 * (ksum T x0 (n + 2) * ksum T x0 n / ksum T x0 (n + 1) ^ 2) * (1 + del T x0 n / (T (n + 1)).2) ∧
    (T (n + 2)).2 * (x0 + gam T x0 (n + 2)) =
      -(del T x0 (n + 1)) * ((T (n + 2)).1 + (gam T x0 (n + 2) - gam T x0 (n + 1))) +
        (T (n + 2)).2 * (ksum T x0 (n + 2) * ksum T x0 n / ksum T x0 (n + 1) ^ 2) *
          (x0 + gam T x0 n + del T x0 n * (T (n + 1)).1 / (T (n + 1)).2) := by
  have b1 := hT (n + 1) (by omega)
  have b2 := hT (n + 2) (by omega)
  have hh := nrm_pos T hT n
  have k0 := ksum_pos T x0 hT n
  have k1 := ksum_pos T x0 hT (n + 1)
  have k2 := ksum_pos T x0 hT (n + 2)
  have m3 : monicVal T x0 (n + 3) = (x0 - (T (n + 2)).1) * monicVal T x0 (n + 2) - (T (n + 2)).2 * monicVal T x0 (n + 1) := rfl
  have m2 : monicVal T x0 (n + 2) = (x0 - (T (n + 1)).1) * monicVal T x0 (n + 1) - (T (n + 1)).2 * monicVal T x0 n := rfl
  have e1 : ksum T x0 (n + 1) = ksum T x0 n + monicVal T x0 (n + 1) ^ 2 / ((T (n + 1)).2 * nrm T n) := rfl
  have e2 : ksum T x0 (n + 2) = ksum T x0 (n + 1) + monicVal T x0 (n + 2) ^ 2 / ((T (n + 2)).2 * ((T (n + 1)).2 * nrm T n)) := rfl
  have n1 : nrm T (n + 1) = (T (n + 1)).2 * nrm T n := rfl
  have n2 : nrm T (n + 2) = (T (n + 2)).2 * ((T (n + 1)).2 * nrm T n) := rfl
  simp only [gam, del, show n + 1 + 1 = n + 2 from rfl, show n + 2 + 1 = n + 3 from rfl]
  rw [m3, n1, n2]
  -- eliminate the Christoffel sums in favour of numerators
  have f1 : monicVal T x0 (n + 1) ^ 2 = (ksum T x0 (n + 1) - ksum T x0 n) * ((T (n + 1)).2 * nrm T n) := by
    rw [e1]; field_simp; ring
  have f2 : monicVal T x0 (n + 2) ^ 2 = (ksum T x0 (n + 2) - ksum T x0 (n + 1)) * ((T (n + 2)).2 * ((T (n + 1)).2 * nrm T n)) := by
    rw [e2]; field_simp; ring
  clear e1 e2 n1 n2 m3
  generalize ksum T x0 n = K0 at *
  generalize ksum T x0 (n + 1) = K1 at *
  generalize ksum T x0 (n + 2) = K2 at *
  generalize nrm T n = h at *
  generalize hu0 : monicVal T x0 n = u0 at *
  generalize hu1 : monicVal T x0 (n + 1) = u1 at *
  generalize hu2 : monicVal T x0 (n + 2) = u2 at *
  generalize (T (n + 1)).1 = a1 at *
  generalize (T (n + 1)).2 = β1 at *
  generalize (T (n + 2)).1 = a2 at *
  generalize (T (n + 2)).2 = β2 at *
  obtain ⟨g, hg⟩ : ∃ g, g = u1 * u2 / (β1 * h) := ⟨_, rfl⟩
  have hu0' : u0 = ((x0 - a1) * u1 - u2) / β1 := by rw [m2]; field_simp; ring
  have g1 : u1 * u2 = g * (β1 * h) := by rw [hg]; field_simp
  have gg : g ^ 2 = (K1 - K0) * (K2 - K1) * β2 := by
    have : g ^ 2 * (β1 * h) ^ 2 = u1 ^ 2 * u2 ^ 2 := by rw [← mul_pow, ← g1]; ring
    rw [f1, f2] at this
    have h2 : (β1 * h) ^ 2 ≠ 0 := by positivity
    apply mul_right_cancel₀ h2
    linear_combination this
  have d0 : u1 ^ 2 / (h * K0) = β1 * (K1 - K0) / K0 := by rw [f1]; field_simp
  have d1 : u2 ^ 2 / (β1 * h * K1) = β2 * (K2 - K1) / K1 := by rw [f2]; field_simp
  have d2 : ((x0 - a2) * u2 - β2 * u1) ^ 2 / (β2 * (β1 * h) * K2) =
      ((x0 - a2) ^ 2 * (K2 - K1) - 2 * (x0 - a2) * g + β2 * (K1 - K0)) / K2 := by
    have : ((x0 - a2) * u2 - β2 * u1) ^ 2 = (x0 - a2) ^ 2 * u2 ^ 2 - 2 * (x0 - a2) * β2 * (u1 * u2) + β2 ^ 2 * u1 ^ 2 := by ring
    rw [this, f1, f2, g1]
    field_simp
  have c0 : u1 * u0 / (h * K0) = ((x0 - a1) * (K1 - K0) - g) / K0 := by
    have : u1 * u0 = ((x0 - a1) * u1 ^ 2 - u1 * u2) / β1 := by rw [hu0']; ring
    rw [this, f1, g1]
    field_simp
  have c1 : u2 * u1 / (β1 * h * K1) = g / K1 := by rw [mul_comm u2, g1]; field_simp
  have c2 : ((x0 - a2) * u2 - β2 * u1) * u2 / (β2 * (β1 * h) * K2) = ((x0 - a2) * (K2 - K1) - g) / K2 := by
    have : ((x0 - a2) * u2 - β2 * u1) * u2 = (x0 - a2) * u2 ^ 2 - β2 * (u1 * u2) := by ring
    rw [this, f2, g1]
    field_simp
  rw [d0, d1, d2, c0, c1, c2]
  clear d0 d1 d2 c0 c1 c2 hg hu0' g1 f1 f2 m2 hu0 hu1 hu2
  refine ⟨?_, ?_, ?_⟩
  · field_simp
    linear_combination (K1 + K2) * gg
  · field_simp
    ring
  · field_simp
    ring

/-- The modified monic polynomials times `(x - x0)²`. -/
theorem modTable_mpoly (h0 : (T 0).2 = 1) : ∀ n,
    (X - C x0) ^ 2 * mpoly (modTable T x0) n =
      (X - C (x0 + gam T x0 n)) * mpoly T (n + 1) + C (del T x0 n) * mpoly T n := by
  have hA : ∀ i, (modTable T x0 i).1 = (T (i + 1)).1 + (gam T x0 (i + 1) - gam T x0 i) := by
    intro i; simp only [modTable]; rw [quadTemp_eq T x0 hT h0, quadTemp_eq T x0 hT h0]
  intro n
  induction n using Nat.strong_induction_on with
  | _ n ih =>
    match n with
    | 0 =>
      have g0 : gam T x0 0 = x0 - (T 0).1 := by simp [gam, monicVal, nrm, ksum]
      have d0 : del T x0 0 = (x0 - (T 0).1) ^ 2 := by simp [del, monicVal, nrm, ksum]
      rw [g0, d0]
      simp only [mpoly, zero_add, C_add, C_sub, C_pow]
      ring
    | 1 =>
      have b1 := hT 1 le_rfl
      have g0 : gam T x0 0 = x0 - (T 0).1 := by simp [gam, monicVal, nrm, ksum]
      have k1 := ksum_pos T x0 hT 1
      have ek : ksum T x0 1 = 1 + (x0 - (T 0).1) ^ 2 / (T 1).2 := by simp [monicVal, nrm, ksum]
      have em : monicVal T x0 2 = (x0 - (T 1).1) * (x0 - (T 0).1) - (T 1).2 := by simp [monicVal]
      have g1 : gam T x0 1 * ((T 1).2 * ksum T x0 1) = ((x0 - (T 1).1) * (x0 - (T 0).1) - (T 1).2) * (x0 - (T 0).1) := by
        have : gam T x0 1 = monicVal T x0 2 * (x0 - (T 0).1) / ((T 1).2 * ksum T x0 1) := by simp [gam, monicVal, nrm]
        rw [this, em]; field_simp
      have d1 : del T x0 1 * ((T 1).2 * ksum T x0 1) = ((x0 - (T 1).1) * (x0 - (T 0).1) - (T 1).2) ^ 2 := by
        have : del T x0 1 = monicVal T x0 2 ^ 2 / ((T 1).2 * ksum T x0 1) := by simp [del, nrm]
        rw [this, em]; field_simp
      have hm : (T 1).2 * ksum T x0 1 = (T 1).2 + (x0 - (T 0).1) ^ 2 := by rw [ek]; field_simp
      have hp : (T 1).2 * ksum T x0 1 ≠ 0 := by positivity
      rw [hm] at g1 d1 hp
      apply Polynomial.funext
      intro x
      simp only [mpoly, hA, zero_add, g0, eval_add, eval_sub, eval_mul, eval_X, eval_C, eval_one, eval_pow]
      apply mul_right_cancel₀ hp
      generalize gam T x0 1 = γ at *
      generalize del T x0 1 = δ at *
      generalize (T 0).1 = a0 at *
      generalize (T 1).1 = a1 at *
      generalize (T 1).2 = β at *
      linear_combination (-(x - x0) ^ 2 + (x - a1) * (x - a0) - β) * g1 - (x - a0) * d1
    | n + 2 =>
      have hB : (modTable T x0 (n + 1)).2 =
          (T (n + 2)).2 * (ksum T x0 (n + 2) * ksum T x0 n / ksum T x0 (n + 1) ^ 2) := by
        simp only [modTable]; rw [quadCorrect_succ T x0 hT h0]
      obtain ⟨I1, I2, I3⟩ := gam_step T x0 hT n
      have b1 := hT (n + 1) (by omega)
      apply Polynomial.funext
      intro x
      have j1 := congrArg (eval x) (ih (n + 1) (by omega))
      have j0 := congrArg (eval x) (ih n (by omega))
      have p3 : mpoly T (n + 3) = (X - C (T (n + 2)).1) * mpoly T (n + 2) - C (T (n + 2)).2 * mpoly T (n + 1) := rfl
      have p2 : mpoly T (n + 2) = (X - C (T (n + 1)).1) * mpoly T (n + 1) - C (T (n + 1)).2 * mpoly T n := rfl
      have q2 : mpoly (modTable T x0) (n + 2) = (X - C (modTable T x0 (n + 1)).1) * mpoly (modTable T x0) (n + 1) -
        C (modTable T x0 (n + 1)).2 * mpoly (modTable T x0) n := rfl
      have p2' := congrArg (eval x) p2
      simp only [show n + 2 + 1 = n + 3 from rfl, show n + 1 + 1 = n + 2 from rfl] at j1 j0 ⊢
      rw [p3, q2, hA, hB]
      simp only [eval_add, eval_sub, eval_mul, eval_X, eval_C, eval_pow, show n + 1 + 1 = n + 2 from rfl] at j1 j0 p2' ⊢
      generalize (T (n + 2)).2 * (ksum T x0 (n + 2) * ksum T x0 n / ksum T x0 (n + 1) ^ 2) = b' at *
      generalize gam T x0 n = γ0 at *
      generalize gam T x0 (n + 1) = γ1 at *
      generalize gam T x0 (n + 2) = γ2 at *
      generalize del T x0 n = δ0 at *
      generalize del T x0 (n + 1) = δ1 at *
      generalize del T x0 (n + 2) = δ2 at *
      generalize eval x (mpoly T n) = P0 at *
      generalize eval x (mpoly T (n + 1)) = P1 at *
      generalize eval x (mpoly T (n + 2)) = P2 at *
      generalize eval x (mpoly (modTable T x0) (n + 1)) = Q1 at *
      generalize eval x (mpoly (modTable T x0) n) = Q0 at *
      have hP0 : P0 = ((x - (T (n + 1)).1) * P1 - P2) / (T (n + 1)).2 := by rw [p2']; field_simp; ring
      linear_combination (x - ((T (n + 2)).1 + (γ2 - γ1))) * j1 - b' * j0 - P2 * I1 - x * P1 * I2 - P1 * I3 - b' * δ0 * hP0

end
end EQ.Sampling
