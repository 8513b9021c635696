import Verif.Basis.Lemmas
import Mathlib.Analysis.MeanInequalitiesPow

namespace EQ.Basis
open Spec

/-- The `q`-quasi-norm the code compares with `max(orders)`. -/
noncomputable def qnorm (q : ℝ) (row : List ℕ) : ℝ :=
  ((row.map (powq q)).sum) ^ (1.0 / (1.0 * q))

theorem exponent_eq (q : ℝ) : (1.0 / (1.0 * q) : ℝ) = 1 / q := by norm_num

theorem powq_nonneg (q : ℝ) (n : ℕ) : 0 ≤ powq q n := Real.rpow_nonneg (Nat.cast_nonneg n) q

theorem sum_powq_nonneg (q : ℝ) (row : List ℕ) : 0 ≤ (row.map (powq q)).sum :=
  List.sum_nonneg (by
    intro x hx
    obtain ⟨n, _, rfl⟩ := List.mem_map.1 hx
    exact powq_nonneg q n)

theorem qnorm_nonneg (q : ℝ) (row : List ℕ) : 0 ≤ qnorm q row :=
  Real.rpow_nonneg (sum_powq_nonneg q row) _

theorem qnorm_rpow {q : ℝ} (hq : 0 < q) (row : List ℕ) :
    qnorm q row ^ q = (row.map (powq q)).sum := by
  rw [qnorm, exponent_eq, ← Real.rpow_mul (sum_powq_nonneg q row), one_div,
    inv_mul_cancel₀ hq.ne', Real.rpow_one]

theorem qnorm_cons {q : ℝ} (hq : 0 < q) (a : ℕ) (row : List ℕ) :
    qnorm q (a :: row) = ((a : ℝ) ^ q + qnorm q row ^ q) ^ (1 / q) := by
  rw [qnorm_rpow hq, qnorm, exponent_eq]
  simp [powq]

theorem qnorm_nil {q : ℝ} (hq : 0 < q) : qnorm q [] = 0 := by
  rw [qnorm, exponent_eq]
  simp only [List.map_nil, List.sum_nil]
  exact Real.zero_rpow (one_div_pos.2 hq).ne'

theorem qnorm_antitone {p q : ℝ} (hp : 0 < p) (hpq : p ≤ q) (row : List ℕ) :
    qnorm q row ≤ qnorm p row := by
  have hq : 0 < q := lt_of_lt_of_le hp hpq
  induction row with
  | nil => rw [qnorm_nil hp, qnorm_nil hq]
  | cons a row ih =>
    rw [qnorm_cons hp, qnorm_cons hq]
    calc ((a : ℝ) ^ q + qnorm q row ^ q) ^ (1 / q)
        ≤ ((a : ℝ) ^ q + qnorm p row ^ q) ^ (1 / q) := by
          apply Real.rpow_le_rpow
          · exact add_nonneg (powq_nonneg q a) (Real.rpow_nonneg (qnorm_nonneg q row) q)
          · have := Real.rpow_le_rpow (qnorm_nonneg q row) ih hq.le
            linarith
          · exact (one_div_pos.2 hq).le
      _ ≤ _ := Real.rpow_add_rpow_le (Nat.cast_nonneg a) (qnorm_nonneg p row) hp hpq

theorem qnorm_one (row : List ℕ) : qnorm 1 row = row.sum := by
  induction row with
  | nil => rw [qnorm_nil one_pos]; simp
  | cons a row ih => rw [qnorm_cons one_pos, ih]; simp

theorem qnorm_mono {q : ℝ} (hq : 0 < q) {a b : List ℕ} (h : Below a b) :
    qnorm q a ≤ qnorm q b := by
  induction h with
  | nil => rfl
  | @cons x y l₁ l₂ hab _ ih =>
    rw [qnorm_cons hq, qnorm_cons hq]
    have h1 : (x : ℝ) ^ q ≤ (y : ℝ) ^ q :=
      Real.rpow_le_rpow (Nat.cast_nonneg x) (by exact_mod_cast hab) hq.le
    have h2 := Real.rpow_le_rpow (qnorm_nonneg q l₁) ih hq.le
    apply Real.rpow_le_rpow
    · exact add_nonneg (powq_nonneg q x) (Real.rpow_nonneg (qnorm_nonneg q l₁) q)
    · linarith
    · exact (one_div_pos.2 hq).le

theorem qnorm_zero {q : ℝ} (hq : 0 < q) (d : ℕ) : qnorm q (List.replicate d 0) = 0 := by
  induction d with
  | zero => simpa using qnorm_nil hq
  | succ d ih =>
    rw [List.replicate_succ, qnorm_cons hq, ih]
    simp [Real.zero_rpow hq.ne', hq.ne']

theorem qnorm_purePower {q : ℝ} (hq : 0 < q) (d i n : ℕ) (hi : i < d) :
    qnorm q (purePower d i n) = n := by
  have key : ∀ (x : ℝ), 0 ≤ x → (x ^ q) ^ (1 / q) = x := by
    intro x hx
    rw [← Real.rpow_mul hx, mul_one_div_cancel hq.ne', Real.rpow_one]
  unfold purePower
  induction d generalizing i with
  | zero => omega
  | succ d ih =>
    cases i with
    | zero =>
      rw [List.replicate_succ, List.set_cons_zero, qnorm_cons hq, qnorm_zero hq,
        Real.zero_rpow hq.ne', add_zero]
      exact key _ (Nat.cast_nonneg n)
    | succ i =>
      rw [List.replicate_succ, List.set_cons_succ, qnorm_cons hq, ih i (by omega)]
      simp only [Nat.cast_zero, Real.zero_rpow hq.ne', zero_add]
      exact key _ (Nat.cast_nonneg n)

theorem hyperbolicBasis_eq {orders : List ℕ} {q : ℝ} {m : ℕ} (h : npMax orders = .ok m) :
    hyperbolicBasis orders q = .ok
      ((List.replicate orders.length 0 ::
        (List.range' 1 m).flatMap (totalOrderRec orders.length)).filter
          fun row => @decide (qnorm q row ≤ (m : ℝ)) (Classical.dec _)) := by
  simp only [hyperbolicBasis, totalOrderBasis_eq h, h, qnorm]
  rfl

end EQ.Basis
