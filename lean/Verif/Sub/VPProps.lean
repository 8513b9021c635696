import Verif.Sub.Model
import Mathlib.Tactic.FinCases

/-!
# C99: variable projection
-/

namespace EQ.Sub
open EQ.Basis Matrix

variable {m n r : ℕ}

/-- What `orth` promises for a matrix of full column rank: orthonormal columns. -/
def OrthOK (v : VP m n) : Prop := ∀ A, (v.orth A)ᵀ * v.orth A = 1

/-- What `null_space` promises: orthonormal columns, orthogonal to the given ones. -/
def NullOK (ns : Matrix (Fin m) (Fin n) ℝ → Matrix (Fin m) (Fin r) ℝ) : Prop :=
  ∀ U, Uᵀ * U = 1 → (ns U)ᵀ * ns U = 1 ∧ Uᵀ * ns U = 0

lemma lineSearch_orth (v : VP m n) (hO : OrthOK v) (U delta : Matrix (Fin m) (Fin n) ℝ) (alpha : ℝ) (left : ℕ) :
    ∀ t, (v.lineSearch U delta alpha left t)ᵀ * v.lineSearch U delta alpha left t = 1 := by
  induction left with
  | zero => intro t; exact hO _
  | succ l ih =>
    intro t
    unfold VP.lineSearch
    simp only
    split
    · exact hO _
    · exact ih _

lemma iterate_orth (v : VP m n) (hO : OrthOK v) (tol : ℝ) (left : ℕ) :
    ∀ U : Matrix (Fin m) (Fin n) ℝ, Uᵀ * U = 1 → (v.iterate tol left U)ᵀ * v.iterate tol left U = 1 := by
  induction left with
  | zero => intro U h; exact h
  | succ l ih =>
    intro U h
    unfold VP.iterate
    simp only
    split
    · exact lineSearch_orth v hO _ _ _ _ _
    · exact ih _ (lineSearch_orth v hO _ _ _ _ _)

/-- **C99 (partial).** For every problem, initial subspace, tolerance and positive number of iterations the routine returns a
matrix with orthonormal columns whose first block is the last iterate. -/
theorem c99_orthogonal_partial (v : VP m n) (hO : OrthOK v) (ns : Matrix (Fin m) (Fin n) ℝ → Matrix (Fin m) (Fin r) ℝ)
    (hN : NullOK ns) (tol : ℝ) (maxiter : ℕ) (hmax : 0 < maxiter) (init : Matrix (Fin m) (Fin n) ℝ) (hi : initᵀ * init = 1) :
    ∃ S, v.run ns tol maxiter init = .ok S ∧ Sᵀ * S = 1 ∧ ∀ i k, S i (Sum.inl k) = v.iterate tol maxiter init i k := by
  have hU := iterate_orth v hO tol maxiter init hi
  set U := v.iterate tol maxiter init with hUdef
  obtain ⟨h1, h2⟩ := hN U hU
  refine ⟨Matrix.fromCols U (ns U), by unfold VP.run; rw [if_neg hmax.ne'], ?_, fun i k => rfl⟩
  have h3 : (ns U)ᵀ * U = 0 := by
    have := congrArg Matrix.transpose h2
    rw [Matrix.transpose_mul, Matrix.transpose_transpose, Matrix.transpose_zero] at this
    exact this
  rw [Matrix.transpose_fromCols, Matrix.fromRows_mul_fromCols, hU, h1, h2, h3, Matrix.fromBlocks_one]

/-- The slope is never positive. -/
lemma direction_slope (v : VP m n) (U : Matrix (Fin m) (Fin n) ℝ) : (v.direction U).2 ≤ 0 := by
  unfold VP.direction
  simp only
  split
  · rw [neg_nonpos]
    exact Finset.sum_nonneg fun i _ => Finset.sum_nonneg fun k _ => mul_self_nonneg _
  · rename_i h
    exact (not_le.1 h).le

/-- The line search succeeds from `U`: one of the steps `1, 1/10, …, 10⁻¹⁰` meets the decrease condition. -/
def Succeeds (v : VP m n) (U : Matrix (Fin m) (Fin n) ℝ) : Prop :=
  ∃ k : ℕ, k ≤ 10 ∧ v.resid (v.orth (v.curve U (v.direction U).1 ((1/10)^k))) ≤
    v.resid U + (v.direction U).2 * (1/10^4) * (1/10)^k

lemma lineSearch_decrease (v : VP m n) (U delta : Matrix (Fin m) (Fin n) ℝ) (alpha : ℝ) (ha : alpha ≤ 0) (k : ℕ) :
    ∀ (j left : ℕ), k = j + (k - j) → j ≤ k → k ≤ 10 → k - j ≤ left →
      v.resid (v.orth (v.curve U delta ((1/10)^k))) ≤ v.resid U + alpha * (1/10^4) * (1/10)^k →
      v.resid (v.lineSearch U delta alpha left ((1/10)^j)) ≤ v.resid U := by
  have hneg : ∀ j : ℕ, alpha * (1/10^4) * (1/10)^j ≤ 0 := fun j => by
    have : (0 : ℝ) ≤ (1/10^4) * (1/10)^j := by positivity
    rw [mul_assoc]
    exact mul_nonpos_of_nonpos_of_nonneg ha this
  suffices h : ∀ (d j left : ℕ), j + d = k → k ≤ 10 → d ≤ left →
      v.resid (v.orth (v.curve U delta ((1/10)^k))) ≤ v.resid U + alpha * (1/10^4) * (1/10)^k →
      v.resid (v.lineSearch U delta alpha left ((1/10)^j)) ≤ v.resid U by
    intro j left _ hjk h10 hl hdec
    exact h (k - j) j left (by omega) h10 hl hdec
  intro d
  induction d with
  | zero =>
    intro j left hj h10 _ hdec
    rw [Nat.add_zero] at hj
    subst hj
    rcases left with _ | left
    · exact hdec.trans (by linarith [hneg j])
    · unfold VP.lineSearch
      simp only
      rw [if_pos (Or.inl hdec)]
      exact hdec.trans (by linarith [hneg j])
  | succ d ih =>
    intro j left hj h10 hl hdec
    obtain ⟨left, rfl⟩ : ∃ l, left = l + 1 := ⟨left - 1, by omega⟩
    unfold VP.lineSearch
    simp only
    by_cases hc : v.resid (v.orth (v.curve U delta ((1/10)^j))) ≤ v.resid U + alpha * (1/10^4) * (1/10)^j ∨
        ((1/10)^j : ℝ) < 1/10^10
    · rw [if_pos hc]
      rcases hc with hc | hc
      · exact hc.trans (by linarith [hneg j])
      · exfalso
        have : ((1/10)^10 : ℝ) ≤ (1/10)^j := pow_le_pow_of_le_one (by norm_num) (by norm_num) (by omega)
        norm_num at this hc
        linarith
    · rw [if_neg hc, ← pow_succ]
      exact ih (j + 1) left (by omega) h10 (by omega) hdec

/-- **C99 (partial).** The residual of the result is not larger than that of the initial subspace, if every line search of the
run succeeds with a step of at least `10⁻¹⁰`. Missing: a step shorter than `10⁻¹⁰` is accepted without looking at the
residual. -/
theorem c99_residual_partial (v : VP m n) (hO : OrthOK v) (hS : ∀ U : Matrix (Fin m) (Fin n) ℝ, Uᵀ * U = 1 → Succeeds v U) (tol : ℝ)
    (maxiter : ℕ) : ∀ init : Matrix (Fin m) (Fin n) ℝ, initᵀ * init = 1 →
      v.resid (v.iterate tol maxiter init) ≤ v.resid init := by
  have hstep : ∀ U : Matrix (Fin m) (Fin n) ℝ, Uᵀ * U = 1 → v.resid (v.step U) ≤ v.resid U := by
    intro U hU
    obtain ⟨k, hk, hdec⟩ := hS U hU
    have := lineSearch_decrease v U (v.direction U).1 (v.direction U).2 (direction_slope v U) k 0 19 (by omega) (by omega) hk
      (by omega) hdec
    rw [pow_zero] at this
    exact this
  induction maxiter with
  | zero => intro init _; exact le_rfl
  | succ l ih =>
    intro init hi
    unfold VP.iterate
    simp only
    split
    · exact hstep init hi
    · exact (ih _ (lineSearch_orth v hO _ _ _ _ _)).trans (hstep init hi)

/-- **C99, accepted increase**: if none of the steps `1, …, 10⁻¹⁰` meets the condition, the step `10⁻¹¹` is taken whatever its
residual. -/
theorem c99_step_violated (v : VP m n) (U : Matrix (Fin m) (Fin n) ℝ) (hS : ¬ Succeeds v U) :
    v.step U = v.orth (v.curve U (v.direction U).1 ((1/10)^11)) := by
  have key : ∀ (d j left : ℕ), j + d = 11 → d < left →
      v.lineSearch U (v.direction U).1 (v.direction U).2 left ((1/10)^j) = v.orth (v.curve U (v.direction U).1 ((1/10)^11)) := by
    intro d
    induction d with
    | zero =>
      intro j left hj hl
      rw [Nat.add_zero] at hj
      subst hj
      obtain ⟨left, rfl⟩ : ∃ l, left = l + 1 := ⟨left - 1, by omega⟩
      unfold VP.lineSearch
      simp only
      rw [if_pos (Or.inr (by norm_num))]
    | succ d ih =>
      intro j left hj hl
      obtain ⟨left, rfl⟩ : ∃ l, left = l + 1 := ⟨left - 1, by omega⟩
      unfold VP.lineSearch
      simp only
      rw [if_neg, ← pow_succ]
      · exact ih (j + 1) left (by omega) (by omega)
      · rintro (hc | hc)
        · exact hS ⟨j, by omega, hc⟩
        · have : ((1/10)^10 : ℝ) ≤ (1/10)^j := pow_le_pow_of_le_one (by norm_num) (by norm_num) (by omega)
          norm_num at this hc
          linarith
  have := key 11 0 19 (by omega) (by omega)
  rw [pow_zero] at this
  exact this

/-- **C99 is false for `max_iter = 0`**: the call ends in `UnboundLocalError` for every problem. -/
theorem c99_maxiter_violated (v : VP m n) (ns : Matrix (Fin m) (Fin n) ℝ → Matrix (Fin m) (Fin r) ℝ) (tol : ℝ)
    (init : Matrix (Fin m) (Fin n) ℝ) : v.run ns tol 0 init = .error .unboundLocalError := by
  unfold VP.run; rw [if_pos rfl]

/-! ## A problem that meets the hypotheses -/

/-- Two dimensions, one direction: the residual is larger away from the first axis; `orth` returns the first axis. -/
noncomputable def vpDemo : VP 2 1 where
  orth := fun _ => Matrix.of ![![1], ![0]]
  resid := fun U => U 1 0 ^ 2
  G := fun U => Matrix.of ![![0], ![2 * U 1 0]]
  newton := fun _ => 0
  curve := fun U delta t => U + t • delta

lemma vpDemo_orth : OrthOK vpDemo := by
  intro A
  ext i j; fin_cases i; fin_cases j
  simp [vpDemo, Matrix.mul_apply, Fin.sum_univ_two]

example : (∀ U : Matrix (Fin 2) (Fin 1) ℝ, Uᵀ * U = 1 → |U 1 0| ≤ 1) ∧ Succeeds vpDemo (Matrix.of ![![3/5], ![4/5]]) ∧
    (Matrix.of ![![(3/5 : ℝ)], ![4/5]])ᵀ * Matrix.of ![![(3/5 : ℝ)], ![4/5]] = 1 := by
  refine ⟨fun U hU => ?_, ⟨0, by norm_num, ?_⟩, ?_⟩
  · have := congrFun (congrFun hU 0) 0
    rw [Matrix.mul_apply, Fin.sum_univ_two, Matrix.one_apply_eq] at this
    simp only [Matrix.transpose_apply] at this
    rw [abs_le]
    constructor <;> nlinarith [sq_nonneg (U 0 0)]
  · simp [VP.direction, vpDemo, vdot, Fin.sum_univ_two]
    norm_num
  · ext i j; fin_cases i; fin_cases j
    simp [Matrix.mul_apply, Fin.sum_univ_two]; norm_num

/-- All hypotheses of `c99_residual_partial` hold for the demonstration problem. -/
example : ∀ U : Matrix (Fin 2) (Fin 1) ℝ, Uᵀ * U = 1 → Succeeds vpDemo U := by
  intro U hU
  have := congrFun (congrFun hU 0) 0
  rw [Matrix.mul_apply, Fin.sum_univ_two, Matrix.one_apply_eq] at this
  simp only [Matrix.transpose_apply] at this
  refine ⟨0, by norm_num, ?_⟩
  simp [VP.direction, vpDemo, vdot, Fin.sum_univ_two]
  nlinarith [sq_nonneg (U 1 0)]

/-- The second axis is the null space of the first direction. -/
example : NullOK (m := 2) (n := 1) (r := 1) fun U => Matrix.of ![![-U 1 0], ![U 0 0]] := by
  intro U hU
  have := congrFun (congrFun hU 0) 0
  rw [Matrix.mul_apply, Fin.sum_univ_two, Matrix.one_apply_eq] at this
  simp only [Matrix.transpose_apply] at this
  constructor
  · ext i j; fin_cases i; fin_cases j
    simp [Matrix.mul_apply, Fin.sum_univ_two]
    linarith
  · ext i j; fin_cases i; fin_cases j
    simp [Matrix.mul_apply, Fin.sum_univ_two]
    ring

/-- A problem whose line search fails: away from the starting direction the residual is one. -/
noncomputable def vpFail : VP 2 1 where
  orth := fun _ => Matrix.of ![![1], ![0]]
  resid := fun U => U 0 0 ^ 2
  G := fun _ => Matrix.of ![![1], ![0]]
  newton := fun _ => 0
  curve := fun U delta t => U + t • delta

example : ¬ Succeeds vpFail (Matrix.of ![![0], ![1]]) := by
  rintro ⟨k, -, hk⟩
  simp [VP.direction, vpFail, vdot, Fin.sum_univ_two] at hk
  have : (0 : ℝ) < (10 ^ k)⁻¹ := by positivity
  nlinarith

end EQ.Sub
