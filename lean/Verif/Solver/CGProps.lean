import Verif.Solver.Model
import Mathlib.LinearAlgebra.Matrix.PosDef
import Mathlib.LinearAlgebra.Dimension.Finrank
import Mathlib.LinearAlgebra.FiniteDimensional.Lemmas
import Mathlib.LinearAlgebra.Matrix.DotProduct
import Mathlib.Tactic.FieldSimp
import Mathlib.Tactic.Linarith

/-!
# Conjugate gradients (C47)
-/

namespace EQ.Solver
open Matrix EQ.Basis

variable {n : ℕ}

/-- A real matrix is symmetric positive definite. -/
def SPD (A : Mat n n) : Prop := A.IsSymm ∧ ∀ v : Vec n, v ≠ 0 → 0 < v ⬝ᵥ A.mulVec v

theorem dot_self_pos {v : Vec n} (h : v ≠ 0) : 0 < v ⬝ᵥ v := by
  have h0 : 0 ≤ v ⬝ᵥ v := by
    rw [dotProduct]; exact Finset.sum_nonneg fun i _ => mul_self_nonneg _
  rcases h0.lt_or_eq with h1 | h1
  · exact h1
  · exact absurd (dotProduct_self_eq_zero.1 h1.symm) h

theorem dot_self_nonneg (v : Vec n) : 0 ≤ v ⬝ᵥ v := by
  rw [dotProduct]; exact Finset.sum_nonneg fun i _ => mul_self_nonneg _

theorem symm_dot {A : Mat n n} (hA : A.IsSymm) (v w : Vec n) :
    v ⬝ᵥ A.mulVec w = A.mulVec v ⬝ᵥ w := by
  rw [dotProduct_mulVec, ← mulVec_transpose, hA.eq]

/-- The state after `k` passes through the loop body. -/
noncomputable def CG.iter (A : Mat n n) (b : Vec n) : ℕ → CG n
  | 0 => CG.init b
  | k + 1 => (CG.iter A b k).step A (b ⬝ᵥ b)

theorem iter_iterations (A : Mat n n) (b : Vec n) (k : ℕ) : (CG.iter A b k).iterations = k := by
  induction k with
  | zero => rfl
  | succ k ih => show _ + 1 = _; rw [ih]

/-- The loop stops after some number of passes `k ≤ fuel`, because the bound is reached or because
the residual is small; before that the residual was not small. -/
theorem loop_eq (A : Mat n n) (b : Vec n) (tol : ℝ) : ∀ (fuel j : ℕ),
    ∃ k, j ≤ k ∧ k ≤ j + fuel ∧
      CG.loop A (b ⬝ᵥ b) tol fuel (CG.iter A b j) = CG.iter A b k ∧
      (k = j + fuel ∨ (CG.iter A b k).delta ≤ tol ^ 2 * (b ⬝ᵥ b)) ∧
      ∀ i, j ≤ i → i < k → tol ^ 2 * (b ⬝ᵥ b) < (CG.iter A b i).delta := by
  intro fuel
  induction fuel with
  | zero => intro j; exact ⟨j, le_rfl, le_rfl, rfl, .inl rfl, fun i h1 h2 => by omega⟩
  | succ fuel ih =>
    intro j
    unfold CG.loop
    by_cases h : (CG.iter A b j).delta > tol ^ 2 * (b ⬝ᵥ b)
    · rw [if_pos h]
      obtain ⟨k, h1, h2, h3, h4, h5⟩ := ih (j + 1)
      refine ⟨k, by omega, by omega, h3, ?_, ?_⟩
      · rcases h4 with h4 | h4
        · left; omega
        · right; exact h4
      · intro i hi hk
        rcases Nat.eq_or_lt_of_le hi with rfl | hi'
        · exact h
        · exact h5 i hi' hk
    · rw [if_neg h]
      exact ⟨j, le_rfl, by omega, rfl, .inr (not_lt.1 h), fun i h1 h2 => by omega⟩

/-- The residual vector carried along is the residual of the iterate. -/
theorem iter_residual (A : Mat n n) (b : Vec n) (k : ℕ) :
    (CG.iter A b k).r = b - A.mulVec (CG.iter A b k).x := by
  induction k with
  | zero => simp [CG.iter, CG.init]
  | succ k ih =>
    show (CG.iter A b k).r - _ • _ = b - A.mulVec ((CG.iter A b k).x + _ • _)
    rw [mulVec_add, mulVec_smul, ih]
    abel

section conj
variable (A : Mat n n) (hA : SPD A) (b : Vec n)

theorem r_succ (k : ℕ) : (CG.iter A b (k+1)).r = (CG.iter A b k).r -
    (((CG.iter A b k).r ⬝ᵥ (CG.iter A b k).r) /
      ((CG.iter A b k).d ⬝ᵥ A.mulVec (CG.iter A b k).d)) • A.mulVec (CG.iter A b k).d := rfl

theorem d_succ (k : ℕ) : (CG.iter A b (k+1)).d = (CG.iter A b (k+1)).r +
    (((CG.iter A b (k+1)).r ⬝ᵥ (CG.iter A b (k+1)).r) /
      ((CG.iter A b k).r ⬝ᵥ (CG.iter A b k).r)) • (CG.iter A b k).d := rfl

include hA in
/-- The classical orthogonality relations, as long as no residual before the last is zero. -/
theorem conj (k : ℕ) (hr : ∀ i < k, (CG.iter A b i).r ≠ 0) :
    (∀ j ≤ k, (CG.iter A b j).r ⬝ᵥ (CG.iter A b j).d = (CG.iter A b j).r ⬝ᵥ (CG.iter A b j).r) ∧
    (∀ j ≤ k, ∀ i < j, (CG.iter A b i).d ⬝ᵥ (CG.iter A b j).r = 0) ∧
    (∀ j ≤ k, ∀ i < j, (CG.iter A b i).r ⬝ᵥ (CG.iter A b j).r = 0) ∧
    (∀ j ≤ k, ∀ i < j, (CG.iter A b i).d ⬝ᵥ A.mulVec (CG.iter A b j).d = 0) := by
  induction k with
  | zero =>
    refine ⟨fun j hj => ?_, ?_, ?_, ?_⟩
    · obtain rfl : j = 0 := by omega
      rfl
    all_goals intro j hj i hi; omega
  | succ k ih =>
    obtain ⟨h1, h2, h3, h4⟩ := ih fun i hi => hr i (by omega)
    have hpos : ∀ i ≤ k, 0 < (CG.iter A b i).r ⬝ᵥ (CG.iter A b i).r :=
      fun i hi => dot_self_pos (hr i (by omega))
    have hd : ∀ i ≤ k, 0 < (CG.iter A b i).d ⬝ᵥ A.mulVec (CG.iter A b i).d := by
      intro i hi
      apply hA.2
      intro h0
      have := h1 i hi
      rw [h0, dotProduct_zero] at this
      exact absurd this (hpos i hi).ne
    -- directions are orthogonal to the new residual
    have n2 : ∀ i < k + 1, (CG.iter A b i).d ⬝ᵥ (CG.iter A b (k+1)).r = 0 := by
      intro i hi
      rw [r_succ, dotProduct_sub, dotProduct_smul, smul_eq_mul]
      rcases Nat.lt_succ_iff_lt_or_eq.1 hi with h | rfl
      · rw [h2 k le_rfl i h, h4 k le_rfl i h]; ring
      · rw [dotProduct_comm, h1 i le_rfl, div_mul_cancel₀ _ (hd i le_rfl).ne', sub_self]
    have n3 : ∀ i < k + 1, (CG.iter A b i).r ⬝ᵥ (CG.iter A b (k+1)).r = 0 := by
      intro i hi
      rcases i with _ | i
      · exact n2 0 hi
      · have := d_succ A b i
        have e : (CG.iter A b (i+1)).r = (CG.iter A b (i+1)).d -
            (((CG.iter A b (i+1)).r ⬝ᵥ (CG.iter A b (i+1)).r) /
            ((CG.iter A b i).r ⬝ᵥ (CG.iter A b i).r)) • (CG.iter A b i).d := by
          rw [this]; abel
        rw [e, sub_dotProduct, smul_dotProduct, n2 _ hi, n2 i (by omega)]
        simp
    have n1 : (CG.iter A b (k+1)).r ⬝ᵥ (CG.iter A b (k+1)).d =
        (CG.iter A b (k+1)).r ⬝ᵥ (CG.iter A b (k+1)).r := by
      conv_lhs => rw [d_succ, dotProduct_add, dotProduct_smul, dotProduct_comm _ (CG.iter A b k).d, n2 k (by omega)]
      simp
    have n4 : ∀ i < k + 1, (CG.iter A b i).d ⬝ᵥ A.mulVec (CG.iter A b (k+1)).d = 0 := by
      intro i hi
      -- `A d_i` in terms of residuals
      have hAd : A.mulVec (CG.iter A b i).d ⬝ᵥ (CG.iter A b (k+1)).r =
          (((CG.iter A b i).d ⬝ᵥ A.mulVec (CG.iter A b i).d) /
            ((CG.iter A b i).r ⬝ᵥ (CG.iter A b i).r)) *
          ((CG.iter A b i).r ⬝ᵥ (CG.iter A b (k+1)).r -
            (CG.iter A b (i+1)).r ⬝ᵥ (CG.iter A b (k+1)).r) := by
        have := congrArg (fun v => v ⬝ᵥ (CG.iter A b (k+1)).r) (r_succ A b i)
        simp only [sub_dotProduct, smul_dotProduct, smul_eq_mul] at this
        rw [this]
        have a1 := (hd i (by omega)).ne'
        have a2 := (hpos i (by omega)).ne'
        field_simp
        ring
      rw [d_succ, mulVec_add, mulVec_smul, dotProduct_add, dotProduct_smul, smul_eq_mul,
        symm_dot hA.1, hAd]
      rcases Nat.lt_succ_iff_lt_or_eq.1 hi with h | rfl
      · rw [h4 k le_rfl i h, n3 i hi, n3 (i+1) (by omega)]; ring
      · rw [n3 i hi]
        have a1 := (hd i (by omega)).ne'
        have a2 := (hpos i (by omega)).ne'
        field_simp
        ring
    refine ⟨?_, ?_, ?_, ?_⟩
    · intro j hj
      rcases Nat.le_succ_iff.1 hj with h | rfl
      · exact h1 j h
      · exact n1
    · intro j hj i hi
      rcases Nat.le_succ_iff.1 hj with h | rfl
      · exact h2 j h i hi
      · exact n2 i hi
    · intro j hj i hi
      rcases Nat.le_succ_iff.1 hj with h | rfl
      · exact h3 j h i hi
      · exact n3 i hi
    · intro j hj i hi
      rcases Nat.le_succ_iff.1 hj with h | rfl
      · exact h4 j h i hi
      · exact n4 i hi

include hA in
/-- One of the first `n + 1` residuals is zero. -/
theorem exists_zero_residual : ∃ k ≤ n, (CG.iter A b k).r = 0 := by
  by_contra hcon
  push Not at hcon
  have h3 := (conj A hA b n fun i hi => hcon i hi.le).2.2.1
  have horth : ∀ i j : Fin (n+1), i ≠ j →
      (CG.iter A b i).r ⬝ᵥ (CG.iter A b j).r = 0 := by
    intro i j hij
    rcases lt_or_gt_of_ne (fun h => hij (Fin.ext h)) with h | h
    · exact h3 j (by omega) i h
    · rw [dotProduct_comm]; exact h3 i (by omega) j h
  have hli : LinearIndependent ℝ (fun i : Fin (n+1) => (CG.iter A b i).r) := by
    rw [Fintype.linearIndependent_iff]
    intro g hg i
    have := congrArg (fun v => v ⬝ᵥ (CG.iter A b i).r) hg
    simp only [zero_dotProduct, sum_dotProduct, smul_dotProduct, smul_eq_mul] at this
    rw [Finset.sum_eq_single i] at this
    · rcases mul_eq_zero.1 this with h | h
      · exact h
      · exact absurd h (dot_self_pos (hcon i (by omega))).ne'
    · intro j _ hj; rw [horth j i hj, mul_zero]
    · intro h; exact absurd (Finset.mem_univ _) h
  have := hli.fintype_card_le_finrank
  simp at this

end conj

/-! ## The claim -/

/-- Relative residual of a vector. -/
noncomputable def relRes (A : Mat n n) (b x : Vec n) : ℝ :=
  √((b - A.mulVec x) ⬝ᵥ (b - A.mulVec x)) / √(b ⬝ᵥ b)

/-- The quadratic function minimised by the solution of a symmetric positive definite system. -/
noncomputable def energy (A : Mat n n) (b x : Vec n) : ℝ := 1 / 2 * (x ⬝ᵥ A.mulVec x) - b ⬝ᵥ x

/-- What is assumed of `np.linalg.eigvals`: the eigenvalues of a symmetric matrix are all positive
exactly if the matrix is positive definite. -/
def EigContract (eigvals : Mat n n → List ℝ) : Prop :=
  ∀ A : Mat n n, A.IsSymm → ((∀ e ∈ eigvals A, e > 0) ↔ SPD A)

theorem energy_step (A : Mat n n) (hA : SPD A) (b : Vec n) (k : ℕ)
    (hr : ∀ i < k + 1, (CG.iter A b i).r ≠ 0) :
    energy A b (CG.iter A b (k+1)).x ≤ energy A b (CG.iter A b k).x := by
  have hc := (conj A hA b k fun i hi => hr i (by omega)).1 k le_rfl
  have hx : (CG.iter A b (k+1)).x = (CG.iter A b k).x +
      (((CG.iter A b k).r ⬝ᵥ (CG.iter A b k).r) /
      ((CG.iter A b k).d ⬝ᵥ A.mulVec (CG.iter A b k).d)) • (CG.iter A b k).d := rfl
  have hrr := dot_self_pos (hr k (by omega))
  have hres := iter_residual A b k
  have hd : 0 < (CG.iter A b k).d ⬝ᵥ A.mulVec (CG.iter A b k).d := by
    apply hA.2
    intro h0
    rw [h0, dotProduct_zero] at hc
    exact absurd hc hrr.ne
  rw [hx]
  set x := (CG.iter A b k).x
  set r := (CG.iter A b k).r
  set d := (CG.iter A b k).d
  have h1 : r ⬝ᵥ d = b ⬝ᵥ d - d ⬝ᵥ A.mulVec x := by
    rw [hres, sub_dotProduct, dotProduct_comm d]
  have h2 : x ⬝ᵥ A.mulVec d = d ⬝ᵥ A.mulVec x := by rw [symm_dot hA.1, dotProduct_comm]
  rw [hc] at h1
  unfold energy
  simp only [mulVec_add, mulVec_smul, dotProduct_add, add_dotProduct, smul_dotProduct,
    dotProduct_smul, smul_eq_mul]
  rw [h2, show b ⬝ᵥ d = r ⬝ᵥ r + d ⬝ᵥ A.mulVec x by linarith]
  set a := r ⬝ᵥ r
  set e := d ⬝ᵥ A.mulVec d
  set g := d ⬝ᵥ A.mulVec x
  have : a / e * e = a := div_mul_cancel₀ _ hd.ne'
  have h3 : 0 ≤ a / e * a := by positivity
  have h4 : a / e * (a / e * e) = a / e * a := by rw [this]
  nlinarith

theorem energy_mono (A : Mat n n) (hA : SPD A) (b : Vec n) (j k : ℕ) (hjk : j ≤ k)
    (hr : ∀ i < k, (CG.iter A b i).r ≠ 0) :
    energy A b (CG.iter A b k).x ≤ energy A b (CG.iter A b j).x := by
  induction k with
  | zero => obtain rfl : j = 0 := by omega
            exact le_rfl
  | succ k ih =>
    rcases Nat.le_succ_iff.1 hjk with h | rfl
    · exact (energy_step A hA b k hr).trans (ih h fun i hi => hr i (by omega))
    · exact le_rfl

theorem ne_zero_of_big {A : Mat n n} {b : Vec n} {tol : ℝ} {i : ℕ}
    (h : tol ^ 2 * (b ⬝ᵥ b) < (CG.iter A b i).delta) : (CG.iter A b i).r ≠ 0 := by
  intro h0
  have : (CG.iter A b i).delta = 0 := by unfold CG.delta; rw [h0, dotProduct_zero]
  rw [this] at h
  have : 0 ≤ tol ^ 2 * (b ⬝ᵥ b) := mul_nonneg (sq_nonneg _) (dot_self_nonneg b)
  linarith

theorem iter_relRes (A : Mat n n) (b : Vec n) (k : ℕ) :
    √((CG.iter A b k).delta / (b ⬝ᵥ b)) = relRes A b (CG.iter A b k).x := by
  unfold relRes CG.delta
  rw [← iter_residual, Real.sqrt_div (dot_self_nonneg _)]

theorem relRes_le {A : Mat n n} {b : Vec n} {tol : ℝ} {k : ℕ} (hb : b ≠ 0)
    (h : (CG.iter A b k).delta ≤ tol ^ 2 * (b ⬝ᵥ b)) :
    relRes A b (CG.iter A b k).x ≤ |tol| := by
  rw [← iter_relRes, ← Real.sqrt_sq_eq_abs]
  apply Real.sqrt_le_sqrt
  rwa [div_le_iff₀ (dot_self_pos hb)]

/-- C47, the part that holds. On every symmetric positive definite system of any size with a
non-zero right-hand side, `_CG_solve` returns a vector, its true relative residual, and a number of
iterations within the bound; if it stopped before the bound, or if the bound is at least the size of
the system, the relative residual is within the tolerance; raising the bound never increases the
energy of the result (its distance to the solution in the energy norm). Missing: the vector returned
need not be the best one visited (`c47_best_violated`). -/
theorem c47_conjugate_gradient_partial (eigvals : Mat n n → List ℝ) (hE : EigContract eigvals)
    (A : Mat n n) (hA : SPD A) (b : Vec n) (hb : b ≠ 0) (tol : ℝ) :
    ∃ run : ℕ → Vec n × ℕ,
      ∀ maxIters, cgSolve eigvals A b maxIters tol =
          .ok ((run maxIters).1, some (relRes A b (run maxIters).1), (run maxIters).2) ∧
        (run maxIters).2 ≤ maxIters ∧
        ((run maxIters).2 < maxIters → relRes A b (run maxIters).1 ≤ |tol|) ∧
        (n ≤ maxIters → relRes A b (run maxIters).1 ≤ |tol|) ∧
        ∀ fewer ≤ maxIters, energy A b (run maxIters).1 ≤ energy A b (run fewer).1 := by
  have hl := fun m => loop_eq A b tol m 0
  choose k hk0 hk hloop hstop hbig using hl
  simp only [Nat.zero_add] at hk hstop
  have hb0 : b ⬝ᵥ b ≠ 0 := (dot_self_pos hb).ne'
  refine ⟨fun m => ((CG.iter A b (k m)).x, k m), fun m => ⟨?_, hk m, ?_, ?_, ?_⟩⟩
  · unfold cgSolve
    rw [if_pos ((hE A hA.1).2 hA)]
    show Except.ok _ = _
    rw [show CG.init b = CG.iter A b 0 from rfl, hloop, if_neg hb0, iter_iterations, iter_relRes]
  · intro h
    rcases hstop m with h' | h'
    · exact absurd h' (Nat.ne_of_lt h)
    · exact relRes_le hb h'
  · intro hn
    rcases hstop m with h' | h'
    · obtain ⟨z, hz, hz0⟩ := exists_zero_residual A hA b
      have hzk : k m ≤ z := by
        by_contra hlt
        exact ne_zero_of_big (hbig m z (Nat.zero_le _) (by omega)) hz0
      have : k m = z := by omega
      apply relRes_le hb
      rw [this]
      unfold CG.delta
      rw [hz0, dotProduct_zero]
      exact mul_nonneg (sq_nonneg _) (dot_self_nonneg b)
    · exact relRes_le hb h'
  · intro m' hm'
    have hkk : k m' ≤ k m := by
      by_contra hlt
      push Not at hlt
      have h1 := hbig m' (k m) (Nat.zero_le _) hlt
      rcases hstop m with h' | h'
      · have := hk m'; omega
      · linarith
    exact energy_mono A hA b _ _ hkk fun i hi => ne_zero_of_big (hbig m i (Nat.zero_le _) hi)

/-- The contract of the eigenvalues can be met, and there are positive definite systems. -/
example : ∃ eigvals : Mat n n → List ℝ, EigContract eigvals := by
  classical
  refine ⟨fun A => if SPD A then [] else [0], fun A _ => ?_⟩
  by_cases h : SPD A <;> simp [h]

/-- The matrix `diag(1, 9)`. -/
def diag19 : Mat 2 2 := !![1, 0; 0, 9]

theorem diag19_spd : SPD diag19 := by
  refine ⟨by ext i j; fin_cases i <;> fin_cases j <;> rfl, fun v hv => ?_⟩
  have : v ⬝ᵥ diag19.mulVec v = v 0 ^ 2 + 9 * v 1 ^ 2 := by
    simp [diag19, dotProduct, Matrix.mulVec, Fin.sum_univ_two]; ring
  rw [this]
  by_contra hcon
  have h0 : v 0 = 0 := by nlinarith [sq_nonneg (v 0), sq_nonneg (v 1)]
  have h1 : v 1 = 0 := by nlinarith [sq_nonneg (v 0), sq_nonneg (v 1)]
  apply hv
  ext i; fin_cases i <;> simpa

/-- C47, violated as stated: with one iteration allowed on `diag(1, 9) x = (3, 1)` the vector
returned has relative residual `4/3`, while the starting vector zero, which the loop also visited,
has relative residual `1`. -/
theorem c47_best_violated (eigvals : Mat 2 2 → List ℝ) (hE : EigContract eigvals) (tol : ℝ)
    (ht : |tol| < 1) :
    ∃ x, cgSolve eigvals diag19 ![3, 1] 1 tol = .ok (x, some (4/3), 1) ∧
      relRes diag19 ![3, 1] x = 4/3 ∧ relRes diag19 ![3, 1] 0 = 1 := by
  have hb0 : (![3, 1] : Vec 2) ⬝ᵥ ![3, 1] = 10 := by
    simp [dotProduct, Fin.sum_univ_two]; norm_num
  have hx : (CG.iter diag19 ![3,1] 1).x = ![5/3, 5/9] := by
    show (0 : Vec 2) + ((![3,1] : Vec 2) ⬝ᵥ ![3,1] / ((![3,1] : Vec 2) ⬝ᵥ diag19.mulVec ![3,1])) • (![3,1] : Vec 2) = _
    have : (![3,1] : Vec 2) ⬝ᵥ diag19.mulVec ![3,1] = 18 := by
      simp [diag19, dotProduct, Matrix.mulVec, Fin.sum_univ_two]; norm_num
    rw [hb0, this]
    ext i; fin_cases i <;> simp <;> norm_num
  have hrel : relRes diag19 ![3, 1] ![5/3, 5/9] = 4/3 := by
    unfold relRes
    rw [hb0, ← Real.sqrt_div' _ (by norm_num), Real.sqrt_eq_iff_mul_self_eq_of_pos (by norm_num)]
    simp [diag19, dotProduct, Matrix.mulVec, Fin.sum_univ_two]; norm_num
  refine ⟨![5/3, 5/9], ?_, hrel, ?_⟩
  · unfold cgSolve
    rw [if_pos ((hE _ diag19_spd.1).2 diag19_spd)]
    have hbig : (CG.init (![3,1] : Vec 2)).delta > tol ^ 2 * ((![3, 1] : Vec 2) ⬝ᵥ ![3, 1]) := by
      show (![3, 1] : Vec 2) ⬝ᵥ ![3, 1] > _
      rw [hb0]
      have := (sq_lt_one_iff_abs_lt_one tol).2 ht
      linarith
    have hl : CG.loop diag19 ((![3, 1] : Vec 2) ⬝ᵥ ![3, 1]) tol 1 (CG.init ![3, 1]) =
        CG.iter diag19 ![3,1] 1 := by
      unfold CG.loop; rw [if_pos hbig]; rfl
    simp only
    rw [hl, if_neg (by rw [hb0]; norm_num), iter_relRes, iter_iterations, hx, hrel]
  · unfold relRes
    rw [mulVec_zero, sub_zero, hb0, div_self (by positivity)]

end EQ.Solver
