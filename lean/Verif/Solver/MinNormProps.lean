import Verif.Solver.LinProps
import Mathlib.LinearAlgebra.Matrix.Block
import Mathlib.LinearAlgebra.Matrix.Rank

/-!
# The minimum-norm solver (C44)
-/

namespace EQ.Solver
open Matrix EQ.Basis

/-- What is assumed of `scipy.linalg.qr(A, pivoting=True)`: `A[:, pvec] = Q R` with orthogonal `Q` and
upper triangular `R`, and the pivot is at least as large as every other entry of its row. -/
structure PivotedQR.Spec {m n : ℕ} (qr : PivotedQR m n) (A : Mat m n) : Prop where
  orth : qr.Qᵀ * qr.Q = 1
  mul : ∀ i j, A i (qr.pvec j) = (qr.Q * qr.R) i j
  upper : ∀ (i : Fin m) (j : Fin n), (j : ℕ) < (i : ℕ) → qr.R i j = 0
  pivot : ∀ (i : Fin m) (j k : Fin n), (k : ℕ) = i → |qr.R i j| ≤ |qr.R i k|

variable {m n : ℕ}

theorem rank_row {A : Mat m n} (hA : LinearIndependent ℝ A.row) : A.rank = m := by
  have := LinearIndependent.rank_matrix hA
  simpa using this

theorem indep_le {A : Mat m n} (hA : LinearIndependent ℝ A.row) : m ≤ n := by
  have := A.rank_le_width
  rwa [rank_row hA] at this

/-- C44, the part that holds. For every matrix with linearly independent rows and every right-hand
side, `minimum_norm` returns a solution of the system, with at most as many non-zero entries as
there are rows; if the matrix is square it is the only solution. Missing: for a matrix with fewer
rows than columns the norm of the solution need not be minimal (`c44_minimum_norm_violated`). -/
theorem c44_minimum_norm_partial (A : Mat m n) (hA : LinearIndependent ℝ A.row)
    (qr : PivotedQR m n) (hqr : qr.Spec A) (b : Vec m) :
    ∃ x, minimumNorm qr A.rank A.rank_le_width b = .ok x ∧ A.mulVec x = b ∧
      (Finset.univ.filter fun j => x j ≠ 0).card ≤ m ∧
      (m = n → ∀ z, A.mulVec z = b → z = x) := by
  suffices key : ∀ r (hle : r ≤ n), r = m → ∃ x, minimumNorm qr r hle b = .ok x ∧ A.mulVec x = b ∧
      (Finset.univ.filter fun j => x j ≠ 0).card ≤ m ∧
      (m = n → ∀ z, A.mulVec z = b → z = x) from key _ _ (rank_row hA)
  intro r hle hr
  subst hr
  -- the leading block is invertible
  set R1 : Mat r r := fun i j => qr.R i (Fin.castLE hle j) with hR1
  have hQ : qr.Q * qr.Qᵀ = 1 := mul_eq_one_comm.1 hqr.orth
  have hdiag : ∀ i, R1 i i ≠ 0 := by
    intro i hi
    have hrow : ∀ j, qr.R i j = 0 := by
      intro j
      have := hqr.pivot i j (Fin.castLE hle i) rfl
      rw [show qr.R i (Fin.castLE hle i) = 0 from hi, abs_zero] at this
      exact abs_nonpos_iff.1 this
    -- the combination of the rows of `A` with the coefficients `Q i` vanishes
    rw [Fintype.linearIndependent_iff] at hA
    have hcomb : ∑ k, qr.Q k i • A.row k = 0 := by
      funext j
      obtain ⟨j', rfl⟩ := qr.pvec.surjective j
      rw [Finset.sum_apply]
      have : ∀ k, (qr.Q k i • A.row k) (qr.pvec j') = qr.Qᵀ i k * (qr.Q * qr.R) k j' := by
        intro k
        rw [← hqr.mul]; rfl
      simp only [this]
      rw [← mul_apply, ← Matrix.mul_assoc, hqr.orth, Matrix.one_mul, hrow]
      rfl
    have hz := hA _ hcomb
    have h1 := congrFun (congrFun hqr.orth i) i
    rw [mul_apply, one_apply_eq, Finset.sum_eq_zero] at h1
    · exact zero_ne_one h1
    · intro k _; rw [hz k, mul_zero]
  have htri : R1.BlockTriangular id := by
    intro i j hij
    exact hqr.upper i _ hij
  have hdet : R1.det ≠ 0 := by
    rw [det_of_isUpperTriangular htri]
    exact Finset.prod_ne_zero_iff.2 fun i _ => hdiag i
  set y := R1⁻¹.mulVec (qr.Qᵀ.mulVec b) with hy
  set P1 : Mat n r := fun i j => if qr.pvec.symm i = Fin.castLE hle j then 1 else 0 with hP1
  have hval : minimumNorm qr r hle b = .ok (P1.mulVec y) := by
    unfold minimumNorm
    rw [dif_pos rfl]
    exact if_neg hdet
  have hRy : R1.mulVec y = qr.Qᵀ.mulVec b := by
    rw [hy, mulVec_mulVec, mul_nonsing_inv _ (isUnit_iff_ne_zero.2 hdet), one_mulVec]
  have hsol : A.mulVec (P1.mulVec y) = b := by
    rw [mulVec_mulVec]
    have hAP : A * P1 = qr.Q * R1 := by
      ext i j
      rw [mul_apply, ← Equiv.sum_comp qr.pvec]
      simp only [hP1, Equiv.symm_apply_apply, mul_ite, mul_one, mul_zero]
      rw [Finset.sum_ite_eq' Finset.univ (Fin.castLE hle j) fun k => A i (qr.pvec k),
        if_pos (Finset.mem_univ _), hqr.mul, mul_apply, mul_apply]
    rw [hAP, ← mulVec_mulVec, hRy, mulVec_mulVec, hQ, one_mulVec]
  refine ⟨P1.mulVec y, hval, hsol, ?_, ?_⟩
  · have hsub : (Finset.univ.filter fun j => P1.mulVec y j ≠ 0) ⊆
        Finset.univ.image fun k : Fin r => qr.pvec (Fin.castLE hle k) := by
      intro j hj
      rw [Finset.mem_filter] at hj
      by_contra hcon
      apply hj.2
      show ∑ k, P1 j k * y k = 0
      refine Finset.sum_eq_zero fun k _ => ?_
      rw [show P1 j k = 0 from if_neg ?_, zero_mul]
      intro h
      apply hcon
      rw [Finset.mem_image]
      exact ⟨k, Finset.mem_univ _, by rw [← h, Equiv.apply_symm_apply]⟩
    exact (Finset.card_le_card hsub).trans (Finset.card_image_le.trans (by simp))
  · rintro rfl z hz
    have hu : IsUnit A := linearIndependent_rows_iff_isUnit.1 hA
    have hd : IsUnit A.det := (isUnit_iff_isUnit_det A).1 hu
    have := congrArg (fun v => A⁻¹.mulVec v) (hz.trans hsol.symm)
    rwa [mulVec_mulVec, mulVec_mulVec _ A⁻¹ A, nonsing_inv_mul _ hd, one_mulVec, one_mulVec] at this

/-- C44, violated as stated: for the equation `x + y = 1`, whatever the factorisation, the solution
returned has norm `1`, while `(1/2, 1/2)` is a solution of smaller norm. -/
theorem c44_minimum_norm_violated (qr : PivotedQR 1 2) (hqr : qr.Spec !![1, 1]) :
    ∃ x z : Vec 2, minimumNorm qr (!![1, 1] : Mat 1 2).rank (rank_le_width _) ![1] = .ok x ∧
      (!![1, 1] : Mat 1 2).mulVec z = ![1] ∧ ∑ j, z j ^ 2 < ∑ j, x j ^ 2 := by
  have hA : LinearIndependent ℝ (Matrix.row (!![1, 1] : Mat 1 2)) := by
    rw [Fintype.linearIndependent_iff]
    intro g hg i
    have := congrFun hg 0
    simp at this
    fin_cases i
    exact this
  obtain ⟨x, h1, h2, h3, -⟩ := c44_minimum_norm_partial _ hA qr hqr ![1]
  refine ⟨x, ![1/2, 1/2], h1, ?_, ?_⟩
  · ext i; fin_cases i; simp [mulVec]; norm_num
  · have hs : x 0 + x 1 = 1 := by
      have := congrFun h2 0
      simpa [mulVec, dotProduct, Fin.sum_univ_two] using this
    have h0 : x 0 = 0 ∨ x 1 = 0 := by
      by_contra hcon
      push Not at hcon
      have : (Finset.univ.filter fun j => x j ≠ 0) = Finset.univ := by
        ext j; fin_cases j <;> simp [hcon.1, hcon.2]
      rw [this] at h3
      simp at h3
    rw [Fin.sum_univ_two, Fin.sum_univ_two]
    rcases h0 with h0 | h0
    · rw [h0, zero_add] at hs; rw [h0, hs]; simp; norm_num
    · rw [h0, add_zero] at hs; rw [h0, hs]; simp; norm_num

/-- Such a factorisation exists: for the row `(3, 4)` the second column is the pivot. -/
example : PivotedQR.Spec ⟨!![1], !![4, 3], Equiv.swap 0 1⟩ (!![3, 4] : Mat 1 2) := by
  refine ⟨?_, ?_, ?_, ?_⟩
  · ext i j; fin_cases i; fin_cases j; simp [mul_apply]
  · intro i j; fin_cases i; fin_cases j <;> simp [mul_apply]
  · intro i j h; fin_cases i; fin_cases j <;> simp at h
  · intro i j k h; fin_cases i; fin_cases j <;> fin_cases k <;> simp at h ⊢; norm_num

end EQ.Solver
