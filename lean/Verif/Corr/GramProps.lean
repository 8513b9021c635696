import Verif.Corr.Model
import Mathlib.LinearAlgebra.Matrix.Block
import Mathlib.Tactic.Linarith
import Mathlib.Tactic.FieldSimp
import Mathlib.Tactic.NormNum
import Mathlib.Tactic.FinCases
import Mathlib.Algebra.BigOperators.Field

/-!
# Properties of the Gram-Schmidt correction: C71
-/

namespace EQ.Corr

open EQ.Basis Matrix

/-- Contract of `np.linalg.qr`: `M = Q R` with orthonormal columns of `Q` and upper triangular `R`; the signs are free. -/
def QROK (M : Matrix (Fin N) (Fin (P+1)) ℝ) (Q : Matrix (Fin N) (Fin (P+1)) ℝ) (Rq : Matrix (Fin (P+1)) (Fin (P+1)) ℝ) : Prop :=
  M = Q * Rq ∧ Qᵀ * Q = 1 ∧ ∀ i j, j < i → Rq i j = 0

/-- Specification: mean over the samples of the product of functions `i` and `j`; row `p` of `F` holds the values of all
functions at sample `p`. -/
noncomputable def meanProd (F : Fin N → Fin (P+1) → ℝ) (i j : Fin (P+1)) : ℝ := (∑ p, F p i * F p j) / N

/-- The diagonal matrix by which the first row is multiplied. -/
noncomputable def signDiag (s : ℝ) : Matrix (Fin (P+1)) (Fin (P+1)) ℝ := Matrix.diagonal fun i => if i = 0 then s else 1

theorem fixSign_eq (Rq : Matrix (Fin (P+1)) (Fin (P+1)) ℝ) : fixSign Rq = signDiag (Real.sign (Rq 0 0)) * Rq := by
  ext i j
  unfold fixSign signDiag
  rw [Matrix.diagonal_mul, Matrix.of_apply]
  split_ifs
  · ring
  · ring

theorem weighted_gram (F : Matrix (Fin N) (Fin (P+1)) ℝ) (i j : Fin (P+1)) :
    ((weighted F)ᵀ * weighted F) i j = meanProd F i j := by
  unfold weighted meanProd
  rw [Matrix.mul_apply, Finset.sum_div]
  refine Finset.sum_congr rfl fun p _ => ?_
  rw [Matrix.transpose_apply, Matrix.of_apply, Matrix.of_apply]
  have h : Real.sqrt (1 / (N : ℝ)) * Real.sqrt (1 / (N : ℝ)) = 1 / N := Real.mul_self_sqrt (by positivity)
  calc _ = (Real.sqrt (1 / (N : ℝ)) * Real.sqrt (1 / (N : ℝ))) * (F p i * F p j) := by ring
    _ = _ := by rw [h]; ring

theorem weighted_mul (F : Matrix (Fin N) (Fin (P+1)) ℝ) (G : Matrix (Fin (P+1)) (Fin (P+1)) ℝ) :
    weighted (F * G) = weighted F * G := by
  ext p k
  unfold weighted
  rw [Matrix.of_apply, Matrix.mul_apply, Matrix.mul_apply, Finset.mul_sum]
  refine Finset.sum_congr rfl fun j _ => ?_
  rw [Matrix.of_apply]; ring

/-- C71 (partial: two or more parameters). For every set of samples and every valid QR factorisation, whatever its signs: if
the correction is computed at all (no singular factor), the corrected functions are orthonormal with respect to the mean over
the samples, and if the first basis function is the constant 1, the first corrected function has the value +1 at every point. -/
theorem c71_orthonormal_partial (hN : 0 < N) (d : ℕ) (hd : d ≠ 1) (Psi : Matrix (Fin N) (Fin (P+1)) ℝ) (h1 : ∀ p, Psi p 0 = 1)
    (Q : Matrix (Fin N) (Fin (P+1)) ℝ) (Rq inv : Matrix (Fin (P+1)) (Fin (P+1)) ℝ) (hqr : QROK (weighted Psi) Q Rq)
    (hinv : invR Rq = .ok inv) :
    (∀ i j, meanProd (fun p => correctedPoly d inv (Psi p)) i j = if i = j then 1 else 0) ∧
    ∀ psi : Fin (P+1) → ℝ, psi 0 = 1 → correctedPoly d inv psi 0 = 1 := by
  obtain ⟨hM, hQ, hT⟩ := hqr
  unfold invR at hinv
  by_cases hdet : (fixSign Rq).det = 0
  · rw [if_pos hdet] at hinv; cases hinv
  rw [if_neg hdet] at hinv
  simp only [Except.ok.injEq] at hinv
  set s := Real.sign (Rq 0 0) with hs
  set D : Matrix (Fin (P+1)) (Fin (P+1)) ℝ := signDiag s with hD
  have hunit : IsUnit (fixSign Rq).det := isUnit_iff_ne_zero.2 hdet
  have hFR : fixSign Rq = D * Rq := fixSign_eq Rq
  have hR00 : Rq 0 0 ≠ 0 := by
    intro h0
    have : s = 0 := by rw [hs, h0, Real.sign_zero]
    apply hdet
    rw [hFR, Matrix.det_mul, hD]
    unfold signDiag
    rw [Matrix.det_diagonal, this, Finset.prod_eq_zero (Finset.mem_univ 0) (by simp), zero_mul]
  have hs2 : s * s = 1 := by
    rcases Real.sign_apply_eq_of_ne_zero _ hR00 with h | h <;> rw [hs, h] <;> norm_num
  have hDD : D * D = 1 := by
    rw [hD]; unfold signDiag
    rw [Matrix.diagonal_mul_diagonal, ← Matrix.diagonal_one]
    congr 1
    funext i
    by_cases hi : i = 0
    · simp [hi, hs2]
    · simp [hi]
  have hDT : Dᵀ = D := by rw [hD]; unfold signDiag; exact Matrix.diagonal_transpose _
  have hRinv : Rq * inv = D := by
    have h : D * Rq * inv = 1 := by rw [← hFR, ← hinv]; exact Matrix.mul_nonsing_inv _ hunit
    calc Rq * inv = (D * D) * (Rq * inv) := by rw [hDD, Matrix.one_mul]
      _ = D * (D * Rq * inv) := by simp only [Matrix.mul_assoc]
      _ = D := by rw [h, Matrix.mul_one]
  have hcorr : ∀ psi : Fin (P+1) → ℝ, correctedPoly d inv psi = invᵀ *ᵥ psi := fun psi => by
    unfold correctedPoly; rw [if_neg hd]
  have hrow : (fun p => correctedPoly d inv (Psi p)) = (Psi * inv : Matrix _ _ ℝ) := by
    funext p k
    rw [hcorr, Matrix.mul_apply]
    show ∑ j, invᵀ k j * Psi p j = _
    refine Finset.sum_congr rfl fun j _ => ?_
    rw [Matrix.transpose_apply]; ring
  have hWP : weighted (Psi * inv) = Q * D := by rw [weighted_mul, hM, Matrix.mul_assoc, hRinv]
  have hgram : (weighted (Psi * inv))ᵀ * weighted (Psi * inv) = 1 := by
    rw [hWP, Matrix.transpose_mul, hDT]
    calc D * Qᵀ * (Q * D) = D * (Qᵀ * Q) * D := by simp only [Matrix.mul_assoc]
      _ = 1 := by rw [hQ, Matrix.mul_one, hDD]
  have hfirst : ∀ i, i ≠ 0 → inv i 0 = 0 := by
    have htri : (fixSign Rq).BlockTriangular id := fun i j hij => by
      unfold fixSign
      rw [Matrix.of_apply, if_neg (fun h0 => by rw [h0] at hij; exact absurd hij (Fin.not_lt_zero _))]
      exact hT i j hij
    haveI : Invertible (fixSign Rq) := Matrix.invertibleOfIsUnitDet _ hunit
    have := Matrix.blockTriangular_inv_of_blockTriangular htri
    intro i hi
    rw [← hinv]
    exact this (show (0 : Fin (P+1)) < i from Fin.pos_of_ne_zero hi)
  have hR0 : Rq 0 0 * inv 0 0 = s := by
    have h := congrFun (congrFun hRinv 0) 0
    rw [Matrix.mul_apply, Finset.sum_eq_single 0 (fun j _ hj => by rw [hfirst j hj, mul_zero])
      (fun h => absurd (Finset.mem_univ _) h)] at h
    rw [h, hD]; unfold signDiag; simp
  have hR1 : Rq 0 0 ^ 2 = 1 := by
    have hm := weighted_gram Psi 0 0
    rw [hM, Matrix.transpose_mul, Matrix.mul_assoc, ← Matrix.mul_assoc Qᵀ, hQ, Matrix.one_mul, Matrix.mul_apply,
      Finset.sum_eq_single 0 (fun j _ hj => by rw [hT j 0 (Fin.pos_of_ne_zero hj), mul_zero])
      (fun h => absurd (Finset.mem_univ _) h), Matrix.transpose_apply] at hm
    unfold meanProd at hm
    have hN' : (N : ℝ) ≠ 0 := by positivity
    rw [Finset.sum_congr rfl fun p _ => by rw [h1 p, mul_one]] at hm
    simp only [Finset.sum_const, Finset.card_univ, Fintype.card_fin, nsmul_eq_mul, mul_one] at hm
    rw [div_self hN'] at hm
    rw [pow_two]; exact hm
  have hinv00 : inv 0 0 = 1 := by
    rcases lt_or_gt_of_ne hR00 with h | h
    · have h2 : Rq 0 0 = -1 := by nlinarith
      rw [hs, Real.sign_of_neg h, h2] at hR0
      linarith
    · have h2 : Rq 0 0 = 1 := by nlinarith
      rw [hs, Real.sign_of_pos h, h2] at hR0
      linarith
  refine ⟨fun i j => ?_, fun psi hpsi => ?_⟩
  · rw [hrow, ← weighted_gram, hgram, Matrix.one_apply]
  · rw [hcorr]
    show ∑ j, invᵀ 0 j * psi j = 1
    rw [Finset.sum_eq_single 0 (fun j _ hj => by rw [Matrix.transpose_apply, hfirst j hj, zero_mul])
      (fun h => absurd (Finset.mem_univ _) h), Matrix.transpose_apply, hinv00, hpsi, one_mul]

/-- Two samples with basis values (1, 0) and (1, 2); a factorisation with a negative first entry. -/
noncomputable def psiDemo : Matrix (Fin 2) (Fin (1+1)) ℝ := !![1, 0; 1, 2]
/-- The orthogonal factor of the example. -/
noncomputable def qDemo : Matrix (Fin 2) (Fin (1+1)) ℝ :=
  !![-Real.sqrt (1/2), -Real.sqrt (1/2); -Real.sqrt (1/2), Real.sqrt (1/2)]
/-- The triangular factor of the example. -/
def rDemo : Matrix (Fin (1+1)) (Fin (1+1)) ℝ := !![-1, -1; 0, 1]

theorem psiDemo_qr : QROK (weighted psiDemo) qDemo rDemo := by
  have h : Real.sqrt (1/2) * Real.sqrt (1/2) = 1/2 := Real.mul_self_sqrt (by norm_num)
  refine ⟨?_, ?_, ?_⟩
  · ext i j
    unfold weighted
    fin_cases i <;> fin_cases j <;>
      simp [psiDemo, qDemo, rDemo, Matrix.mul_apply, Fin.sum_univ_two] <;> ring
  · ext i j
    have h' : (Real.sqrt 2)⁻¹ * (Real.sqrt 2)⁻¹ = 1/2 := by
      rw [← mul_inv, Real.mul_self_sqrt (by norm_num)]; norm_num
    fin_cases i <;> fin_cases j <;>
      simp [qDemo, Matrix.mul_apply, Fin.sum_univ_two, h'] <;> norm_num
  · intro i j hij
    fin_cases i <;> fin_cases j <;> simp_all [rDemo]

/-- The example meets the hypotheses. -/
example : ∃ inv, invR rDemo = .ok inv ∧ QROK (weighted psiDemo) qDemo rDemo ∧ ∀ p, psiDemo p 0 = 1 := by
  refine ⟨(fixSign rDemo)⁻¹, ?_, psiDemo_qr, fun p => by fin_cases p <;> simp [psiDemo]⟩
  unfold invR
  rw [if_neg]
  unfold fixSign
  rw [Matrix.det_fin_two]
  simp [rDemo, Real.sign]

/-- C71 is violated with one parameter: `get_poly` returns before the correction is applied, so the corrected functions are
the uncorrected ones. For 20 samples, half with the basis values (1, 0) and half with (1, 1), they are not orthonormal. -/
theorem c71_univariate_violated :
    (∀ (inv : Matrix (Fin (P+1)) (Fin (P+1)) ℝ) (psi : Fin (P+1) → ℝ), correctedPoly 1 inv psi = psi) ∧
    ∀ inv : Matrix (Fin (1+1)) (Fin (1+1)) ℝ,
      meanProd (fun p : Fin 20 => correctedPoly 1 inv ![1, if p.1 < 10 then 0 else 1]) 0 1 = 1/2 := by
  refine ⟨fun inv psi => by unfold correctedPoly; rw [if_pos rfl], fun inv => ?_⟩
  unfold correctedPoly meanProd
  simp only [if_true]
  simp [Fin.sum_univ_succ]
  norm_num

end EQ.Corr
