import Verif.Param.ExactLemmas
import Verif.Param.MonicLemmas
import Mathlib.Analysis.Matrix.Spectrum
import Mathlib.LinearAlgebra.Lagrange
import Mathlib.Data.Fin.Tuple.Sort

/-!
# Helper lemmas: existence of eigendecompositions, location of the nodes, Radau and Lobatto
-/

namespace EQ.Param
open Polynomial Finset

/-- Every real symmetric matrix has a decomposition of the kind `eigh` returns. -/
theorem eigh_exists {n : ℕ} (J : Matrix (Fin n) (Fin n) ℝ) (hJ : J.transpose = J) :
    ∃ D V, EighContract J D V := by
  have hH : J.IsHermitian := by
    rw [Matrix.IsHermitian, Matrix.conjTranspose_eq_transpose_of_trivial, hJ]
  let σ := Tuple.sort hH.eigenvalues
  let V : Matrix (Fin n) (Fin n) ℝ := fun i k => hH.eigenvectorBasis (σ k) i
  refine ⟨hH.eigenvalues ∘ σ, V, Tuple.monotone_sort _, ?_, ?_⟩
  · ext i j
    have h := orthonormal_iff_ite.mp hH.eigenvectorBasis.orthonormal (σ i) (σ j)
    rw [PiLp.inner_apply] at h
    simp only [RCLike.inner_apply, conj_trivial] at h
    have e : (∑ k, V.transpose i k * V k j) =
        ∑ k, hH.eigenvectorBasis (σ j) k * hH.eigenvectorBasis (σ i) k :=
      sum_congr rfl fun k _ => mul_comm _ _
    rw [Matrix.mul_apply, Matrix.one_apply, e, h]
    simp
  · ext i k
    rw [Matrix.mul_diagonal, Matrix.mul_apply]
    have h := congrFun (hH.mulVec_eigenvectorBasis (σ k)) i
    simp only [Matrix.mulVec, dotProduct, Pi.smul_apply, smul_eq_mul] at h
    simp only [V, Function.comp]
    rw [mul_comm]
    exact h

theorem jacobiMatrix_symm (ab : Table) (n : ℕ) :
    (jacobiMatrix ab n).transpose = jacobiMatrix ab n := by
  ext i j
  rw [Matrix.transpose_apply]
  unfold jacobiMatrix
  have hn : 1 ≤ n := by have := i.2; omega
  rw [jacobiEntries_eq ab n hn j i j.2 i.2, jacobiEntries_eq ab n hn i j i.2 j.2]
  by_cases h1 : (i : ℕ) = j
  · simp [h1]
  · rw [if_neg (Ne.symm h1), if_neg h1]
    by_cases h2 : (i : ℕ) + 1 = j
    · rw [if_pos h2, if_neg (by omega), if_pos h2]
    · by_cases h3 : (j : ℕ) + 1 = i
      · rw [if_pos h3, if_neg h2, if_pos h3]
      · rw [if_neg h3, if_neg h2, if_neg h2, if_neg h3]

theorem jacobiMatrix_congr (ab ab' : Table) (n : ℕ) (h : ∀ k, k < n → ab k = ab' k) :
    jacobiMatrix ab n = jacobiMatrix ab' n := by
  ext i j
  unfold jacobiMatrix
  have hn : 1 ≤ n := by have := i.2; omega
  rw [jacobiEntries_eq ab n hn i j i.2 j.2, jacobiEntries_eq ab' n hn i j i.2 j.2,
    h i i.2, h j j.2]

/-- The Gauss rule written as a functional. -/
theorem gauss_exact (ab : Table) (n : ℕ) (hb : ∀ k, 1 ≤ k → k ≤ n + 1 → 0 < (ab k).2)
    (D : Fin (n + 1) → ℝ) (V : Matrix (Fin (n + 1)) (Fin (n + 1)) ℝ)
    (h : EighContract (jacobiMatrix ab (n + 1)) D V) (c : ℝ) (L : ℝ[X] →ₗ[ℝ] ℝ)
    (hL : ∀ i j, i ≤ n → j ≤ n + 1 → L (opoly ab i * opoly ab j) = if i = j then c else 0)
    (f : ℝ[X]) (hf : f.natDegree ≤ 2 * n + 1) :
    ∑ k, c * (V 0 k) ^ 2 * f.eval (D k) = L f := by
  have hb' : ∀ k, 1 ≤ k → k ≤ n → 0 < (ab k).2 := fun k h1 h2 => hb k h1 (by omega)
  have key := exact_odd ab n n le_rfl hb (qsum (fun k => c * (V 0 k) ^ 2) D) L ?_ ?_ ?_ f (by omega)
  · rw [qsum_apply] at key; exact key
  · intro i hi
    rw [qsum_apply]
    have h1 := discrete_orthonormal ab n hb' D V h i 0 (by omega) (by omega)
    have h2 := hL i 0 hi (by omega)
    simp only [opoly, eval_one, mul_one] at h1 h2
    rw [h2]
    have : ∑ k, c * (V 0 k) ^ 2 * (opoly ab i).eval (D k) =
        c * ∑ k, (V 0 k) ^ 2 * (opoly ab i).eval (D k) := by
      rw [mul_sum]; exact sum_congr rfl fun k _ => by ring
    rw [this, h1]
    split_ifs <;> simp
  · intro i hi
    rw [qsum_apply]
    apply sum_eq_zero
    intro k _
    rw [eval_mul, nodes_are_roots ab n hb D V h k, mul_zero, mul_zero]
  · intro i hi
    rw [hL i (n + 1) hi le_rfl, if_neg (by omega)]

/-- Nodes are above `t` whenever the functional is positive on `(x - t) q²`. -/
theorem node_sign (ab : Table) (n : ℕ) (hb : ∀ k, 1 ≤ k → k ≤ n + 1 → 0 < (ab k).2)
    (D : Fin (n + 1) → ℝ) (V : Matrix (Fin (n + 1)) (Fin (n + 1)) ℝ)
    (h : EighContract (jacobiMatrix ab (n + 1)) D V) (c : ℝ) (hc : 0 < c) (L : ℝ[X] →ₗ[ℝ] ℝ)
    (hL : ∀ i j, i ≤ n → j ≤ n + 1 → L (opoly ab i * opoly ab j) = if i = j then c else 0)
    (g : ℝ[X]) (hg : g.natDegree ≤ 1)
    (hpos : ∀ q : ℝ[X], q ≠ 0 → 0 < L (g * (q * q))) (k : Fin (n + 1)) : 0 < g.eval (D k) := by
  have hb' : ∀ k, 1 ≤ k → k ≤ n → 0 < (ab k).2 := fun k h1 h2 => hb k h1 (by omega)
  have G := gaussFacts ab n hb' D V h
  let q : ℝ[X] := ∏ j ∈ univ.erase k, (X - C (D j))
  have hqm : q.Monic := monic_prod_of_monic _ _ fun j _ => monic_X_sub_C _
  have hqd : q.natDegree = n := by
    rw [natDegree_prod_of_monic _ _ fun j _ => monic_X_sub_C _]
    simp
  have hdeg : (g * (q * q)).natDegree ≤ 2 * n + 1 := by
    refine natDegree_mul_le.trans ?_
    have : (q * q).natDegree ≤ n + n := natDegree_mul_le.trans (by omega)
    omega
  have hex := gauss_exact ab n hb D V h c L hL _ hdeg
  have hsum : ∑ j, c * (V 0 j) ^ 2 * (g * (q * q)).eval (D j) =
      c * (V 0 k) ^ 2 * (g * (q * q)).eval (D k) := by
    apply sum_eq_single k
    · intro j _ hj
      have : q.eval (D j) = 0 := by
        rw [eval_prod]
        exact prod_eq_zero (mem_erase.mpr ⟨hj, mem_univ j⟩) (by simp)
      simp [eval_mul, this]
    · simp
  have hp := hpos q hqm.ne_zero
  rw [← hex, hsum, eval_mul, eval_mul] at hp
  by_contra hle
  push Not at hle
  have : c * (V 0 k) ^ 2 * (g.eval (D k) * (q.eval (D k) * q.eval (D k))) ≤ 0 := by
    apply mul_nonpos_of_nonneg_of_nonpos (by positivity)
    exact mul_nonpos_of_nonpos_of_nonneg hle (mul_self_nonneg _)
  linarith

/-- The monic polynomial is the product over the nodes. -/
theorem mpoly_eq_prod (ab : Table) (n : ℕ) (hb : ∀ k, 1 ≤ k → k ≤ n + 1 → 0 < (ab k).2)
    (D : Fin (n + 1) → ℝ) (V : Matrix (Fin (n + 1)) (Fin (n + 1)) ℝ)
    (h : EighContract (jacobiMatrix ab (n + 1)) D V) :
    mpoly ab (n + 1) = ∏ k, (X - C (D k)) := by
  have hb' : ∀ k, 1 ≤ k → k ≤ n → 0 < (ab k).2 := fun k h1 h2 => hb k h1 (by omega)
  have G := gaussFacts ab n hb' D V h
  obtain ⟨hm, hd⟩ := mpoly_monic ab (n + 1)
  have hpm : (∏ k, (X - C (D k))).Monic := monic_prod_of_monic _ _ fun j _ => monic_X_sub_C _
  have hpd : (∏ k, (X - C (D k))).natDegree = n + 1 := by
    rw [natDegree_prod_of_monic _ _ fun j _ => monic_X_sub_C _]
    simp
  have hdm : (mpoly ab (n + 1)).degree = ((n + 1 : ℕ) : WithBot ℕ) := by
    rw [degree_eq_natDegree hm.ne_zero, hd]
  have hdp : (∏ k, (X - C (D k))).degree = ((n + 1 : ℕ) : WithBot ℕ) := by
    rw [degree_eq_natDegree hpm.ne_zero, hpd]
  apply eq_of_degree_le_of_eval_index_eq (s := univ) (v := D) G.strict.injective.injOn
  · rw [hdm]; simp
  · rw [hdm, hdp]
  · rw [hm.leadingCoeff, hpm.leadingCoeff]
  · intro k _
    rw [mpoly_opoly ab (n + 1) hb, eval_mul, nodes_are_roots ab n hb D V h k, mul_zero, eval_prod]
    exact (prod_eq_zero (mem_univ k) (by simp)).symm

/-- A functional for which the table's polynomials are orthogonal with equal squares `c`. -/
def Orth (ab : Table) (m : ℕ) (c : ℝ) (L : ℝ[X] →ₗ[ℝ] ℝ) : Prop :=
  ∀ i j, i ≤ m → j ≤ m → L (opoly ab i * opoly ab j) = if i = j then c else 0

/-- Signs of the monic polynomials at the ends of the support. -/
theorem mpoly_sign (ab : Table) (m : ℕ) (hb : ∀ k, 1 ≤ k → k ≤ m → 0 < (ab k).2)
    (c : ℝ) (hc : 0 < c) (L : ℝ[X] →ₗ[ℝ] ℝ) (hL : Orth ab m c L) (l u : ℝ)
    (hl : ∀ q : ℝ[X], q ≠ 0 → 0 < L ((X - C l) * (q * q)))
    (hu : ∀ q : ℝ[X], q ≠ 0 → 0 < L ((C u - X) * (q * q))) (n : ℕ) (hn : n ≤ m) :
    0 < (mpoly ab n).eval u ∧ 0 < (-1) ^ n * (mpoly ab n).eval l := by
  cases n with
  | zero => simp [mpoly]
  | succ n =>
    obtain ⟨D, V, hE⟩ := eigh_exists (jacobiMatrix ab (n + 1)) (jacobiMatrix_symm _ _)
    have hbn : ∀ k, 1 ≤ k → k ≤ n + 1 → 0 < (ab k).2 := fun k h1 h2 => hb k h1 (by omega)
    have hL' : ∀ i j, i ≤ n → j ≤ n + 1 → L (opoly ab i * opoly ab j) = if i = j then c else 0 :=
      fun i j hi hj => hL i j (by omega) (by omega)
    have h1 : ∀ k, l < D k := fun k => by
      have := node_sign ab n hbn D V hE c hc L hL' (X - C l) (by simp) hl k
      simpa using this
    have h2 : ∀ k, D k < u := fun k => by
      have := node_sign ab n hbn D V hE c hc L hL' (C u - X)
        ((natDegree_sub_le _ _).trans (by simp)) hu k
      simpa using this
    rw [mpoly_eq_prod ab n hbn D V hE, eval_prod, eval_prod]
    constructor
    · apply prod_pos
      intro k _
      simpa using h2 k
    · have e : ((-1 : ℝ)) ^ (n + 1) * ∏ k, (X - C (D k)).eval l = ∏ k, (D k - l) := by
        have : ((-1 : ℝ)) ^ (n + 1) = ∏ _k : Fin (n + 1), (-1 : ℝ) := by simp
        rw [this, ← prod_mul_distrib]
        apply prod_congr rfl
        intro k _
        simp
      rw [e]
      apply prod_pos
      intro k _
      linarith [h1 k]

end EQ.Param
