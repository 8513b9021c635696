import Verif.Sub.Model
import Mathlib.Data.Matrix.Basis
import Mathlib.LinearAlgebra.Matrix.NonsingularInverse
import Mathlib.LinearAlgebra.Matrix.Symmetric
import Mathlib.Algebra.BigOperators.Field
import Mathlib.Tactic.FinCases
import Mathlib.Tactic.Positivity

/-!
# C96, C97: active subspaces
-/

namespace EQ.Sub
open EQ.Basis Matrix

variable {d M N m : ℕ}

/-! ## Specification -/

/-- The derivative along `v` at point `p`, from the gradients (one column per point). -/
def dirDeriv (g : Matrix (Fin d) (Fin M) ℝ) (v : Fin d → ℝ) (p : Fin M) : ℝ := ∑ i, v i * g i p

/-- The mean over the points of the squared derivative along `v`. -/
noncomputable def meanSq (g : Matrix (Fin d) (Fin M) ℝ) (v : Fin d → ℝ) : ℝ := (∑ p, dirDeriv g v p ^ 2) / M

/-- What `numpy.linalg.eigh` promises: orthonormal eigenvectors in the columns, eigenvalues in ascending order. -/
def EighOK (C : Matrix (Fin d) (Fin d) ℝ) (e : Fin d → ℝ) (W : Matrix (Fin d) (Fin d) ℝ) : Prop :=
  Wᵀ * W = 1 ∧ C * W = W * diagonal e ∧ Monotone e

/-- What `argsort` promises: a permutation after which the values ascend. -/
def ArgsortOK (e : Fin d → ℝ) (idx : Fin d → Fin d) : Prop := Function.Bijective idx ∧ Monotone fun k => e (idx k)

/-! ## Quadratic forms and optimality -/

/-- The quadratic form of a matrix. -/
def quad (C : Matrix (Fin d) (Fin d) ℝ) (v : Fin d → ℝ) : ℝ := ∑ a, ∑ b, v a * C a b * v b

lemma quad_covariance (g : Matrix (Fin d) (Fin M) ℝ) (v : Fin d → ℝ) :
    quad (gradientCovariance g) v = meanSq g v := by
  have h1 : ∀ a b, v a * gradientCovariance g a b * v b = ∑ p, (v a * g a p) * (v b * g b p) * (1 / M) := by
    intro a b
    simp only [gradientCovariance, Matrix.mul_apply, Matrix.transpose_apply, Matrix.of_apply]
    rw [Finset.mul_sum, Finset.sum_mul]
    exact Finset.sum_congr rfl fun p _ => by ring
  have h2 : ∀ p, dirDeriv g v p ^ 2 = ∑ a, ∑ b, (v a * g a p) * (v b * g b p) := by
    intro p; rw [dirDeriv, sq, Finset.sum_mul_sum]
  unfold quad meanSq
  simp only [h1, h2]
  rw [div_eq_mul_one_div (∑ x, ∑ a, ∑ b, v a * g a x * (v b * g b x)), Finset.sum_mul]
  simp only [Finset.sum_mul]
  calc _ = ∑ a, ∑ p, ∑ b, (v a * g a p) * (v b * g b p) * (1 / (M : ℝ)) :=
        Finset.sum_congr rfl fun a _ => Finset.sum_comm
    _ = _ := Finset.sum_comm

/-- The form at an eigenvector is its eigenvalue. -/
lemma quad_eigen {C V : Matrix (Fin d) (Fin d) ℝ} {l : Fin d → ℝ} (hV : Vᵀ * V = 1) (hC : C * V = V * diagonal l)
    (k : Fin d) : quad C (fun i => V i k) = l k := by
  have h1 : (Vᵀ * (C * V)) k k = l k := by
    rw [hC, ← Matrix.mul_assoc, hV, Matrix.one_mul, Matrix.diagonal_apply_eq]
  rw [← h1, Matrix.mul_apply]
  unfold quad
  refine Finset.sum_congr rfl fun a _ => ?_
  rw [Matrix.transpose_apply, Matrix.mul_apply, Finset.mul_sum]
  exact Finset.sum_congr rfl fun b _ => by ring

/-- The form in eigenvector coordinates. -/
lemma quad_coords {C V : Matrix (Fin d) (Fin d) ℝ} {l : Fin d → ℝ} (hV : Vᵀ * V = 1) (hC : C * V = V * diagonal l)
    (v : Fin d → ℝ) : quad C v = ∑ k, l k * (∑ i, V i k * v i) ^ 2 := by
  have hV' : V * Vᵀ = 1 := mul_eq_one_comm.1 hV
  have hCd : C = V * diagonal l * Vᵀ := by
    rw [← hC, Matrix.mul_assoc, hV', Matrix.mul_one]
  have hC' : ∀ a b, C a b = ∑ k, V a k * l k * V b k := by
    intro a b
    rw [hCd, Matrix.mul_apply]
    refine Finset.sum_congr rfl fun k _ => ?_
    rw [Matrix.mul_diagonal, Matrix.transpose_apply]
  have h2 : ∀ k, l k * (∑ i, V i k * v i) ^ 2 = ∑ a, ∑ b, v a * (V a k * l k * V b k) * v b := by
    intro k
    rw [sq, Finset.sum_mul_sum, Finset.mul_sum]
    refine Finset.sum_congr rfl fun a _ => ?_
    rw [Finset.mul_sum]
    exact Finset.sum_congr rfl fun b _ => by ring
  unfold quad
  simp only [h2, hC', Finset.mul_sum, Finset.sum_mul]
  calc _ = ∑ a, ∑ k, ∑ b, v a * (V a k * l k * V b k) * v b := Finset.sum_congr rfl fun a _ => Finset.sum_comm
    _ = _ := Finset.sum_comm

/-- Rows of a matrix with orthonormal columns have norm at most one. -/
lemma row_le_one {j : ℕ} {B : Matrix (Fin d) (Fin j) ℝ} (hB : Bᵀ * B = 1) (k : Fin d) : ∑ c, B k c ^ 2 ≤ 1 := by
  have hP : (B * Bᵀ) * (B * Bᵀ) = B * Bᵀ := by
    rw [Matrix.mul_assoc, ← Matrix.mul_assoc Bᵀ, hB, Matrix.one_mul]
  have hsym : ∀ a b, (B * Bᵀ) a b = (B * Bᵀ) b a := by
    intro a b
    simp only [Matrix.mul_apply, Matrix.transpose_apply]
    exact Finset.sum_congr rfl fun c _ => mul_comm _ _
  have h1 : (B * Bᵀ) k k = ∑ c, B k c ^ 2 := by
    simp only [Matrix.mul_apply, Matrix.transpose_apply, sq]
  have h2 : (B * Bᵀ) k k = ∑ a, (B * Bᵀ) k a ^ 2 := by
    conv_lhs => rw [← hP, Matrix.mul_apply]
    exact Finset.sum_congr rfl fun a _ => by rw [hsym a k, sq]
  have h3 : (B * Bᵀ) k k ^ 2 ≤ (B * Bᵀ) k k := by
    conv_rhs => rw [h2]
    exact Finset.single_le_sum (f := fun a => (B * Bᵀ) k a ^ 2) (fun a _ => sq_nonneg _) (Finset.mem_univ k)
  rw [← h1]
  nlinarith

/-- Ky Fan: no `j` orthonormal directions have a larger sum than the first `j` eigenvectors. -/
lemma ky_fan {C V : Matrix (Fin d) (Fin d) ℝ} {l : Fin d → ℝ} (hV : Vᵀ * V = 1) (hC : C * V = V * diagonal l)
    (hl : Antitone l) {j : ℕ} (hj : j ≤ d) (U : Matrix (Fin d) (Fin j) ℝ) (hU : Uᵀ * U = 1) :
    ∑ c, quad C (fun i => U i c) ≤ ∑ k : Fin j, l (Fin.castLE hj k) := by
  set B : Matrix (Fin d) (Fin j) ℝ := Vᵀ * U with hBdef
  have hB : Bᵀ * B = 1 := by
    rw [hBdef, Matrix.transpose_mul, Matrix.transpose_transpose, Matrix.mul_assoc, ← Matrix.mul_assoc V, mul_eq_one_comm.1 hV,
      Matrix.one_mul, hU]
  set p : Fin d → ℝ := fun k => ∑ c, B k c ^ 2 with hp
  have hp1 : ∀ k, p k ≤ 1 := fun k => row_le_one hB k
  have hp0 : ∀ k, 0 ≤ p k := fun k => Finset.sum_nonneg fun c _ => sq_nonneg _
  have hpsum : ∑ k, p k = j := by
    rw [hp, Finset.sum_comm]
    have : ∀ c, ∑ k, B k c ^ 2 = 1 := by
      intro c
      have := congrFun (congrFun hB c) c
      rw [Matrix.mul_apply, Matrix.one_apply_eq] at this
      rw [← this]
      exact Finset.sum_congr rfl fun k _ => by rw [Matrix.transpose_apply, sq]
    simp [this]
  have hlhs : ∑ c, quad C (fun i => U i c) = ∑ k, l k * p k := by
    simp only [quad_coords hV hC]
    rw [Finset.sum_comm]
    refine Finset.sum_congr rfl fun k _ => ?_
    rw [← Finset.mul_sum]
    rfl
  rw [hlhs]
  rcases Nat.eq_zero_or_pos j with rfl | hjpos
  · have : ∀ k, p k = 0 := fun k => by simp [hp]
    simp [this]
  · set mu := l ⟨j - 1, by omega⟩ with hmu
    have hsplit : ∀ f : Fin d → ℝ, ∑ k : Fin j, f (Fin.castLE hj k) = ∑ k, if k.val < j then f k else 0 := by
      intro f
      rw [← Finset.sum_filter]
      refine Finset.sum_bij (fun k _ => Fin.castLE hj k) ?_ ?_ ?_ ?_
      · intro k _; simp
      · intro a _ b _ h; exact Fin.castLE_injective hj h
      · intro k hk
        rw [Finset.mem_filter] at hk
        exact ⟨⟨k.val, hk.2⟩, Finset.mem_univ _, rfl⟩
      · intro k _; rfl
    rw [hsplit]
    have hcount : ∑ k : Fin d, (if k.val < j then (1 : ℝ) else 0) = j := by
      rw [← hsplit fun _ => 1]; simp
    have hkey : ∀ k, l k * p k - (if k.val < j then l k else 0) ≤ mu * (p k - if k.val < j then 1 else 0) := by
      intro k
      by_cases hk : k.val < j
      · rw [if_pos hk, if_pos hk]
        have : mu ≤ l k := hl (show k ≤ ⟨j - 1, _⟩ from Fin.mk_le_mk.2 (by omega) : k ≤ _)
        nlinarith [hp1 k]
      · rw [if_neg hk, if_neg hk]
        have : l k ≤ mu := hl (Fin.mk_le_mk.2 (by omega) : (⟨j - 1, by omega⟩ : Fin d) ≤ k)
        nlinarith [hp0 k]
    have hsum := Finset.sum_le_sum fun k (_ : k ∈ Finset.univ) => hkey k
    rw [Finset.sum_sub_distrib, ← Finset.mul_sum, Finset.sum_sub_distrib, hpsum, hcount, sub_self, mul_zero] at hsum
    linarith

/-- Reordering eigenpairs. -/
lemma perm_orth {W : Matrix (Fin d) (Fin d) ℝ} (hW : Wᵀ * W = 1) {s : Fin d → Fin d} (hs : Function.Injective s) :
    (Matrix.of fun i k => W i (s k))ᵀ * (Matrix.of fun i k => W i (s k)) = 1 := by
  ext a b
  have h := congrFun (congrFun hW (s a)) (s b)
  rw [Matrix.mul_apply] at h ⊢
  rw [show ∑ i, (Matrix.of fun i k => W i (s k))ᵀ a i * (Matrix.of fun i k => W i (s k)) i b = ∑ i, Wᵀ (s a) i * W i (s b) from rfl,
    h]
  by_cases hab : a = b
  · rw [hab, Matrix.one_apply_eq, Matrix.one_apply_eq]
  · rw [Matrix.one_apply_ne hab, Matrix.one_apply_ne fun h => hab (hs h)]

lemma perm_eigen {C W : Matrix (Fin d) (Fin d) ℝ} {e : Fin d → ℝ} (hC : C * W = W * diagonal e) (s : Fin d → Fin d) :
    C * (Matrix.of fun i k => W i (s k)) = (Matrix.of fun i k => W i (s k)) * diagonal fun k => e (s k) := by
  ext a b
  have h := congrFun (congrFun hC a) (s b)
  rw [Matrix.mul_diagonal] at h ⊢
  rw [Matrix.mul_apply] at h ⊢
  exact h

/-- **C96.** For every set of gradients and whatever the eigensolver and the sort choose within their contracts: the
directions are orthonormal; the eigenvalues descend and are non-negative; eigenvalue `k` is the mean of the squared
derivative along direction `k`; if it is zero the derivative along the direction vanishes at every point; and for every
`j` no set of `j` orthonormal directions has a larger sum of mean squared derivatives than the first `j` returned. -/
theorem c96_active (hM : 0 < M) (g : Matrix (Fin d) (Fin M) ℝ) (e : Fin d → ℝ) (W : Matrix (Fin d) (Fin d) ℝ)
    (idx : Fin d → Fin d) (he : EighOK (gradientCovariance g) e W) (hi : ArgsortOK e idx) :
    (activeSubspace e W idx).2ᵀ * (activeSubspace e W idx).2 = 1 ∧ Antitone (activeSubspace e W idx).1 ∧
    (∀ k, (activeSubspace e W idx).1 k = meanSq g fun i => (activeSubspace e W idx).2 i k) ∧
    (∀ k, 0 ≤ (activeSubspace e W idx).1 k) ∧
    (∀ k, (activeSubspace e W idx).1 k = 0 → ∀ p, dirDeriv g (fun i => (activeSubspace e W idx).2 i k) p = 0) ∧
    ∀ (j : ℕ) (hj : j ≤ d) (U : Matrix (Fin d) (Fin j) ℝ), Uᵀ * U = 1 →
      ∑ c, meanSq g (fun i => U i c) ≤ ∑ k : Fin j, (activeSubspace e W idx).1 (Fin.castLE hj k) := by
  have hMr : (0 : ℝ) < M := by exact_mod_cast hM
  have hinj : Function.Injective fun k : Fin d => idx k.rev := fun a b h => Fin.rev_injective (hi.1.1 h)
  have hV := perm_orth he.1 hinj
  have hC := perm_eigen he.2.1 fun k : Fin d => idx k.rev
  have hl : Antitone fun k : Fin d => e (idx k.rev) := fun a b hab => hi.2 (Fin.rev_le_rev.2 hab)
  have hmean : ∀ k : Fin d, e (idx k.rev) = meanSq g fun i => W i (idx k.rev) := by
    intro k
    rw [← quad_covariance]
    exact (quad_eigen hV hC k).symm
  have hnn : ∀ v, 0 ≤ meanSq g v := fun v => div_nonneg (Finset.sum_nonneg fun p _ => sq_nonneg _) hMr.le
  refine ⟨hV, hl, hmean, fun k => (hmean k).ge.trans' (hnn _), fun k hk p => ?_, fun j hj U hU => ?_⟩
  · have h1 : meanSq g (fun i => W i (idx k.rev)) = 0 := by rw [← hmean k]; exact hk
    unfold meanSq at h1
    rw [div_eq_zero_iff, or_iff_left hMr.ne'] at h1
    have h2 := (Finset.sum_eq_zero_iff_of_nonneg fun p _ => sq_nonneg _).1 h1 p (Finset.mem_univ p)
    exact pow_eq_zero_iff two_ne_zero |>.1 h2
  · simp only [← quad_covariance]
    exact ky_fan hV hC hl hj U hU

lemma demoEigh : EighOK (gradientCovariance (Matrix.of ![![(1 : ℝ), 1], ![0, 0]])) ![0, 1] (Matrix.of ![![0, 1], ![1, 0]]) := by
  refine ⟨?_, ?_, ?_⟩
  · ext i j; fin_cases i <;> fin_cases j <;> simp [Matrix.mul_apply, Fin.sum_univ_two]
  · ext i j
    fin_cases i <;> fin_cases j <;>
      simp [gradientCovariance, Matrix.mul_apply, Fin.sum_univ_two, Matrix.diagonal, Matrix.vecHead, Matrix.vecTail] <;>
        norm_num
  · intro a b h
    fin_cases a <;> fin_cases b <;> simp at h ⊢

/-- Two points in two dimensions with gradients `(1,0)` and `(1,0)`: the contracts are met and the leading direction is the
first axis. -/
example : EighOK (gradientCovariance (Matrix.of ![![(1 : ℝ), 1], ![0, 0]])) ![0, 1] (Matrix.of ![![0, 1], ![1, 0]]) ∧
    ArgsortOK ![(0 : ℝ), 1] id :=
  ⟨demoEigh, Function.bijective_id, demoEigh.2.2⟩

/-! ## Several outputs -/

/-- The mean over the samples of the weighted sum of products of derivatives along `v`. -/
noncomputable def weightedMeanSq (R : Matrix (Fin m) (Fin m) ℝ) (g : Fin m → Matrix (Fin d) (Fin N) ℝ) (v : Fin d → ℝ) : ℝ :=
  (∑ p, ∑ a, ∑ b, R a b * dirDeriv (g a) v p * dirDeriv (g b) v p) / N

/-- What `scipy.linalg.sqrtm` promises for a symmetric positive semidefinite matrix. -/
def SqrtmOK (R S : Matrix (Fin m) (Fin m) ℝ) : Prop := Sᵀ = S ∧ S * S = R

lemma quad_vector {R S : Matrix (Fin m) (Fin m) ℝ} (hS : SqrtmOK R S) (g : Fin m → Matrix (Fin d) (Fin N) ℝ) (v : Fin d → ℝ) :
    quad (vectorCovariance S (jacobianVec g)) v = weightedMeanSq R g v := by
  -- one sample
  have hone : ∀ p : Fin N, ∑ a, ∑ b, v a * (((S * Matrix.of fun q i => g q i p)ᵀ * (S * Matrix.of fun q i => g q i p)) a b) * v b =
      ∑ a, ∑ b, R a b * dirDeriv (g a) v p * dirDeriv (g b) v p := by
    intro p
    set J : Matrix (Fin m) (Fin d) ℝ := Matrix.of fun q i => g q i p with hJ
    have hprod : (S * J)ᵀ * (S * J) = Jᵀ * (R * J) := by
      rw [Matrix.transpose_mul, hS.1, Matrix.mul_assoc, ← Matrix.mul_assoc S S, hS.2]
    rw [hprod]
    have hentry : ∀ a b, (Jᵀ * (R * J)) a b = ∑ x, ∑ y, g x a p * (R x y * g y b p) := by
      intro a b
      rw [Matrix.mul_apply]
      refine Finset.sum_congr rfl fun x _ => ?_
      rw [Matrix.mul_apply, Finset.mul_sum]
      rfl
    have hr : ∀ x y, R x y * dirDeriv (g x) v p * dirDeriv (g y) v p = ∑ a, ∑ b, v a * (g x a p * (R x y * g y b p)) * v b := by
      intro x y
      rw [dirDeriv, dirDeriv, mul_assoc, Finset.sum_mul_sum, Finset.mul_sum]
      refine Finset.sum_congr rfl fun a _ => ?_
      rw [Finset.mul_sum]
      exact Finset.sum_congr rfl fun b _ => by ring
    simp only [hentry, hr, Finset.mul_sum, Finset.sum_mul]
    calc _ = ∑ a, ∑ x, ∑ b, ∑ y, v a * (g x a p * (R x y * g y b p)) * v b :=
          Finset.sum_congr rfl fun a _ => Finset.sum_comm
      _ = ∑ x, ∑ a, ∑ b, ∑ y, v a * (g x a p * (R x y * g y b p)) * v b := Finset.sum_comm
      _ = ∑ x, ∑ a, ∑ y, ∑ b, v a * (g x a p * (R x y * g y b p)) * v b :=
          Finset.sum_congr rfl fun x _ => Finset.sum_congr rfl fun a _ => Finset.sum_comm
      _ = _ := Finset.sum_congr rfl fun x _ => Finset.sum_comm
  unfold quad weightedMeanSq
  simp only [← hone]
  have h1 : ∀ a b, v a * vectorCovariance S (jacobianVec g) a b * v b =
      (∑ p, v a * (((S * Matrix.of fun q i => g q i p)ᵀ * (S * Matrix.of fun q i => g q i p)) a b) * v b) / N := by
    intro a b
    unfold vectorCovariance jacobianVec
    simp only
    rw [mul_div_assoc', div_mul_eq_mul_div, Finset.mul_sum, Finset.sum_mul]
  simp only [h1, ← Finset.sum_div]
  congr 1
  calc _ = ∑ a, ∑ p, ∑ b, v a * (((S * Matrix.of fun q i => g q i p)ᵀ * (S * Matrix.of fun q i => g q i p)) a b) * v b :=
        Finset.sum_congr rfl fun a _ => Finset.sum_comm
    _ = _ := Finset.sum_comm

/-- **C97 (partial).** With samples given: for every list of gradients and every weight matrix with a symmetric square
root, the directions are orthonormal, the eigenvalues descend, eigenvalue `k` is the mean of the weighted sum of squared
derivatives along direction `k`, and the first `j` directions are optimal among all `j` orthonormal ones. Without a weight
matrix the same holds for unit weights. -/
theorem c97_vector_partial (eigh : Matrix (Fin d) (Fin d) ℝ → (Fin d → ℝ) × Matrix (Fin d) (Fin d) ℝ)
    (sqrtm : Matrix (Fin m) (Fin m) ℝ → Matrix (Fin m) (Fin m) ℝ) (R : Matrix (Fin m) (Fin m) ℝ) (hS : SqrtmOK R (sqrtm R))
    (R' : Option (Matrix (Fin m) (Fin m) ℝ)) (hR : R' = some R ∨ R' = none ∧ R = 1)
    (g : Fin m → Matrix (Fin d) (Fin N) ℝ)
    (heigh : ∀ C, C = vectorCovariance (sqrtm R) (jacobianVec g) → EighOK C (eigh C).1 (eigh C).2) :
    ∃ l V, vectorAS eigh sqrtm R' (some g) = .ok (l, V) ∧ Vᵀ * V = 1 ∧ Antitone l ∧
      (∀ k, l k = weightedMeanSq R g fun i => V i k) ∧
      ∀ (j : ℕ) (hj : j ≤ d) (U : Matrix (Fin d) (Fin j) ℝ), Uᵀ * U = 1 →
        ∑ c, weightedMeanSq R g (fun i => U i c) ≤ ∑ k : Fin j, l (Fin.castLE hj k) := by
  set H := vectorCovariance (sqrtm R) (jacobianVec g) with hH
  obtain ⟨h1, h2, h3⟩ := heigh H rfl
  have hV := perm_orth h1 (s := fun k => k.rev) Fin.rev_injective
  have hC := perm_eigen h2 fun k : Fin d => k.rev
  have hl : Antitone fun k : Fin d => (eigh H).1 k.rev := fun a b hab => h3 (Fin.rev_le_rev.2 hab)
  have hrun : vectorAS eigh sqrtm R' (some g) = .ok (flipped (eigh H).1 (eigh H).2) := by
    rcases hR with rfl | ⟨rfl, rfl⟩ <;> rfl
  refine ⟨_, _, hrun, hV, hl, fun k => ?_, fun j hj U hU => ?_⟩
  · rw [← quad_vector hS]
    exact (quad_eigen hV hC k).symm
  · simp only [← quad_vector hS]
    exact ky_fan hV hC hl hj U hU

/-- **C97 (partial).** For one output and unit weight the matrix is that of the scalar method. -/
theorem c97_scalar_partial (S : Matrix (Fin 1) (Fin 1) ℝ) (hS : SqrtmOK 1 S) (g : Fin 1 → Matrix (Fin d) (Fin N) ℝ) :
    vectorCovariance S (jacobianVec g) = gradientCovariance (g 0) := by
  ext a b
  unfold vectorCovariance gradientCovariance jacobianVec
  simp only [Matrix.mul_apply, Matrix.transpose_apply, Fin.sum_univ_one, Matrix.of_apply]
  have h := congrFun (congrFun hS.2 0) 0
  rw [Matrix.mul_apply, Fin.sum_univ_one, Matrix.one_apply_eq] at h
  rw [Finset.sum_div]
  refine Finset.sum_congr rfl fun p _ => ?_
  have : S 0 0 * g 0 a p * (S 0 0 * g 0 b p) = (S 0 0 * S 0 0) * (g 0 a p * g 0 b p) := by ring
  rw [this, h]; ring

/-- The contracts of `c97_vector_partial` are met by one output with the gradients of the example above. -/
example : ∀ C, C = vectorCovariance (1 : Matrix (Fin 1) (Fin 1) ℝ) (jacobianVec fun _ => Matrix.of ![![(1 : ℝ), 1], ![0, 0]]) →
    EighOK C ![0, 1] (Matrix.of ![![0, 1], ![1, 0]]) := by
  rintro C rfl
  rw [c97_scalar_partial 1 ⟨by simp, by simp⟩]
  exact demoEigh

example : SqrtmOK (1 : Matrix (Fin 1) (Fin 1) ℝ) (-1) := ⟨by simp, by simp⟩
example : SqrtmOK (Matrix.of ![![(4 : ℝ), 0], ![0, 9]]) (Matrix.of ![![2, 0], ![0, 3]]) := by
  constructor <;> ext i j <;> fin_cases i <;> fin_cases j <;> simp [Matrix.mul_apply, Fin.sum_univ_two] <;> norm_num

/-- **C97 is false without samples**: the call always ends in an exception. -/
theorem c97_samples_violated (eigh : Matrix (Fin d) (Fin d) ℝ → (Fin d → ℝ) × Matrix (Fin d) (Fin d) ℝ)
    (sqrtm : Matrix (Fin m) (Fin m) ℝ → Matrix (Fin m) (Fin m) ℝ) (R : Option (Matrix (Fin m) (Fin m) ℝ)) :
    vectorAS (N := N) eigh sqrtm R none = .error .attributeError := rfl

end EQ.Sub
