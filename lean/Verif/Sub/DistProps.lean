import Verif.Sub.Model

/-!
# C98: the distance between subspaces
-/

namespace EQ.Sub
open EQ.Basis Matrix
open scoped Matrix.Norms.L2Operator

variable {m j k l : ℕ}

/-- The span of the columns. -/
def ColSpan (U : Matrix (Fin m) (Fin j) ℝ) : Set (Fin m → ℝ) := {y | ∃ a, y = U *ᵥ a}

lemma proj_sq {U : Matrix (Fin m) (Fin j) ℝ} (hU : Uᵀ * U = 1) : (U * Uᵀ) * (U * Uᵀ) = U * Uᵀ := by
  rw [Matrix.mul_assoc, ← Matrix.mul_assoc Uᵀ, hU, Matrix.one_mul]

lemma proj_symm (U : Matrix (Fin m) (Fin j) ℝ) : (U * Uᵀ)ᵀ = U * Uᵀ := by
  rw [Matrix.transpose_mul, Matrix.transpose_transpose]

lemma mulVec_dot (P : Matrix (Fin m) (Fin m) ℝ) (x y : Fin m → ℝ) : (P *ᵥ x) ⬝ᵥ y = x ⬝ᵥ (Pᵀ *ᵥ y) := by
  rw [Matrix.mulVec_transpose, dotProduct_comm, dotProduct_comm x, Matrix.dotProduct_mulVec]

/-- A projection does not lengthen, and the squared lengths of the two parts add up. -/
lemma proj_pyth {P : Matrix (Fin m) (Fin m) ℝ} (h1 : P * P = P) (h2 : Pᵀ = P) (x : Fin m → ℝ) :
    (P *ᵥ x) ⬝ᵥ (P *ᵥ x) + (x - P *ᵥ x) ⬝ᵥ (x - P *ᵥ x) = x ⬝ᵥ x := by
  have h : (P *ᵥ x) ⬝ᵥ (P *ᵥ x) = x ⬝ᵥ (P *ᵥ x) := by
    rw [mulVec_dot, h2, Matrix.mulVec_mulVec, h1]
  have h' : (P *ᵥ x) ⬝ᵥ x = x ⬝ᵥ (P *ᵥ x) := dotProduct_comm _ _
  rw [sub_dotProduct, dotProduct_sub, dotProduct_sub, h, h']
  ring

lemma dot_self_nonneg (x : Fin m → ℝ) : 0 ≤ x ⬝ᵥ x := Finset.sum_nonneg fun _ _ => mul_self_nonneg _

/-- The difference of two projections does not lengthen. -/
lemma proj_sub_le {P Q : Matrix (Fin m) (Fin m) ℝ} (hP : P * P = P) (hP' : Pᵀ = P) (hQ : Q * Q = Q) (hQ' : Qᵀ = Q)
    (x : Fin m → ℝ) : ((P - Q) *ᵥ x) ⬝ᵥ ((P - Q) *ᵥ x) ≤ x ⬝ᵥ x := by
  set a := P *ᵥ x with ha
  set b := x - P *ᵥ x with hb
  have hdec : (P - Q) *ᵥ x = (a - Q *ᵥ a) - Q *ᵥ b := by
    rw [hb, Matrix.mulVec_sub, Matrix.sub_mulVec]
    abel
  have horth : (a - Q *ᵥ a) ⬝ᵥ (Q *ᵥ b) = 0 := by
    have h0 : Q *ᵥ (Q *ᵥ a) = Q *ᵥ a := by rw [Matrix.mulVec_mulVec, hQ]
    rw [dotProduct_comm, mulVec_dot, hQ', Matrix.mulVec_sub, h0, sub_self, dotProduct_zero]
  have horth' : (Q *ᵥ b) ⬝ᵥ (a - Q *ᵥ a) = 0 := by rw [dotProduct_comm]; exact horth
  have h1 := proj_pyth hQ hQ' a
  have h2 := proj_pyth hQ hQ' b
  have h3 := proj_pyth hP hP' x
  have h4 := dot_self_nonneg (Q *ᵥ a)
  have h5 := dot_self_nonneg (b - Q *ᵥ b)
  have h6 : ∀ v w : Fin m → ℝ, v ⬝ᵥ w = 0 → w ⬝ᵥ v = 0 → (v - w) ⬝ᵥ (v - w) = v ⬝ᵥ v + w ⬝ᵥ w := by
    intro v w h h'
    rw [sub_dotProduct, dotProduct_sub, dotProduct_sub, h, h']; ring
  rw [hdec, h6 _ _ horth horth']
  linarith

/-- Orthonormal bases span the same space exactly if their projections agree. -/
lemma span_eq_iff {U : Matrix (Fin m) (Fin j) ℝ} {V : Matrix (Fin m) (Fin k) ℝ} (hU : Uᵀ * U = 1) (hV : Vᵀ * V = 1) :
    U * Uᵀ = V * Vᵀ ↔ ColSpan U = ColSpan V := by
  have hsub : ∀ {a b : ℕ} {A : Matrix (Fin m) (Fin a) ℝ} {B : Matrix (Fin m) (Fin b) ℝ}, Aᵀ * A = 1 → A * Aᵀ = B * Bᵀ →
      ColSpan A ⊆ ColSpan B := by
    rintro a b A B hA hAB y ⟨c, rfl⟩
    refine ⟨Bᵀ *ᵥ (A *ᵥ c), ?_⟩
    rw [Matrix.mulVec_mulVec, ← hAB, Matrix.mulVec_mulVec, Matrix.mul_assoc, hA, Matrix.mul_one]
  have hfix : ∀ {a b : ℕ} {A : Matrix (Fin m) (Fin a) ℝ} {B : Matrix (Fin m) (Fin b) ℝ}, Bᵀ * B = 1 → ColSpan A ⊆ ColSpan B →
      B * Bᵀ * A = A := by
    intro a b A B hB hAB
    ext i c
    obtain ⟨d, hd⟩ := hAB ⟨Pi.single c 1, rfl⟩
    have h1 : A *ᵥ Pi.single c 1 = fun i => A i c := by
      funext i; simp
    have h2 : (B * Bᵀ * A) *ᵥ Pi.single c 1 = fun i => (B * Bᵀ * A) i c := by
      funext i; simp
    have h3 : (B * Bᵀ * A) *ᵥ Pi.single c 1 = A *ᵥ Pi.single c 1 := by
      rw [← Matrix.mulVec_mulVec, hd, Matrix.mulVec_mulVec, Matrix.mul_assoc, hB, Matrix.mul_one]
    rw [h1, h2] at h3
    exact congrFun h3 i
  constructor
  · intro h
    exact (hsub hU h).antisymm (hsub hV h.symm)
  · intro h
    have h1 : V * Vᵀ * (U * Uᵀ) = U * Uᵀ := by rw [← Matrix.mul_assoc, hfix hV h.subset]
    have h2 : U * Uᵀ * (V * Vᵀ) = V * Vᵀ := by rw [← Matrix.mul_assoc, hfix hU h.symm.subset]
    have h3 := congrArg Matrix.transpose h2
    rw [Matrix.transpose_mul, proj_symm, proj_symm] at h3
    rw [← h1, h3]

/-- **C98.** For all matrices with orthonormal columns the value of `subspace_dist` is non-negative, at most one, symmetric,
satisfies the triangle inequality, is zero exactly if the columns span the same space, and does not change when either
basis is replaced by an orthogonal combination of itself. -/
theorem c98_dist (U : Matrix (Fin m) (Fin j) ℝ) (V : Matrix (Fin m) (Fin k) ℝ) (X : Matrix (Fin m) (Fin l) ℝ)
    (hU : Uᵀ * U = 1) (hV : Vᵀ * V = 1) :
    0 ≤ subspaceDist U V ∧ subspaceDist U V ≤ 1 ∧ subspaceDist U V = subspaceDist V U ∧
    subspaceDist U X ≤ subspaceDist U V + subspaceDist V X ∧
    (subspaceDist U V = 0 ↔ ColSpan U = ColSpan V) ∧
    ∀ Q : Matrix (Fin j) (Fin j) ℝ, Q * Qᵀ = 1 → subspaceDist (U * Q) V = subspaceDist U V := by
  refine ⟨norm_nonneg _, ?_, norm_sub_rev _ _, norm_sub_le_norm_sub_add_norm_sub _ _ _, ?_, fun Q hQ => ?_⟩
  · unfold subspaceDist
    rw [Matrix.l2_opNorm_def]
    refine ContinuousLinearMap.opNorm_le_bound _ zero_le_one fun x => ?_
    rw [one_mul]
    have h := proj_sub_le (proj_sq hU) (proj_symm U) (proj_sq hV) (proj_symm V) x.ofLp
    have hn : ∀ y : EuclideanSpace ℝ (Fin m), ‖y‖ ^ 2 = y.ofLp ⬝ᵥ y.ofLp := by
      intro y
      rw [EuclideanSpace.norm_sq_eq]
      exact Finset.sum_congr rfl fun i _ => by rw [Real.norm_eq_abs, sq_abs, sq]
    refine (sq_le_sq₀ (norm_nonneg _) (norm_nonneg _)).1 ?_
    rw [hn, hn]
    exact h
  · unfold subspaceDist
    rw [norm_eq_zero, sub_eq_zero, span_eq_iff hU hV]
  · unfold subspaceDist
    rw [Matrix.transpose_mul, Matrix.mul_assoc, ← Matrix.mul_assoc Q, hQ, Matrix.one_mul]

/-- Two lines in the plane. -/
example : (Matrix.of ![![(3/5 : ℝ)], ![4/5]])ᵀ * (Matrix.of ![![(3/5 : ℝ)], ![4/5]]) = 1 ∧
    (Matrix.of ![![(1 : ℝ)], ![0]])ᵀ * (Matrix.of ![![(1 : ℝ)], ![0]]) = 1 := by
  constructor <;> ext i j <;> fin_cases i <;> fin_cases j <;> simp [Matrix.mul_apply, Fin.sum_univ_two] <;> norm_num

end EQ.Sub
