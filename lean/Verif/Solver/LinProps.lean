import Verif.Solver.CGProps
import Mathlib.Analysis.InnerProductSpace.Projection.Basic
import Mathlib.Analysis.InnerProductSpace.Projection.FiniteDimensional
import Mathlib.Analysis.InnerProductSpace.PiL2
import Mathlib.Analysis.Convex.Function

/-!
# Constrained least squares, minimum norm, linear and convex programs (C43, C44, C48, C83, C84)
-/

namespace EQ.Solver
open Matrix EQ.Basis

/-- Sum of squares of the residuals of a system. -/
def sqRes {m n : ℕ} (A : Mat m n) (b : Vec m) (x : Vec n) : ℝ := ∑ i, (A.mulVec x i - b i) ^ 2

/-- What is assumed of `lstsq`: it minimises the sum of squares of the residuals, and no other
minimiser has a smaller norm. -/
def LstsqSpec (lstsq : Lstsq) : Prop := ∀ m n (A : Mat m n) b,
  (∀ z, sqRes A b (lstsq m n A b) ≤ sqRes A b z) ∧
  ∀ z, sqRes A b z ≤ sqRes A b (lstsq m n A b) → ∑ j, lstsq m n A b j ^ 2 ≤ ∑ j, z j ^ 2

/-- What is assumed of `np.linalg.qr(C.T, 'complete')`. -/
structure CompleteQR.Spec {n p : ℕ} (qr : CompleteQR n p) (C : Mat p n) : Prop where
  orth : qr.Qᵀ * qr.Q = 1
  mul : qr.Q * qr.R = Cᵀ
  upper : ∀ (i : Fin n) (j : Fin p), (j : ℕ) < (i : ℕ) → qr.R i j = 0

theorem sqRes_nonneg {m n : ℕ} (A : Mat m n) (b : Vec m) (x : Vec n) : 0 ≤ sqRes A b x :=
  Finset.sum_nonneg fun _ _ => sq_nonneg _

theorem sqRes_eq_zero {m n : ℕ} {A : Mat m n} {b : Vec m} {x : Vec n} :
    sqRes A b x = 0 ↔ A.mulVec x = b := by
  unfold sqRes
  rw [Finset.sum_eq_zero_iff_of_nonneg fun _ _ => sq_nonneg _]
  constructor
  · intro h; ext i
    have := h i (Finset.mem_univ _)
    exact sub_eq_zero.1 (pow_eq_zero_iff (two_ne_zero)|>.1 this)
  · intro h i _; rw [h]; simp

section nullspace
variable {n p : ℕ} (h : p ≤ n) (qr : CompleteQR n p) (C : Mat p n) (hqr : qr.Spec C)

/-- The triangular block of the method. -/
def lowerBlock : Mat p p := fun i j => qr.Rᵀ i (Fin.castLE h j)

theorem sum_split (f : Fin n → ℝ) :
    ∑ i, f i = ∑ j : Fin p, f (Fin.castLE h j) + ∑ j : Fin (n - p), f ⟨p + j, by omega⟩ := by
  have e : n = p + (n - p) := by omega
  rw [← Equiv.sum_comp (finCongr e).symm, Fin.sum_univ_add]
  rfl

include hqr in
theorem constraint_factor : C = lowerBlock h qr * (leftCols h qr.Q)ᵀ := by
  have : C = qr.Rᵀ * qr.Qᵀ := by rw [← transpose_mul, hqr.mul, transpose_transpose]
  ext i j
  rw [this, mul_apply, mul_apply, sum_split h]
  have hz : ∑ k : Fin (n - p), qr.Rᵀ i ⟨p + k, by omega⟩ * qr.Qᵀ ⟨p + k, by omega⟩ j = 0 := ?_
  · rw [hz, add_zero]; rfl
  apply Finset.sum_eq_zero
  intro k _
  rw [transpose_apply, hqr.upper _ _ (by simp; omega), zero_mul]

include hqr in
theorem left_orth : (leftCols h qr.Q)ᵀ * leftCols h qr.Q = 1 := by
  ext i j
  have := congrFun (congrFun hqr.orth (Fin.castLE h i)) (Fin.castLE h j)
  rw [mul_apply] at this ⊢
  rw [show (1 : Mat p p) i j = (1 : Mat n n) (Fin.castLE h i) (Fin.castLE h j) by
    simp [one_apply, Fin.ext_iff], ← this]
  rfl

include hqr in
theorem left_right : (leftCols h qr.Q)ᵀ * rightCols h qr.Q = 0 := by
  ext i j
  have := congrFun (congrFun hqr.orth (Fin.castLE h i)) ⟨p + j, by omega⟩
  rw [mul_apply] at this ⊢
  rw [one_apply_ne (by simp [Fin.ext_iff]; omega)] at this
  exact this

include hqr in
/-- Every vector is a combination of the two blocks of columns. -/
theorem split_vec (z : Vec n) : z = (leftCols h qr.Q).mulVec ((leftCols h qr.Q)ᵀ.mulVec z) +
    (rightCols h qr.Q).mulVec ((rightCols h qr.Q)ᵀ.mulVec z) := by
  have h1 : qr.Q * qr.Qᵀ = 1 := mul_eq_one_comm.1 hqr.orth
  have : z = (qr.Q * qr.Qᵀ).mulVec z := by rw [h1, one_mulVec]
  conv_lhs => rw [this, ← mulVec_mulVec]
  ext i
  rw [Pi.add_apply]
  simp only [mulVec, dotProduct]
  rw [sum_split h]
  rfl

end nullspace

/-- C43. For every constraint matrix `C` with linearly independent rows (no more rows than columns),
every `A`, `b`, `d`: the vector returned by the null-space method satisfies `C x = d` exactly, and
among all such vectors it minimises the sum of squares of the residuals of `A x = b`. -/
theorem c43_null_space {m n p : ℕ} (lstsq : Lstsq) (hl : LstsqSpec lstsq) (h : p ≤ n)
    (C : Mat p n) (hC : LinearIndependent ℝ C.row) (qr : CompleteQR n p) (hqr : qr.Spec C)
    (A : Mat m n) (b : Vec m) (d : Vec p) :
    C.mulVec (nullSpaceMethod lstsq qr h A b d) = d ∧
    ∀ z, C.mulVec z = d → sqRes A b (nullSpaceMethod lstsq qr h A b d) ≤ sqRes A b z := by
  set L := lowerBlock h qr with hL
  set Q1 := leftCols h qr.Q
  set Q2 := rightCols h qr.Q
  have hCf : C = L * Q1ᵀ := constraint_factor h qr C hqr
  have h11 : Q1ᵀ * Q1 = 1 := left_orth h qr C hqr
  have h12 : Q1ᵀ * Q2 = 0 := left_right h qr C hqr
  -- the triangular block is invertible
  have hLu : IsUnit L := by
    rw [← linearIndependent_rows_iff_isUnit]
    have hrow : C.row = (Q1ᵀ.vecMulLinear) ∘ L.row := by
      funext i
      rw [hCf]
      funext j
      rfl
    rw [hrow] at hC
    exact hC.of_comp _
  have hLdet : IsUnit L.det := (isUnit_iff_isUnit_det L).1 hLu
  set y1 := lstsq p p L d with hy1
  have hLy : L.mulVec y1 = d := by
    rw [← sqRes_eq_zero]
    apply le_antisymm _ (sqRes_nonneg _ _ _)
    have := (hl p p L d).1 (L⁻¹.mulVec d)
    have hz : sqRes L d (L⁻¹.mulVec d) = 0 :=
      sqRes_eq_zero.2 (by rw [mulVec_mulVec, mul_nonsing_inv _ hLdet, one_mulVec])
    rwa [hz] at this
  set c := b - (A * Q1).mulVec y1 with hc
  set y2 := lstsq m (n - p) (A * Q2) c with hy2
  have hx : nullSpaceMethod lstsq qr h A b d = Q1.mulVec y1 + Q2.mulVec y2 := rfl
  have hres : ∀ w, sqRes A b (Q1.mulVec y1 + Q2.mulVec w) = sqRes (A * Q2) c w := by
    intro w
    unfold sqRes
    refine Finset.sum_congr rfl fun i _ => ?_
    rw [mulVec_add, mulVec_mulVec, mulVec_mulVec, hc, Pi.add_apply, Pi.sub_apply]
    ring
  rw [hx]
  refine ⟨?_, fun z hz => ?_⟩
  · rw [hCf, mulVec_add, mulVec_mulVec, mulVec_mulVec, Matrix.mul_assoc, Matrix.mul_assoc, h11, h12,
      Matrix.mul_one, Matrix.mul_zero, zero_mulVec, add_zero, hLy]
  · have hz1 : Q1ᵀ.mulVec z = y1 := by
      have e : L.mulVec (Q1ᵀ.mulVec z) = L.mulVec y1 := by rw [mulVec_mulVec, ← hCf, hz, hLy]
      have := congrArg (fun v => L⁻¹.mulVec v) e
      rwa [mulVec_mulVec, mulVec_mulVec _ L⁻¹ L, nonsing_inv_mul _ hLdet, one_mulVec,
        one_mulVec] at this
    rw [split_vec h qr C hqr z, hz1, hres, hres]
    exact (hl _ _ _ _).1 _

/-- C43, `least-squares-with-gradients`: if there are at least as many value equations `A x = b` as
unknowns, the sum of squares of all residuals (values and gradients `C x = d`) is minimised; if there
are fewer and they are independent, they are satisfied exactly and the gradient residuals are
minimised subject to that. -/
theorem c43_constrained {m n k : ℕ} (lstsq : Lstsq) (hl : LstsqSpec lstsq) (A : Mat m n)
    (qr : CompleteQR n m) (hqr : qr.Spec A) (b : Vec m) (C : Mat k n) (d : Vec k) :
    (n ≤ m → ∀ z, sqRes A b (constrainedLeastSquares lstsq qr A b C d) +
        sqRes C d (constrainedLeastSquares lstsq qr A b C d) ≤ sqRes A b z + sqRes C d z) ∧
    (m < n → LinearIndependent ℝ A.row →
      A.mulVec (constrainedLeastSquares lstsq qr A b C d) = b ∧
      ∀ z, A.mulVec z = b → sqRes C d (constrainedLeastSquares lstsq qr A b C d) ≤ sqRes C d z) := by
  have hstack : ∀ z, sqRes (vstack A C) (vstackVec b d) z = sqRes A b z + sqRes C d z := by
    intro z
    unfold sqRes
    rw [Fin.sum_univ_add]
    congr 1
    · refine Finset.sum_congr rfl fun i _ => ?_
      congr 2
      · simp [mulVec, vstack]
      · simp [vstackVec]
    · refine Finset.sum_congr rfl fun i _ => ?_
      congr 2
      · simp [mulVec, vstack]
      · simp [vstackVec]
  constructor
  · intro h z
    unfold constrainedLeastSquares
    rw [dif_pos h, ← hstack, ← hstack]
    exact (hl _ _ _ _).1 z
  · intro h hA
    unfold constrainedLeastSquares
    rw [dif_neg (by omega)]
    exact c43_null_space lstsq hl h.le A hA qr hqr C d b

/-! The contracts can be met. -/

/-- Every linear system has a least-squares solution of least norm. -/
theorem exists_lstsqSpec {m n : ℕ} (A : Mat m n) (b : Vec m) : ∃ x,
    (∀ z, sqRes A b x ≤ sqRes A b z) ∧
    ∀ z, sqRes A b z ≤ sqRes A b x → ∑ j, x j ^ 2 ≤ ∑ j, z j ^ 2 := by
  let T : EuclideanSpace ℝ (Fin n) →ₗ[ℝ] EuclideanSpace ℝ (Fin m) := Matrix.toEuclideanLin A
  have hT : ∀ x : EuclideanSpace ℝ (Fin n), ∀ y : Vec m,
      sqRes A y x.ofLp = ‖T x - WithLp.toLp 2 y‖ ^ 2 := by
    intro x y
    rw [EuclideanSpace.norm_sq_eq]
    unfold sqRes
    refine Finset.sum_congr rfl fun i _ => ?_
    simp [T, Matrix.toLpLin_apply]
  have hn : ∀ x : EuclideanSpace ℝ (Fin n), ∑ j, x.ofLp j ^ 2 = ‖x‖ ^ 2 := by
    intro x; rw [EuclideanSpace.norm_sq_eq]; simp
  -- the projection of `b` on the range
  obtain ⟨p, hp, hperp⟩ : ∃ p ∈ LinearMap.range T, ∀ w ∈ LinearMap.range T,
      inner ℝ (WithLp.toLp 2 b - p) w = 0 := by
    have := (LinearMap.range T).exists_add_mem_mem_orthogonal (WithLp.toLp 2 b)
    obtain ⟨y, hy, z, hz, hyz⟩ := this
    refine ⟨y, hy, fun w hw => ?_⟩
    rw [hyz, add_sub_cancel_left, real_inner_comm]
    exact hz w hw
  obtain ⟨x0, hx0⟩ := hp
  -- the component orthogonal to the kernel
  obtain ⟨y, hy, x, hx, hyx⟩ := (LinearMap.ker T).exists_add_mem_mem_orthogonal x0
  have hTx : T x = p := by
    rw [← hx0, hyx, map_add, LinearMap.mem_ker.1 hy, zero_add]
  have hpy : ∀ z, ‖T z - WithLp.toLp 2 b‖ ^ 2 =
      ‖T z - p‖ ^ 2 + ‖T x - WithLp.toLp 2 b‖ ^ 2 := by
    intro z
    have e : T z - WithLp.toLp 2 b = (T z - p) - (WithLp.toLp 2 b - p) := by abel
    have h0 : inner ℝ (T z - p) (WithLp.toLp 2 b - p) = 0 := by
      rw [real_inner_comm]
      apply hperp
      rw [← hTx, ← map_sub]
      exact LinearMap.mem_range_self _ _
    rw [e, norm_sub_sq_real, h0, hTx, norm_sub_rev p]
    ring
  refine ⟨x.ofLp, fun z => ?_, fun z hz => ?_⟩
  · have := hpy (WithLp.toLp 2 z)
    rw [hT, show z = (WithLp.toLp 2 z).ofLp from rfl, hT, this]
    nlinarith [sq_nonneg ‖T (WithLp.toLp 2 z) - p‖]
  · rw [show z = (WithLp.toLp 2 z).ofLp from rfl, hT, hT, hpy] at hz
    have h0 : ‖T (WithLp.toLp 2 z) - p‖ ^ 2 = 0 := le_antisymm (by linarith) (sq_nonneg _)
    have hTz : T (WithLp.toLp 2 z) = p := sub_eq_zero.1 (norm_eq_zero.1 (pow_eq_zero_iff two_ne_zero |>.1 h0))
    have hker : WithLp.toLp 2 z - x ∈ LinearMap.ker T := by
      rw [LinearMap.mem_ker, map_sub, hTz, hTx, sub_self]
    have hin : inner ℝ (WithLp.toLp 2 z - x) x = 0 := hx _ hker
    rw [hn, show z = (WithLp.toLp 2 z).ofLp from rfl, hn]
    have : ‖WithLp.toLp 2 z‖ ^ 2 = ‖WithLp.toLp 2 z - x‖ ^ 2 + ‖x‖ ^ 2 := by
      conv_lhs => rw [show WithLp.toLp 2 z = (WithLp.toLp 2 z - x) + x by abel, norm_add_sq_real, hin]
      ring
    rw [this]
    nlinarith [sq_nonneg ‖WithLp.toLp 2 z - x‖]

theorem exists_lstsq_all : ∃ lstsq : Lstsq, LstsqSpec lstsq := by
  choose f hf using @exists_lstsqSpec
  exact ⟨fun m n A b => f A b, fun m n A b => hf A b⟩

/-- The factorisation of the constraint `3 x + 4 y = d`. -/
noncomputable def qr34 : CompleteQR 2 1 where
  Q := !![3/5, -4/5; 4/5, 3/5]
  R := !![5; 0]

example : qr34.Spec !![3, 4] ∧ LinearIndependent ℝ (Matrix.row (!![3, 4] : Mat 1 2)) := by
  refine ⟨⟨?_, ?_, ?_⟩, ?_⟩
  · ext i j; fin_cases i <;> fin_cases j <;> simp [qr34, mul_apply, Fin.sum_univ_two] <;> norm_num
  · ext i j; fin_cases i <;> fin_cases j <;> simp [qr34, mul_apply, Fin.sum_univ_two]
  · intro i j h; fin_cases i <;> fin_cases j <;> simp [qr34] at h ⊢
  · rw [Fintype.linearIndependent_iff]
    intro g hg i
    have := congrFun hg 0
    simp at this
    fin_cases i
    exact this

end EQ.Solver
