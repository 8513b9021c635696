import Verif.Sub.FitProps
import Mathlib.LinearAlgebra.Matrix.ToLin
import Mathlib.LinearAlgebra.Dimension.Constructions
import Mathlib.LinearAlgebra.FiniteDimensional.Lemmas

/-!
# C139: the Gauss-Newton step of variable projection
-/

namespace EQ.Sub
open EQ.Basis EQ.Param EQ.Sampling EQ.Poly Matrix
variable {K m n : ℕ}

/-- What `svd(·, full_matrices=False)` promises. -/
structure SvdOK (A : Matrix (Fin K) (Fin m × Fin n) ℝ) (s : Matrix (Fin K) (Fin (min K (m * n))) ℝ × (Fin (min K (m * n)) → ℝ) ×
    Matrix (Fin (min K (m * n))) (Fin m × Fin n) ℝ) : Prop where
  eq : A = s.1 * diagonal s.2.1 * s.2.2
  left : s.1ᵀ * s.1 = 1
  right : s.2.2 * s.2.2ᵀ = 1
  nonneg : ∀ a, 0 ≤ s.2.1 a
  anti : Antitone s.2.1

namespace FitData
variable [NeZero K] (d : FitData K m n)

/-- `vec_J` (subspaces.py:229). -/
noncomputable def vecJ (U : Matrix (Fin m) (Fin n) ℝ) : Matrix (Fin K) (Fin m × Fin n) ℝ := fun i jk => d.J U i jk.1 jk.2

end FitData

namespace Spec

/-- The residuals to first order after a change `E` of the directions; `J` is the exact derivative by C136. -/
def linearised (res : Fin K → ℝ) (J : Fin K → Fin m → Fin n → ℝ) (E : Matrix (Fin m) (Fin n) ℝ) (i : Fin K) : ℝ :=
  res i + ∑ j, ∑ k, J i j k * E j k

/-- Sum of squares. -/
def sq (v : Fin K → ℝ) : ℝ := ∑ i, v i ^ 2

end Spec

/-- A matrix as a vector. -/
def vec (E : Matrix (Fin m) (Fin n) ℝ) : Fin m × Fin n → ℝ := fun jk => E jk.1 jk.2

section
variable [NeZero K] {d : FitData K m n}

theorem vecJ_vec (U E : Matrix (Fin m) (Fin n) ℝ) (i : Fin K) : (d.vecJ U *ᵥ vec E) i = ∑ j, ∑ k, d.J U i j k * E j k := by
  simp only [mulVec, dotProduct, FitData.vecJ, vec]
  rw [Fintype.sum_prod_type]

theorem vdot_vec (A B : Matrix (Fin m) (Fin n) ℝ) : vdot A B = vec A ⬝ᵥ vec B := by
  simp only [vdot, dotProduct, vec]
  rw [Fintype.sum_prod_type]

theorem vec_G (U : Matrix (Fin m) (Fin n) ℝ) : vec (d.G U) = (d.vecJ U)ᵀ *ᵥ d.res U := by
  ext ⟨j, k⟩
  simp only [vec, FitData.G, mulVec, dotProduct, transpose_apply, FitData.vecJ]
  exact Finset.sum_congr rfl fun i _ => mul_comm _ _

/-- Changes within the subspace do not change the residual to first order. -/
theorem gauge (hO : FitOK d) (hn : 0 < n) (hp : 1 ≤ d.p) (U : Matrix (Fin m) (Fin n) ℝ) (hU : Spec.Determined d.X U d.p)
    (A : Matrix (Fin n) (Fin n) ℝ) : d.vecJ U *ᵥ vec (U * A) = 0 := by
  ext i
  rw [vecJ_vec, Pi.zero_apply]
  have hW : ∀ j k, HasDerivAt (fun t : ℝ => (U + t • (U * A)) j k) ((U * A) j k) 0 := fun j k => by
    simp only [Matrix.add_apply, Matrix.smul_apply, smul_eq_mul]
    refine (((hasDerivAt_id (0 : ℝ)).mul_const ((U * A) j k)).const_add (U j k)).congr_deriv ?_
    simp
  have h0 : U + (0 : ℝ) • (U * A) = U := by rw [zero_smul, add_zero]
  have h1 := c136_jacobian hO hn hp _ (U * A) 0 hW (by rw [h0]; exact hU) i
  rw [h0] at h1
  refine h1.unique ((hasDerivAt_const (0 : ℝ) (d.res U i)).congr_of_eventuallyEq ?_)
  -- near zero `1 + t A` is invertible
  have hdet : ∀ᶠ t : ℝ in nhds 0, (1 + t • A).det ≠ 0 := by
    refine (differentiable_det (t := 0) fun i j => ?_).continuousAt.eventually_ne (by simp)
    simp only [Matrix.add_apply, Matrix.smul_apply, smul_eq_mul]
    exact ((differentiableAt_id).mul_const _).const_add _
  filter_upwards [hdet] with t ht
  have e : U + t • (U * A) = U * (1 + t • A) := by rw [Matrix.mul_add, Matrix.mul_one, Matrix.mul_smul]
  have hB := mul_nonsing_inv (1 + t • A) (isUnit_iff_ne_zero.2 ht)
  have hB' := nonsing_inv_mul (1 + t • A) (isUnit_iff_ne_zero.2 ht)
  have hUB := det_basis hU _ _ hB'
  have hQ : d.V (U * (1 + t • A)) * d.pinv (d.V (U * (1 + t • A))) = d.V U * d.pinv (d.V U) := by
    have r1 := vand_range d.P hO.pos hn d.p _ _ (fun k => (det_spread hp hU k).ne) (d.X * U)
    have r2 := vand_range d.P hO.pos hn d.p _ _ (fun k => (det_spread hp hUB k).ne) (d.X * (U * (1 + t • A)))
    have r3 := lin_range (p := d.p) (d.X * U) _ _ hB
    refine proj_unique (hO.pinv _) (hO.pinv _) (fun c => ?_) fun c => ?_
    · refine (r2 _).2 ?_
      rw [← Matrix.mul_assoc]
      exact (r3 _).2 ((r1 _).1 ⟨c, rfl⟩)
    · refine (r1 _).2 ((r3 _).1 ?_)
      rw [Matrix.mul_assoc]
      exact (r2 _).1 ⟨c, rfl⟩
  simp only [e, FitData.res, mulVec_mulVec, hQ]

/-- With at least `m n` samples the last `n²` singular values vanish. -/
theorem dropped_zero (hO : FitOK d) (hn : 0 < n) (hp : 1 ≤ d.p) (U : Matrix (Fin m) (Fin n) ℝ) (hU : Spec.Determined d.X U d.p)
    (hs : SvdOK (d.vecJ U) (d.svdJ (d.vecJ U))) (hK : m * n ≤ K) (a : Fin (min K (m * n))) (ha : min K (m * n) - n ^ 2 ≤ a.val) :
    (d.svdJ (d.vecJ U)).2.1 a = 0 := by
  generalize d.svdJ (d.vecJ U) = s at *
  obtain ⟨Y, S, Z⟩ := s
  simp only at *
  by_contra hSa
  have hcard : Fintype.card (Fin (min K (m * n))) = Fintype.card (Fin m × Fin n) := by simp [hK]
  have hZ : Zᵀ * Z = 1 := (mul_eq_one_comm_of_card_eq _ _ _ hcard).1 hs.right
  -- the coordinates up to `a` of the changes within the subspace vanish
  have hker : ∀ A : Matrix (Fin n) (Fin n) ℝ, ∀ b, b ≤ a → (Z *ᵥ vec (U * A)) b = 0 := by
    intro A b hb
    have h1 := gauge hO hn hp U hU A
    have h2 : Yᵀ *ᵥ (d.vecJ U *ᵥ vec (U * A)) = 0 := by rw [h1, mulVec_zero]
    rw [hs.eq, mulVec_mulVec, ← Matrix.mul_assoc, ← Matrix.mul_assoc, hs.left, Matrix.one_mul, ← mulVec_mulVec] at h2
    have h3 := congrFun h2 b
    rw [mulVec_diagonal, Pi.zero_apply] at h3
    refine (mul_eq_zero.1 h3).resolve_left fun h4 => ?_
    have := hs.anti hb
    have h5 := hs.nonneg a
    simp only at this h5
    exact hSa (le_antisymm (this.trans h4.le) h5)
  -- so the others determine the change
  let f : Matrix (Fin n) (Fin n) ℝ →ₗ[ℝ] ({b : Fin (min K (m * n)) // a < b} → ℝ) :=
    { toFun := fun A b => (Z *ᵥ vec (U * A)) b.1
      map_add' := fun A B => by
        ext b
        have : vec (U * (A + B)) = vec (U * A) + vec (U * B) := by ext jk; simp [vec, Matrix.mul_add]
        simp [this, mulVec_add]
      map_smul' := fun c A => by
        ext b
        have : vec (U * (c • A)) = c • vec (U * A) := by ext jk; simp [vec]
        simp only [this, mulVec_smul]
        rfl }
  have hf : Function.Injective f := by
    rw [injective_iff_map_eq_zero]
    intro A hA
    have h1 : Z *ᵥ vec (U * A) = 0 := by
      ext b
      rcases le_or_gt b a with hb | hb
      · exact hker A b hb
      · exact congrFun hA ⟨b, hb⟩
    have h2 : vec (U * A) = 0 := by
      have := congrArg (Zᵀ *ᵥ ·) h1
      simpa only [mulVec_mulVec, hZ, one_mulVec, mulVec_zero] using this
    have h3 : U * A = 0 := by
      ext j k
      exact congrFun h2 (j, k)
    have h4 : Uᵀ * U * A = 0 := by rw [Matrix.mul_assoc, h3, Matrix.mul_zero]
    have h5 := det_rank hp hU
    calc A = (Uᵀ * U)⁻¹ * (Uᵀ * U * A) := by
            rw [← Matrix.mul_assoc, nonsing_inv_mul _ (isUnit_iff_ne_zero.2 h5), Matrix.one_mul]
      _ = 0 := by rw [h4, Matrix.mul_zero]
  have h6 := LinearMap.finrank_le_finrank_of_injective hf
  rw [Module.finrank_matrix, Module.finrank_self, mul_one, Module.finrank_fintype_fun_eq_card, Fintype.card_fin] at h6
  have h7 : Fintype.card {b : Fin (min K (m * n)) // a < b} = min K (m * n) - 1 - a.val := by
    rw [Fintype.card_subtype, Finset.filter_lt_eq_Ioi, Fin.card_Ioi]
  rw [h7] at h6
  have := a.2
  have : n * n = n ^ 2 := by ring
  omega

/-- If only changes within the subspace leave the residual unchanged to first order, the others do not vanish. -/
theorem kept_pos (hp : 1 ≤ d.p) (U : Matrix (Fin m) (Fin n) ℝ) (hU : Spec.Determined d.X U d.p)
    (hs : SvdOK (d.vecJ U) (d.svdJ (d.vecJ U))) (hK : m * n ≤ K)
    (hr : ∀ E : Matrix (Fin m) (Fin n) ℝ, (∀ i, ∑ j, ∑ k, d.J U i j k * E j k = 0) → ∃ A : Matrix (Fin n) (Fin n) ℝ, E = U * A)
    (a : Fin (min K (m * n))) (ha : a.val < min K (m * n) - n ^ 2) : (d.svdJ (d.vecJ U)).2.1 a ≠ 0 := by
  generalize d.svdJ (d.vecJ U) = s at *
  obtain ⟨Y, S, Z⟩ := s
  simp only at *
  intro hSa
  have hz : ∀ b, a ≤ b → S b = 0 := fun b hb => le_antisymm ((hs.anti hb).trans hSa.le) (hs.nonneg b)
  have h5 := det_rank hp hU
  -- the vectors with coordinates from `a` on, as matrices
  let E : ({b : Fin (min K (m * n)) // a ≤ b} → ℝ) → Matrix (Fin m) (Fin n) ℝ := fun v => Matrix.of fun j k => ∑ b, Z b.1 (j, k) * v b
  have hvec : ∀ v, Z *ᵥ vec (E v) = fun b => if h : a ≤ b then v ⟨b, h⟩ else 0 := by
    intro v
    have e : vec (E v) = Zᵀ *ᵥ fun b => if h : a ≤ b then v ⟨b, h⟩ else 0 := by
      ext ⟨j, k⟩
      simp only [vec, E, of_apply, mulVec, dotProduct, transpose_apply]
      rw [← Fintype.sum_subtype_add_sum_subtype (fun b => a ≤ b)]
      have z : ∑ b : {b // ¬ a ≤ b}, Z b.1 (j, k) * (if h : a ≤ b.1 then v ⟨b.1, h⟩ else 0) = 0 :=
        Finset.sum_eq_zero fun b _ => by rw [dif_neg b.2, mul_zero]
      rw [z, add_zero]
      exact Finset.sum_congr rfl fun b _ => by rw [dif_pos b.2]
    rw [e, mulVec_mulVec, hs.right, one_mulVec]
  have hE : ∀ v, ∃ A : Matrix (Fin n) (Fin n) ℝ, E v = U * A := by
    intro v
    refine hr _ fun i => ?_
    rw [← vecJ_vec, hs.eq, ← mulVec_mulVec, hvec, ← mulVec_mulVec]
    have : diagonal S *ᵥ (fun b => if h : a ≤ b then v ⟨b, h⟩ else 0) = 0 := by
      ext b
      rw [mulVec_diagonal]
      by_cases hb : a ≤ b
      · simp [hz b hb]
      · simp [hb]
    rw [this, mulVec_zero, Pi.zero_apply]
  let f : ({b : Fin (min K (m * n)) // a ≤ b} → ℝ) →ₗ[ℝ] Matrix (Fin n) (Fin n) ℝ :=
    { toFun := fun v => Uᵀ * E v
      map_add' := fun v w => by
        rw [← Matrix.mul_add]
        congr 1
        ext j k
        simp [E, mul_add, Finset.sum_add_distrib]
      map_smul' := fun c v => by
        rw [RingHom.id_apply, ← Matrix.mul_smul]
        congr 1
        ext j k
        simp only [E, of_apply, Matrix.smul_apply, smul_eq_mul, Pi.smul_apply, Finset.mul_sum]
        exact Finset.sum_congr rfl fun b _ => by ring }
  have hf : Function.Injective f := by
    rw [injective_iff_map_eq_zero]
    intro v hv
    obtain ⟨A, hA⟩ := hE v
    have hv : Uᵀ * E v = 0 := hv
    rw [hA, ← Matrix.mul_assoc] at hv
    have hA0 : A = 0 := by
      calc A = (Uᵀ * U)⁻¹ * (Uᵀ * U * A) := by
            rw [← Matrix.mul_assoc, nonsing_inv_mul _ (isUnit_iff_ne_zero.2 h5), Matrix.one_mul]
        _ = 0 := by rw [hv, Matrix.mul_zero]
    have h1 := hvec v
    rw [hA, hA0, Matrix.mul_zero] at h1
    ext b
    have h2 := congrFun h1 b.1
    rw [dif_pos b.2] at h2
    rw [← h2]
    have : vec (0 : Matrix (Fin m) (Fin n) ℝ) = 0 := rfl
    rw [this, mulVec_zero]
    rfl
  have h6 := LinearMap.finrank_le_finrank_of_injective hf
  rw [Module.finrank_matrix, Module.finrank_self, mul_one, Module.finrank_fintype_fun_eq_card, Fintype.card_fin] at h6
  have h7 : Fintype.card {b : Fin (min K (m * n)) // a ≤ b} = min K (m * n) - a.val := by
    rw [Fintype.card_subtype, Finset.filter_le_eq_Ici, Fin.card_Ici]
  rw [h7] at h6
  have : n * n = n ^ 2 := by ring
  omega

/-- The normal equations and the shortest solution. -/
theorem newton_core (U : Matrix (Fin m) (Fin n) ℝ) (hs : SvdOK (d.vecJ U) (d.svdJ (d.vecJ U)))
    (h0 : ∀ a : Fin (min K (m * n)), min K (m * n) - n ^ 2 ≤ a.val → (d.svdJ (d.vecJ U)).2.1 a = 0)
    (h1 : ∀ a : Fin (min K (m * n)), a.val < min K (m * n) - n ^ 2 → (d.svdJ (d.vecJ U)).2.1 a ≠ 0) :
    (d.vecJ U)ᵀ *ᵥ (d.res U + d.vecJ U *ᵥ vec (d.newton U)) = 0 ∧
      ∀ v, d.vecJ U *ᵥ v = 0 → vec (d.newton U) ⬝ᵥ v = 0 := by
  have hnew : vec (d.newton U) = -((d.svdJ (d.vecJ U)).2.2ᵀ *ᵥ fun a => if a.val < min K (m * n) - n ^ 2 then
      1 / (d.svdJ (d.vecJ U)).2.1 a * ((d.svdJ (d.vecJ U)).1ᵀ *ᵥ d.res U) a else 0) := by
    ext ⟨j, k⟩
    simp only [vec, FitData.newton, mulVec, dotProduct, transpose_apply, Pi.neg_apply]
    refine congrArg _ (Finset.sum_congr rfl fun a _ => ?_)
    split
    · rfl
    · rw [mul_zero]
  rw [hnew]
  generalize d.svdJ (d.vecJ U) = s at *
  obtain ⟨Y, S, Z⟩ := s
  simp only at *
  have hYJ : ∀ v, Yᵀ *ᵥ (d.vecJ U *ᵥ v) = fun a => S a * (Z *ᵥ v) a := fun v => by
    rw [hs.eq, mulVec_mulVec, ← Matrix.mul_assoc, ← Matrix.mul_assoc, hs.left, Matrix.one_mul, ← mulVec_mulVec]
    ext a
    rw [mulVec_diagonal]
  constructor
  · have hsr : Z * Zᵀ = 1 := hs.right
    have e : (d.vecJ U)ᵀ = Zᵀ * (diagonal S * Yᵀ) := by
      conv_lhs => rw [hs.eq]
      rw [transpose_mul, transpose_mul, diagonal_transpose]
    rw [e, ← mulVec_mulVec, ← mulVec_mulVec, mulVec_add, hYJ, mulVec_neg, mulVec_mulVec _ Z Zᵀ, hsr, one_mulVec]
    refine (congrArg (Zᵀ *ᵥ ·) ?_).trans (mulVec_zero Zᵀ)
    ext a
    rw [mulVec_diagonal, Pi.add_apply, Pi.neg_apply, Pi.zero_apply]
    by_cases ha : a.val < min K (m * n) - n ^ 2
    · rw [if_pos ha]
      have := h1 a ha
      field_simp
      ring
    · rw [h0 a (not_lt.1 ha)]
      ring
  · intro v hv
    have h2 := hYJ v
    rw [hv, mulVec_zero] at h2
    rw [neg_dotProduct, mulVec_transpose, ← dotProduct_mulVec, neg_eq_zero]
    refine Finset.sum_eq_zero fun a _ => ?_
    by_cases ha : a.val < min K (m * n) - n ^ 2
    · have h3 := congrFun h2 a
      rw [Pi.zero_apply] at h3
      rw [(mul_eq_zero.1 h3.symm).resolve_left (h1 a ha), mul_zero]
    · simp only
      rw [if_neg ha, zero_mul]

/-- What C139 assumes about the problem: enough samples, projections that determine the fit, a singular value decomposition, and
no change of the directions leaves the residual unchanged to first order except those within the subspace. -/
structure FitGeneric (d : FitData K m n) (U : Matrix (Fin m) (Fin n) ℝ) : Prop where
  ok : FitOK d
  dirs : 0 < n
  degree : 1 ≤ d.p
  det : Spec.Determined d.X U d.p
  samples : m * n ≤ K
  svd : SvdOK (d.vecJ U) (d.svdJ (d.vecJ U))
  rank : ∀ E : Matrix (Fin m) (Fin n) ℝ, (∀ i, ∑ j, ∑ k, d.J U i j k * E j k = 0) → ∃ A : Matrix (Fin n) (Fin n) ℝ, E = U * A

theorem FitGeneric.core {U : Matrix (Fin m) (Fin n) ℝ} (h : FitGeneric d U) :
    (d.vecJ U)ᵀ *ᵥ (d.res U + d.vecJ U *ᵥ vec (d.newton U)) = 0 ∧ ∀ v, d.vecJ U *ᵥ v = 0 → vec (d.newton U) ⬝ᵥ v = 0 :=
  newton_core U h.svd (fun a ha => dropped_zero h.ok h.dirs h.degree U h.det h.svd h.samples a ha)
    (fun a ha => kept_pos h.degree U h.det h.svd h.samples h.rank a ha)

theorem sq_dot (v : Fin K → ℝ) : Spec.sq v = v ⬝ᵥ v := by
  simp [Spec.sq, dotProduct, pow_two]

theorem lin_vec (U E : Matrix (Fin m) (Fin n) ℝ) : Spec.linearised (d.res U) (d.J U) E = d.res U + d.vecJ U *ᵥ vec E := by
  ext i
  rw [Pi.add_apply, vecJ_vec]
  rfl

/-- The slope of the Gauss-Newton step. -/
theorem FitGeneric.slope {U : Matrix (Fin m) (Fin n) ℝ} (h : FitGeneric d U) :
    vdot (d.G U) (d.newton U) = -Spec.sq (d.vecJ U *ᵥ vec (d.newton U)) := by
  have h1 := h.core.1
  rw [mulVec_add, ← vec_G] at h1
  rw [vdot_vec, eq_neg_of_add_eq_zero_left h1, neg_dotProduct, sq_dot, dotProduct_comm, dotProduct_mulVec (vec (d.newton U)), vecMul_transpose]

theorem pythagoras {U : Matrix (Fin m) (Fin n) ℝ} (h : FitGeneric d U) (E : Matrix (Fin m) (Fin n) ℝ) :
    Spec.sq (Spec.linearised (d.res U) (d.J U) E) = Spec.sq (Spec.linearised (d.res U) (d.J U) (d.newton U)) +
      Spec.sq (d.vecJ U *ᵥ (vec E - vec (d.newton U))) := by
  have h1 := h.core.1
  have e : d.res U + d.vecJ U *ᵥ vec E = (d.res U + d.vecJ U *ᵥ vec (d.newton U)) + d.vecJ U *ᵥ (vec E - vec (d.newton U)) := by
    rw [mulVec_sub]
    abel
  have hx : (d.res U + d.vecJ U *ᵥ vec (d.newton U)) ⬝ᵥ d.vecJ U *ᵥ (vec E - vec (d.newton U)) = 0 := by
    rw [dotProduct_mulVec, ← mulVec_transpose, h1, zero_dotProduct]
  have hx' : d.vecJ U *ᵥ (vec E - vec (d.newton U)) ⬝ᵥ (d.res U + d.vecJ U *ᵥ vec (d.newton U)) = 0 := by
    rw [dotProduct_comm]
    exact hx
  rw [lin_vec, lin_vec, sq_dot, sq_dot, sq_dot, e, add_dotProduct _ (d.vecJ U *ᵥ (vec E - vec (d.newton U))), dotProduct_add _ _ (d.vecJ U *ᵥ (vec E - vec (d.newton U))),
    dotProduct_add _ _ (d.vecJ U *ᵥ (vec E - vec (d.newton U))), hx, hx', add_zero, zero_add]

/-- **C139.** For every generic problem with at least as many samples as unknowns the step is that of Gauss and Newton: it minimises
the residual to first order among all changes of the directions, it is the shortest change that does, and unless the subspace is
stationary it leads downhill, so that the routine takes it rather than the gradient. -/
theorem c139_gauss_newton {U : Matrix (Fin m) (Fin n) ℝ} (h : FitGeneric d U) :
    (∀ E, Spec.sq (Spec.linearised (d.res U) (d.J U) (d.vp.newton U)) ≤ Spec.sq (Spec.linearised (d.res U) (d.J U) E)) ∧
      (∀ E, (∀ E', Spec.sq (Spec.linearised (d.res U) (d.J U) E) ≤ Spec.sq (Spec.linearised (d.res U) (d.J U) E')) →
        vdot (d.vp.newton U) (d.vp.newton U) ≤ vdot E E) ∧
      (d.vp.G U ≠ 0 → (d.vp.direction U).1 = d.vp.newton U) := by
  have hsq : ∀ v : Fin K → ℝ, 0 ≤ Spec.sq v := fun v => Finset.sum_nonneg fun i _ => sq_nonneg _
  refine ⟨fun E => ?_, fun E hE => ?_, fun hG => ?_⟩
  · have := pythagoras h E
    have := hsq (d.vecJ U *ᵥ (vec E - vec (d.newton U)))
    have e : d.vp.newton U = d.newton U := rfl
    rw [e]
    linarith
  · have h1 := pythagoras h E
    have h2 := hE (d.newton U)
    have h3 := hsq (d.vecJ U *ᵥ (vec E - vec (d.newton U)))
    have h4 : Spec.sq (d.vecJ U *ᵥ (vec E - vec (d.newton U))) = 0 := by linarith
    rw [sq_dot, dotProduct_self_eq_zero] at h4
    have h5 := h.core.2 _ h4
    have e : d.vp.newton U = d.newton U := rfl
    rw [e, vdot_vec, vdot_vec]
    have h6 : vec E = vec (d.newton U) + (vec E - vec (d.newton U)) := by abel
    have h7 : (vec E - vec (d.newton U)) ⬝ᵥ vec (d.newton U) = 0 := by rw [dotProduct_comm]; exact h5
    rw [h6, add_dotProduct, dotProduct_add, dotProduct_add, h5, h7]
    have : 0 ≤ (vec E - vec (d.newton U)) ⬝ᵥ (vec E - vec (d.newton U)) := Finset.sum_nonneg fun i _ => mul_self_nonneg _
    linarith
  · have hs := h.slope
    unfold VP.direction
    simp only
    rw [if_neg]
    intro hc
    have hc : 0 ≤ vdot (d.G U) (d.newton U) := hc
    rw [hs] at hc
    have h4 : Spec.sq (d.vecJ U *ᵥ vec (d.newton U)) = 0 := le_antisymm (by linarith) (hsq _)
    rw [sq_dot, dotProduct_self_eq_zero] at h4
    have h1 := h.core.1
    rw [h4, add_zero, ← vec_G] at h1
    exact hG (by ext j k; exact congrFun h1 (j, k))

/-- **C139 is false for few samples**: the routine drops the last `n²` of the `min(K, m n)` singular values whatever they are. With at
most `n²` samples nothing is left, the step is zero, and unless the subspace is stationary some change of the directions does better
to first order. -/
theorem c139_few_samples_violated (U : Matrix (Fin m) (Fin n) ℝ) (hK : K ≤ n ^ 2) (hG : d.vp.G U ≠ 0) :
    d.vp.newton U = 0 ∧
      ∃ E, Spec.sq (Spec.linearised (d.res U) (d.J U) E) < Spec.sq (Spec.linearised (d.res U) (d.J U) (d.vp.newton U)) := by
  have h0 : d.vp.newton U = 0 := by
    ext j k
    have : min K (m * n) - n ^ 2 = 0 := by omega
    simp [FitData.vp, FitData.newton, this]
  refine ⟨h0, ?_⟩
  have hg : 0 < vdot (d.G U) (d.G U) := vdot_pos hG
  have hJ : 0 ≤ Spec.sq (d.vecJ U *ᵥ vec (d.G U)) := Finset.sum_nonneg fun i _ => sq_nonneg _
  have ht : 0 < vdot (d.G U) (d.G U) / (Spec.sq (d.vecJ U *ᵥ vec (d.G U)) + 1) := by positivity
  generalize htd : vdot (d.G U) (d.G U) / (Spec.sq (d.vecJ U *ᵥ vec (d.G U)) + 1) = t at ht
  rw [div_eq_iff (by positivity)] at htd
  refine ⟨(-t) • d.G U, ?_⟩
  rw [h0, lin_vec, lin_vec]
  have e1 : vec ((-t) • d.G U) = (-t) • vec (d.G U) := rfl
  have e2 : vec (0 : Matrix (Fin m) (Fin n) ℝ) = 0 := rfl
  have e3 : d.res U ⬝ᵥ d.vecJ U *ᵥ vec (d.G U) = vdot (d.G U) (d.G U) := by
    rw [dotProduct_mulVec, ← mulVec_transpose, ← vec_G, vdot_vec]
  have e4 : d.vecJ U *ᵥ vec (d.G U) ⬝ᵥ d.res U = vdot (d.G U) (d.G U) := by rw [dotProduct_comm, e3]
  rw [e1, e2, mulVec_zero, add_zero, mulVec_smul, sq_dot, sq_dot, add_dotProduct, dotProduct_add, dotProduct_add, smul_dotProduct,
    smul_dotProduct, dotProduct_smul, dotProduct_smul, e3, e4, ← sq_dot (d.vecJ U *ᵥ vec (d.G U)), smul_eq_mul, smul_eq_mul, smul_eq_mul]
  nlinarith

/-- The same problem with the outputs in other units. -/
def FitData.scale (d : FitData K m n) (c : ℝ) : FitData K m n := { d with f := fun i => c * d.f i }

theorem scale_res (c : ℝ) (U : Matrix (Fin m) (Fin n) ℝ) : (d.scale c).res U = c • d.res U := by
  have e : (d.scale c).res U = c • d.f - d.V U *ᵥ (d.pinv (d.V U) *ᵥ (c • d.f)) := rfl
  rw [e, mulVec_smul, mulVec_smul, ← smul_sub]
  rfl

theorem scale_J (c : ℝ) (U : Matrix (Fin m) (Fin n) ℝ) : (d.scale c).vecJ U = c • d.vecJ U := by
  ext i ⟨j, k⟩
  have e : (d.scale c).vecJ U i (j, k) = -(((1 - d.V U * d.pinv (d.V U)) * d.dV U j k * d.pinv' (d.V U) +
    ((1 - d.V U * d.pinv (d.V U)) * d.dV U j k * d.pinv' (d.V U))ᵀ) *ᵥ (c • d.f)) i := rfl
  rw [e, mulVec_smul, Pi.smul_apply, Matrix.smul_apply, smul_eq_mul, smul_eq_mul, ← mul_neg]
  rfl

theorem scale_R (c : ℝ) (hc : 0 ≤ c) (U : Matrix (Fin m) (Fin n) ℝ) : (d.scale c).R U = c * d.R U := by
  unfold FitData.R
  rw [scale_res]
  simp only [Pi.smul_apply, smul_eq_mul, mul_pow]
  rw [← Finset.mul_sum, Real.sqrt_mul (sq_nonneg c), Real.sqrt_sq hc]

theorem scale_slope (c : ℝ) (hc : 0 < c) {U : Matrix (Fin m) (Fin n) ℝ} (h : FitGeneric d U) (hc' : FitGeneric (d.scale c) U) :
    vdot ((d.scale c).G U) ((d.scale c).newton U) = c ^ 2 * vdot (d.G U) (d.newton U) := by
  rw [hc'.slope, h.slope, scale_J]
  have h1 := hc'.core.1
  rw [scale_J, scale_res, transpose_smul, smul_mulVec, smul_mulVec, ← smul_add, mulVec_smul] at h1
  have h2 : (d.vecJ U)ᵀ *ᵥ (d.res U + d.vecJ U *ᵥ vec ((d.scale c).newton U)) = 0 :=
    (smul_eq_zero.1 ((smul_eq_zero.1 h1).resolve_left hc.ne')).resolve_left hc.ne'
  have h3 : (d.vecJ U)ᵀ *ᵥ (d.vecJ U *ᵥ (vec ((d.scale c).newton U) - vec (d.newton U))) = 0 := by
    have h4 := h.core.1
    rw [mulVec_add] at h2 h4
    rw [mulVec_sub, mulVec_sub, sub_eq_zero]
    rw [add_comm] at h2 h4
    rw [eq_neg_of_add_eq_zero_left h2, eq_neg_of_add_eq_zero_left h4]
  have h5 : d.vecJ U *ᵥ (vec ((d.scale c).newton U) - vec (d.newton U)) = 0 := by
    rw [← dotProduct_self_eq_zero, dotProduct_mulVec, ← mulVec_transpose, h3, zero_dotProduct]
  rw [mulVec_sub, sub_eq_zero] at h5
  rw [smul_mulVec, h5]
  simp only [Spec.sq, Pi.smul_apply, smul_eq_mul, mul_pow]
  rw [← Finset.mul_sum]
  ring

theorem scale_G (c : ℝ) {U : Matrix (Fin m) (Fin n) ℝ} (hc : c ≠ 0) (hG : d.G U ≠ 0) : (d.scale c).G U ≠ 0 := by
  intro h
  apply hG
  have h1 : vec ((d.scale c).G U) = 0 := by rw [h]; rfl
  rw [vec_G, scale_J, scale_res, transpose_smul, smul_mulVec, mulVec_smul] at h1
  have h2 := (smul_eq_zero.1 ((smul_eq_zero.1 h1).resolve_left hc)).resolve_left hc
  rw [← vec_G] at h2
  ext j k
  exact congrFun h2 (j, k)

/-- **C138, units of the outputs**: whatever the generic problem and the subspace, unless it is stationary, there is a unit for the
outputs from which on none of the steps `1, …, 10⁻¹⁰` passes the test, so that the routine moves by `10⁻¹¹`, and the subspace it
returns depends on the units of the outputs. -/
theorem c138_units_violated {U : Matrix (Fin m) (Fin n) ℝ} (h : ∀ c : ℝ, 0 < c → FitGeneric (d.scale c) U) (hd : FitGeneric d U)
    (hG : d.vp.G U ≠ 0) : ∃ c₀ > 0, ∀ c > c₀,
      (d.scale c).vp.step U = d.orth (d.curve U ((d.scale c).vp.newton U) ((1/10)^11)) := by
  have ha : vdot (d.G U) (d.newton U) < 0 := by
    have h1 := (c139_gauss_newton hd).2.2 hG
    obtain ⟨h2, h3⟩ := direction_vdot d.vp U
    have h4 := h3 hG
    rw [h2, h1] at h4
    exact h4
  refine ⟨10 ^ 14 * d.R U / -vdot (d.G U) (d.newton U) + 1, ?_, fun c hc => ?_⟩
  · have : 0 ≤ d.R U := Real.sqrt_nonneg _
    have : 0 ≤ 10 ^ 14 * d.R U / -vdot (d.G U) (d.newton U) := div_nonneg (by positivity) (by linarith)
    linarith
  · have hR : 0 ≤ d.R U := Real.sqrt_nonneg _
    have hq : 0 ≤ 10 ^ 14 * d.R U / -vdot (d.G U) (d.newton U) := div_nonneg (by positivity) (by linarith)
    have hc0 : 0 < c := by linarith
    have h1 := (c139_gauss_newton (h c hc0)).2.2 (scale_G c hc0.ne' hG)
    obtain ⟨h2, -⟩ := direction_vdot (d.scale c).vp U
    rw [steep_step]
    · rw [h1]
      rfl
    · rw [h2, h1]
      have e1 : (d.scale c).vp.resid U = c * d.R U := scale_R c hc0.le U
      have e2 : vdot ((d.scale c).vp.G U) ((d.scale c).vp.newton U) = c ^ 2 * vdot (d.G U) (d.newton U) :=
        scale_slope c hc0 hd (h c hc0)
      rw [e1, e2]
      have h3 : 10 ^ 14 * d.R U < c * -vdot (d.G U) (d.newton U) := by
        rw [← div_lt_iff₀ (by linarith)]
        linarith
      nlinarith

end
end EQ.Sub
