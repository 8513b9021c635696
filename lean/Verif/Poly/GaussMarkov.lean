import Verif.Poly.PivotProps
import Verif.Poly.Band
import Mathlib.Probability.Moments.Variance
import Mathlib.Probability.ProbabilityMassFunction.Integrals
import Mathlib.Probability.Distributions.Uniform
import Mathlib.LinearAlgebra.Matrix.Trace

/-!
# Least squares with random noise in the outputs (C212)
-/

namespace EQ.Poly
open EQ.Param EQ.Basis EQ.Sampling EQ.Sampling.Spec EQ.Poly.Spec EQ.Stats MeasureTheory Matrix

/-! ## Specification -/

/-- Disturbances of the outputs: square integrable, of mean zero, uncorrelated, with variances `σ ^ 2 / w` inversely proportional to the weights. -/
structure Noise {Ω : Type} [MeasurableSpace Ω] (P : Measure Ω) {m : ℕ} (w : Fin m → ℝ) (σ : ℝ) (e : Fin m → Ω → ℝ) : Prop where
  mem : ∀ j, MemLp (e j) 2 P
  mean : ∀ j, ∫ ω, e j ω ∂P = 0
  cov : ∀ i j, ∫ ω, e i ω * e j ω ∂P = if i = j then σ ^ 2 / w i else 0

/-! ## Lemmas -/

section Algebra
variable {m n : ℕ} (Φ : Matrix (Fin m) (Fin n) ℝ) (w : Fin m → ℝ)

/-- The matrix of the normal equations. -/
def gramW : Matrix (Fin n) (Fin n) ℝ := Φᵀ * diagonal w * Φ

/-- The matrix that takes outputs to coefficients. -/
noncomputable def hatK : Matrix (Fin n) (Fin m) ℝ := (gramW Φ w)⁻¹ * Φᵀ * diagonal w

variable {Φ w}

theorem gramW_unit (hw : ∀ j, 0 < w j) (hΦ : ∀ z, Φ *ᵥ z = 0 → z = 0) : IsUnit (gramW Φ w).det := by
  rw [isUnit_iff_ne_zero]
  intro h0
  obtain ⟨v, hv, hv0⟩ := exists_mulVec_eq_zero_iff.2 h0
  apply hv
  apply hΦ
  have h1 : ∑ j, w j * (Φ *ᵥ v) j ^ 2 = 0 := by
    have : v ⬝ᵥ (gramW Φ w *ᵥ v) = ∑ j, w j * (Φ *ᵥ v) j ^ 2 := by
      unfold gramW
      rw [Matrix.mul_assoc, ← mulVec_mulVec, dotProduct_mulVec, vecMul_transpose, ← mulVec_mulVec]
      simp only [dotProduct, mulVec_diagonal]
      exact Finset.sum_congr rfl fun j _ => by ring
    rw [← this, hv0, dotProduct_zero]
  funext j
  have := (Finset.sum_eq_zero_iff_of_nonneg fun j _ => by have := hw j; positivity).1 h1 j (Finset.mem_univ j)
  have := (mul_eq_zero.1 this).resolve_left (hw j).ne'
  simpa using this

theorem hatK_mul (hw : ∀ j, 0 < w j) (hΦ : ∀ z, Φ *ᵥ z = 0 → z = 0) : hatK Φ w * Φ = 1 := by
  unfold hatK
  rw [Matrix.mul_assoc, Matrix.mul_assoc, ← Matrix.mul_assoc Φᵀ]
  exact nonsing_inv_mul _ (gramW_unit hw hΦ)

theorem gramW_symm : (gramW Φ w)ᵀ = gramW Φ w := by
  unfold gramW
  simp [transpose_mul, Matrix.mul_assoc]

/-- Covariances of the coefficients. -/
theorem hatK_cov (hw : ∀ j, 0 < w j) : hatK Φ w * diagonal (fun j => (w j)⁻¹) = (gramW Φ w)⁻¹ * Φᵀ := by
  unfold hatK
  rw [Matrix.mul_assoc, diagonal_mul_diagonal]
  have : (diagonal fun j => w j * (w j)⁻¹) = (1 : Matrix (Fin m) (Fin m) ℝ) := by
    rw [← diagonal_one]
    congr 1
    funext j
    exact mul_inv_cancel₀ (hw j).ne'
  rw [this, Matrix.mul_one]

theorem normal_solve (hw : ∀ j, 0 < w j) (hΦ : ∀ z, Φ *ᵥ z = 0 → z = 0) (c : Fin n → ℝ) (y : Fin m → ℝ) (h : ∀ z : Fin n → ℝ, ∑ j, w j * (((Φ *ᵥ c) j - y j) * (Φ *ᵥ z) j) = 0) :
    c = hatK Φ w *ᵥ y := by
  have h1 : Φᵀ *ᵥ (diagonal w *ᵥ (Φ *ᵥ c - y)) = 0 := by
    funext i
    have := h (Pi.single i 1)
    simp only [mulVec_single_one, Matrix.col_apply] at this
    rw [Pi.zero_apply, ← this]
    simp only [mulVec, dotProduct, transpose_apply, diagonal_apply, Pi.sub_apply]
    refine Finset.sum_congr rfl fun j _ => ?_
    simp
    ring
  have h2 : gramW Φ w *ᵥ c = Φᵀ *ᵥ (diagonal w *ᵥ y) := by
    rw [mulVec_sub, mulVec_sub, sub_eq_zero] at h1
    rw [← h1]
    simp only [gramW, mulVec_mulVec, Matrix.mul_assoc]
  calc c = (gramW Φ w)⁻¹ *ᵥ (gramW Φ w *ᵥ c) := by rw [mulVec_mulVec, nonsing_inv_mul _ (gramW_unit hw hΦ), one_mulVec]
    _ = hatK Φ w *ᵥ y := by rw [h2]; simp only [hatK, mulVec_mulVec, Matrix.mul_assoc]

/-- Weighted size of an estimator: smallest for least squares. -/
theorem best_row (hw : ∀ j, 0 < w j) (hΦ : ∀ z, Φ *ᵥ z = 0 → z = 0) (l : Fin n → ℝ) (t : Fin m → ℝ) (ht : t ᵥ* Φ = l) :
    ∑ j, (l ᵥ* hatK Φ w) j ^ 2 / w j ≤ ∑ j, t j ^ 2 / w j := by
  set u := l ᵥ* hatK Φ w with hu
  set g := l ᵥ* (gramW Φ w)⁻¹ with hg
  have hug : ∀ j, u j / w j = (Φ *ᵥ g) j := by
    intro j
    have e : u ᵥ* diagonal (fun j => (w j)⁻¹) = g ᵥ* Φᵀ := by rw [hu, vecMul_vecMul, hatK_cov hw, ← vecMul_vecMul]
    have := congrFun e j
    rw [vecMul_diagonal, vecMul_transpose] at this
    rw [div_eq_mul_inv, this]
  have hs : (t - u) ᵥ* Φ = 0 := by
    rw [sub_vecMul, ht, hu, vecMul_vecMul, hatK_mul hw hΦ, vecMul_one, sub_self]
  have hcross : ∑ j, (t j - u j) * (u j / w j) = 0 := by
    simp only [hug]
    have : (t - u) ⬝ᵥ (Φ *ᵥ g) = 0 := by rw [dotProduct_mulVec, hs, zero_dotProduct]
    simpa [dotProduct] using this
  have : ∑ j, t j ^ 2 / w j = ∑ j, u j ^ 2 / w j + 2 * ∑ j, (t j - u j) * (u j / w j) + ∑ j, (t j - u j) ^ 2 / w j := by
    rw [Finset.mul_sum, ← Finset.sum_add_distrib, ← Finset.sum_add_distrib]
    exact Finset.sum_congr rfl fun j _ => by ring
  rw [this, hcross]
  have : 0 ≤ ∑ j, (t j - u j) ^ 2 / w j := Finset.sum_nonneg fun j _ => by have := hw j; positivity
  linarith

theorem trace_hat (hw : ∀ j, 0 < w j) (hΦ : ∀ z, Φ *ᵥ z = 0 → z = 0) : (Φ * hatK Φ w).trace = n := by
  rw [trace_mul_comm, hatK_mul hw hΦ, trace_one, Fintype.card_fin]

theorem weighted_trace (H : Matrix (Fin m) (Fin m) ℝ) : ∑ j, w j * ∑ k, H j k ^ 2 / w k = (diagonal w * H * diagonal (fun k => (w k)⁻¹) * Hᵀ).trace := by
  simp only [trace, diag_apply, Matrix.mul_apply (N := Hᵀ), mul_diagonal, diagonal_mul, transpose_apply, Finset.mul_sum]
  exact Finset.sum_congr rfl fun j _ => Finset.sum_congr rfl fun k _ => by ring

theorem total_fit (hw : ∀ j, 0 < w j) (hΦ : ∀ z, Φ *ᵥ z = 0 → z = 0) : ∑ j, w j * ∑ k, (Φ * hatK Φ w) j k ^ 2 / w k = n := by
  rw [weighted_trace]
  have e : diagonal w * (Φ * hatK Φ w) * diagonal (fun k => (w k)⁻¹) * (Φ * hatK Φ w)ᵀ = diagonal w * Φ * (hatK Φ w * (Φ * (gramW Φ w)⁻¹ * Φᵀ)) := by
    have e1 : (Φ * hatK Φ w) * diagonal (fun k => (w k)⁻¹) = Φ * (gramW Φ w)⁻¹ * Φᵀ := by
      rw [Matrix.mul_assoc, hatK_cov hw, ← Matrix.mul_assoc]
    have e2 : Φ * (gramW Φ w)⁻¹ * Φᵀ * (Φ * hatK Φ w)ᵀ = Φ * (gramW Φ w)⁻¹ * Φᵀ := by
      have : (Φ * hatK Φ w * (Φ * (gramW Φ w)⁻¹ * Φᵀ)) = Φ * (gramW Φ w)⁻¹ * Φᵀ := by
        rw [Matrix.mul_assoc Φ (hatK Φ w), ← Matrix.mul_assoc (hatK Φ w), ← Matrix.mul_assoc (hatK Φ w), hatK_mul hw hΦ, Matrix.one_mul, ← Matrix.mul_assoc]
      have h2 := congrArg transpose this
      have hsym : (Φ * (gramW Φ w)⁻¹ * Φᵀ)ᵀ = Φ * (gramW Φ w)⁻¹ * Φᵀ := by
        rw [transpose_mul, transpose_mul, transpose_transpose, transpose_nonsing_inv, gramW_symm, Matrix.mul_assoc]
      rw [transpose_mul, hsym] at h2
      exact h2
    rw [Matrix.mul_assoc (diagonal w), e1, Matrix.mul_assoc (diagonal w), e2]
    rw [← Matrix.mul_assoc (hatK Φ w), ← Matrix.mul_assoc (hatK Φ w), hatK_mul hw hΦ, Matrix.one_mul]
    simp only [Matrix.mul_assoc]
  rw [e, ← Matrix.mul_assoc (hatK Φ w), ← Matrix.mul_assoc (hatK Φ w), hatK_mul hw hΦ, Matrix.one_mul, trace_mul_comm, Matrix.mul_assoc, ← Matrix.mul_assoc Φᵀ]
  rw [show Φᵀ * diagonal w * Φ = gramW Φ w from rfl, nonsing_inv_mul _ (gramW_unit hw hΦ), trace_one, Fintype.card_fin]

theorem total_rest (hw : ∀ j, 0 < w j) (hΦ : ∀ z, Φ *ᵥ z = 0 → z = 0) : ∑ j, w j * ∑ k, (Φ * hatK Φ w - (1 : Matrix (Fin m) (Fin m) ℝ)) j k ^ 2 / w k = m - n := by
  set H := Φ * hatK Φ w with hH
  have h1 := total_fit hw hΦ
  rw [← hH] at h1
  have e : ∑ j, w j * ∑ k, (H - (1 : Matrix (Fin m) (Fin m) ℝ)) j k ^ 2 / w k = ∑ j, w j * ∑ k, H j k ^ 2 / w k - 2 * H.trace + m := by
    have : ∀ j, w j * ∑ k, (H - (1 : Matrix (Fin m) (Fin m) ℝ)) j k ^ 2 / w k = w j * ∑ k, H j k ^ 2 / w k - 2 * H j j + 1 := by
      intro j
      have hk : ∀ k, (H - (1 : Matrix (Fin m) (Fin m) ℝ)) j k ^ 2 / w k = H j k ^ 2 / w k + if j = k then (1 - 2 * H j j) / w j else 0 := by
        intro k
        rw [Matrix.sub_apply, Matrix.one_apply]
        split_ifs with h
        · subst h; ring
        · ring
      simp only [hk, Finset.sum_add_distrib, Finset.sum_ite_eq, Finset.mem_univ, if_true]
      have := (hw j).ne'
      field_simp
      ring
    simp only [this, Finset.sum_add_distrib, Finset.sum_sub_distrib, ← Finset.mul_sum, trace, diag_apply]
    simp
  rw [e, h1, trace_hat hw hΦ]
  ring

end Algebra

section Expectation
variable {Ω : Type} [MeasurableSpace Ω] {P : Measure Ω} {m : ℕ} {w : Fin m → ℝ} {σ : ℝ} {e : Fin m → Ω → ℝ}

theorem Noise.integrable [IsProbabilityMeasure P] (h : Noise P w σ e) (j : Fin m) : Integrable (e j) P := (h.mem j).integrable (by norm_num)

theorem Noise.lin_mean [IsProbabilityMeasure P] (h : Noise P w σ e) (a : Fin m → ℝ) : Integrable (fun ω => ∑ j, a j * e j ω) P ∧ ∫ ω, ∑ j, a j * e j ω ∂P = 0 := by
  have hi : ∀ j ∈ Finset.univ, Integrable (fun ω => a j * e j ω) P := fun j _ => (h.integrable j).const_mul _
  refine ⟨integrable_finsetSum _ hi, ?_⟩
  rw [integral_finsetSum _ hi]
  refine Finset.sum_eq_zero fun j _ => ?_
  rw [integral_const_mul, h.mean, mul_zero]

theorem Noise.lin_sq (h : Noise P w σ e) (a : Fin m → ℝ) :
    Integrable (fun ω => (∑ j, a j * e j ω) ^ 2) P ∧ ∫ ω, (∑ j, a j * e j ω) ^ 2 ∂P = σ ^ 2 * ∑ j, a j ^ 2 / w j := by
  have hi : ∀ i j, Integrable (fun ω => a i * a j * (e i ω * e j ω)) P := fun i j => ((h.mem i).integrable_mul (h.mem j)).const_mul _
  have e1 : (fun ω => (∑ j, a j * e j ω) ^ 2) = fun ω => ∑ i, ∑ j, a i * a j * (e i ω * e j ω) := by
    funext ω
    rw [sq, Finset.sum_mul_sum]
    exact Finset.sum_congr rfl fun i _ => Finset.sum_congr rfl fun j _ => by ring
  rw [e1]
  refine ⟨integrable_finsetSum _ fun i _ => integrable_finsetSum _ fun j _ => hi i j, ?_⟩
  rw [integral_finsetSum _ fun i _ => integrable_finsetSum _ fun j _ => hi i j, Finset.mul_sum]
  refine Finset.sum_congr rfl fun i _ => ?_
  rw [integral_finsetSum _ fun j _ => hi i j, Finset.sum_eq_single i]
  · rw [integral_const_mul, h.cov, if_pos rfl]; ring
  · intro j _ hj
    rw [integral_const_mul, h.cov, if_neg hj.symm, mul_zero]
  · intro hh; exact absurd (Finset.mem_univ i) hh

end Expectation

theorem row_coords (B : Expansion) (hB : Regular B) (x : List ℝ) (hx : x.length = B.dims) :
    ∃ φ : Fin B.elements.length → ℝ, ∀ z : Fin B.elements.length → ℝ, expansion B.params B.elements (B.eff (List.ofFn z)) x = ∑ i, φ i * z i := by
  obtain ⟨M, hM, -⟩ := getPoly_dot B hB [x] (by simpa using hx)
  refine ⟨fun i => entry (designMatrix M [1]) 0 i, fun z => ?_⟩
  have := weighted_row B hB (pts := [x]) (by simpa using hx) (wts := [1]) rfl hM z 0 (by simp)
  rw [this]
  simp

theorem ofFn_coords {n : ℕ} (c : List ℝ) (hc : c.length = n) : List.ofFn (fun i : Fin n => c.getD i 0) = c := by
  subst hc
  apply List.ext_getElem (by simp)
  intro i h1 h2
  rw [List.getElem_ofFn, getD_of_lt _ _ _ h2]

/-- The fit as a linear map of the outputs. -/
theorem fit_linear (B : Expansion) (hB : Regular B) {pts : List (List ℝ)} {wts : List ℝ} (hsz : ∀ x ∈ pts, x.length = B.dims) (hwl : wts.length = pts.length)
    (hpos : ∀ w ∈ wts, 0 < w) (hdet : Determined B pts) :
    ∃ Φ : Matrix (Fin pts.length) (Fin B.elements.length) ℝ,
      (∀ (j : Fin pts.length) z, expansion B.params B.elements (B.eff (List.ofFn z)) (pts.getD j []) = (Φ *ᵥ z) j) ∧ (∀ z, Φ *ᵥ z = 0 → z = 0) ∧
      ∀ (y : Fin pts.length → ℝ) (c : List ℝ), LsqFit B pts wts (List.ofFn y) c →
        c.length = B.elements.length ∧ (fun i : Fin B.elements.length => c.getD i 0) = hatK Φ (fun j => wts.getD j 0) *ᵥ y := by
  have hsz' : ∀ j : Fin pts.length, (pts.getD j []).length = B.dims := by
    intro j
    rw [getD_of_lt _ _ _ j.2]
    exact hsz _ (List.getElem_mem _)
  choose Φ hΦ using fun j : Fin pts.length => row_coords B hB (pts.getD j []) (hsz' j)
  have hrow : ∀ (j : Fin pts.length) z, expansion B.params B.elements (B.eff (List.ofFn z)) (pts.getD j []) = (Matrix.of Φ *ᵥ z) j := by
    intro j z
    rw [hΦ j z]
    rfl
  have hw : ∀ j : Fin pts.length, 0 < wts.getD j 0 := by
    intro j
    have hj : (j : ℕ) < wts.length := by rw [hwl]; exact j.2
    rw [getD_of_lt _ _ _ hj]
    exact hpos _ (List.getElem_mem _)
  have hinj : ∀ z, Matrix.of Φ *ᵥ z = 0 → z = 0 := by
    intro z hz
    have h1 := hdet (List.ofFn z) (by simp) (by
      rw [polyfit_eq B hB _ (by simp) _ hsz]
      congr 1
      conv_lhs => rw [← all_rows pts]
      conv_rhs => rw [← all_rows pts]
      rw [List.map_map, List.map_map]
      apply List.map_congr_left
      intro j hj
      have := hrow ⟨j, List.mem_range.1 hj⟩ z
      rw [hz] at this
      exact this)
    funext i
    have := congrArg (fun l => l.getD i 0) h1
    rw [getD_of_lt _ _ _ (by simp), List.getElem_ofFn, getD_of_lt _ _ _ (by simp), List.getElem_replicate] at this
    exact this
  refine ⟨Matrix.of Φ, hrow, hinj, fun y c h => ?_⟩
  have hs : Sample B.dims pts wts (List.ofFn y) := ⟨hsz, hwl, hpos, by simp⟩
  have hcl := ((fitted_iff B hB hs c).1 h).1
  refine ⟨hcl, normal_solve hw hinj _ y fun z => ?_⟩
  have ho := fitted_orth B hB hs c h (List.ofFn z) (by simp)
  rw [Finset.sum_range] at ho
  refine Eq.trans ?_ ho
  refine Finset.sum_congr rfl fun j _ => ?_
  rw [hrow j z, ← hrow j, ofFn_coords c hcl]
  congr 3
  rw [getD_of_lt _ _ _ (by simp), List.getElem_ofFn]

/-- Error of the coefficients for given disturbances. -/
theorem fit_error (B : Expansion) (hB : Regular B) {pts : List (List ℝ)} {wts : List ℝ} (hsz : ∀ x ∈ pts, x.length = B.dims) (hwl : wts.length = pts.length)
    (hpos : ∀ w ∈ wts, 0 < w) (hdet : Determined B pts) (c : List ℝ) (hc : c.length = B.elements.length) :
    ∃ Φ : Matrix (Fin pts.length) (Fin B.elements.length) ℝ,
      (∀ (j : Fin pts.length) z, expansion B.params B.elements (B.eff (List.ofFn z)) (pts.getD j []) = (Φ *ᵥ z) j) ∧ (∀ z, Φ *ᵥ z = 0 → z = 0) ∧
      ∀ (e : Fin pts.length → ℝ) (c' : List ℝ), LsqFit B pts wts (List.ofFn fun j => expansion B.params B.elements (B.eff c) (pts.getD j []) + e j) c' →
        c'.length = B.elements.length ∧ ∀ i : Fin B.elements.length, c'.getD i 0 = c.getD i 0 + (hatK Φ (fun j => wts.getD j 0) *ᵥ e) i := by
  obtain ⟨Φ, h1, h2, h3⟩ := fit_linear B hB hsz hwl hpos hdet
  have hw : ∀ j : Fin pts.length, 0 < wts.getD j 0 := by
    intro j
    have hj : (j : ℕ) < wts.length := by rw [hwl]; exact j.2
    rw [getD_of_lt _ _ _ hj]
    exact hpos _ (List.getElem_mem _)
  refine ⟨Φ, h1, h2, fun e c' h => ?_⟩
  obtain ⟨hl, h4⟩ := h3 _ _ h
  refine ⟨hl, fun i => ?_⟩
  have h5 := congrFun h4 i
  rw [h5]
  have : (fun j : Fin pts.length => expansion B.params B.elements (B.eff c) (pts.getD j []) + e j) = Φ *ᵥ (fun i : Fin B.elements.length => c.getD i 0) + e := by
    funext j
    rw [Pi.add_apply, ← h1, ofFn_coords c hc]
  rw [this, mulVec_add, mulVec_mulVec, hatK_mul hw h2, one_mulVec, Pi.add_apply]

/-! ## Theorems -/

section Main
variable {Ω : Type} [MeasurableSpace Ω] {P : Measure Ω} [IsProbabilityMeasure P]

/-- **C212.** Least squares at points that determine the polynomial, the outputs being values of a polynomial of the index set with random disturbances of mean zero added, is unbiased: the mean of each coefficient, and of the fitted polynomial at each point, is the true one. -/
theorem c212_unbiased (B : Expansion) (hB : Regular B) {pts : List (List ℝ)} {wts : List ℝ} (hsz : ∀ x ∈ pts, x.length = B.dims) (hwl : wts.length = pts.length)
    (hpos : ∀ w ∈ wts, 0 < w) (hdet : Determined B pts) (c : List ℝ) (hc : c.length = B.elements.length) (σ : ℝ) (e : Fin pts.length → Ω → ℝ)
    (he : Noise P (fun j => wts.getD j 0) σ e) (fit : Ω → List ℝ)
    (hfit : ∀ ω, LsqFit B pts wts (List.ofFn fun j => expansion B.params B.elements (B.eff c) (pts.getD j []) + e j ω) (fit ω)) :
    (∀ i < B.elements.length, Integrable (fun ω => (fit ω).getD i 0) P ∧ ∫ ω, (fit ω).getD i 0 ∂P = c.getD i 0) ∧
    ∀ x : List ℝ, x.length = B.dims → Integrable (fun ω => expansion B.params B.elements (B.eff (fit ω)) x) P ∧
      ∫ ω, expansion B.params B.elements (B.eff (fit ω)) x ∂P = expansion B.params B.elements (B.eff c) x := by
  obtain ⟨Φ, h1, h2, h3⟩ := fit_error B hB hsz hwl hpos hdet c hc
  have key : ∀ i : Fin B.elements.length, Integrable (fun ω => (fit ω).getD i 0) P ∧ ∫ ω, (fit ω).getD i 0 ∂P = c.getD i 0 := by
    intro i
    have e1 : (fun ω => (fit ω).getD i 0) = fun ω => c.getD i 0 + ∑ j, hatK Φ (fun j => wts.getD j 0) i j * e j ω := by
      funext ω
      rw [(h3 (fun j => e j ω) _ (hfit ω)).2 i]
      rfl
    obtain ⟨ha, hb⟩ := he.lin_mean (fun j => hatK Φ (fun j => wts.getD j 0) i j)
    rw [e1]
    refine ⟨(integrable_const _).add ha, ?_⟩
    rw [integral_add (integrable_const _) ha, hb]
    simp
  refine ⟨fun i hi => key ⟨i, hi⟩, fun x hx => ?_⟩
  obtain ⟨φ, hφ⟩ := row_coords B hB x hx
  have e1 : (fun ω => expansion B.params B.elements (B.eff (fit ω)) x) = fun ω => ∑ i : Fin B.elements.length, φ i * (fit ω).getD i 0 := by
    funext ω
    rw [← hφ, ofFn_coords _ (h3 (fun j => e j ω) _ (hfit ω)).1]
  have hi : ∀ i ∈ (Finset.univ : Finset (Fin B.elements.length)), Integrable (fun ω => φ i * (fit ω).getD i 0) P := fun i _ => (key i).1.const_mul _
  rw [e1]
  refine ⟨integrable_finsetSum _ hi, ?_⟩
  rw [integral_finsetSum _ hi, ← ofFn_coords c hc, hφ]
  refine Finset.sum_congr rfl fun i _ => ?_
  rw [integral_const_mul, (key i).2]

omit [IsProbabilityMeasure P] in
/-- **C212.** No linear unbiased estimator is better: if the numbers `t` applied to exact outputs give the quantity `l` of every polynomial of the index set, then the mean square error of `t` applied to the disturbed outputs is at least that of the quantity `l` of the fit. The quantity may be a coefficient, the mean, or the value at a point. -/
theorem c212_best (B : Expansion) (hB : Regular B) {pts : List (List ℝ)} {wts : List ℝ} (hsz : ∀ x ∈ pts, x.length = B.dims) (hwl : wts.length = pts.length)
    (hpos : ∀ w ∈ wts, 0 < w) (hdet : Determined B pts) (c : List ℝ) (hc : c.length = B.elements.length) (σ : ℝ) (e : Fin pts.length → Ω → ℝ)
    (he : Noise P (fun j => wts.getD j 0) σ e) (fit : Ω → List ℝ)
    (hfit : ∀ ω, LsqFit B pts wts (List.ofFn fun j => expansion B.params B.elements (B.eff c) (pts.getD j []) + e j ω) (fit ω))
    (l : Fin B.elements.length → ℝ) (t : Fin pts.length → ℝ)
    (ht : ∀ z : List ℝ, z.length = B.elements.length → ∑ j : Fin pts.length, t j * expansion B.params B.elements (B.eff z) (pts.getD j []) = ∑ i : Fin B.elements.length, l i * z.getD i 0) :
    ∫ ω, (∑ i : Fin B.elements.length, l i * (fit ω).getD i 0 - ∑ i : Fin B.elements.length, l i * c.getD i 0) ^ 2 ∂P ≤
      ∫ ω, (∑ j : Fin pts.length, t j * (expansion B.params B.elements (B.eff c) (pts.getD j []) + e j ω) - ∑ i : Fin B.elements.length, l i * c.getD i 0) ^ 2 ∂P := by
  obtain ⟨Φ, h1, h2, h3⟩ := fit_error B hB hsz hwl hpos hdet c hc
  have hw : ∀ j : Fin pts.length, 0 < wts.getD j 0 := by
    intro j
    have hj : (j : ℕ) < wts.length := by rw [hwl]; exact j.2
    rw [getD_of_lt _ _ _ hj]
    exact hpos _ (List.getElem_mem _)
  have htl : t ᵥ* Φ = l := by
    funext i
    have := ht (List.ofFn (Pi.single i 1)) (by simp)
    simp only [h1, mulVec_single_one, Matrix.col_apply] at this
    rw [show (t ᵥ* Φ) i = ∑ j, t j * Φ j i from rfl, this, Finset.sum_eq_single i]
    · rw [getD_of_lt _ _ _ (by simp), List.getElem_ofFn]; simp
    · intro k _ hk
      rw [getD_of_lt _ _ _ (by simp), List.getElem_ofFn]
      simp [Pi.single_eq_of_ne hk]
    · simp
  set K := hatK Φ (fun j : Fin pts.length => wts.getD j 0) with hK
  have e1 : ∀ ω, ∑ i : Fin B.elements.length, l i * (fit ω).getD i 0 - ∑ i : Fin B.elements.length, l i * c.getD i 0 = ∑ j, (l ᵥ* K) j * e j ω := by
    intro ω
    have : ∑ j, (l ᵥ* K) j * e j ω = l ⬝ᵥ (K *ᵥ fun j => e j ω) := by rw [dotProduct_mulVec]; rfl
    rw [this, ← Finset.sum_sub_distrib]
    refine Finset.sum_congr rfl fun i _ => ?_
    rw [(h3 (fun j => e j ω) _ (hfit ω)).2 i]
    ring
  have e2 : ∀ ω, ∑ j : Fin pts.length, t j * (expansion B.params B.elements (B.eff c) (pts.getD j []) + e j ω) - ∑ i : Fin B.elements.length, l i * c.getD i 0 = ∑ j, t j * e j ω := by
    intro ω
    rw [← ht c hc, ← Finset.sum_sub_distrib]
    exact Finset.sum_congr rfl fun j _ => by ring
  simp only [e1, e2]
  rw [(he.lin_sq _).2, (he.lin_sq _).2]
  exact mul_le_mul_of_nonneg_left (best_row hw h2 l t htl) (sq_nonneg σ)

omit [IsProbabilityMeasure P] in
/-- **C212.** Weighted over the points, the variances of the fitted values add up to `σ ^ 2` for each basis polynomial, and the mean of the weighted misfit is `σ ^ 2` for each point in excess of the number of basis polynomials. -/
theorem c212_total (B : Expansion) (hB : Regular B) {pts : List (List ℝ)} {wts : List ℝ} (hsz : ∀ x ∈ pts, x.length = B.dims) (hwl : wts.length = pts.length)
    (hpos : ∀ w ∈ wts, 0 < w) (hdet : Determined B pts) (c : List ℝ) (hc : c.length = B.elements.length) (σ : ℝ) (e : Fin pts.length → Ω → ℝ)
    (he : Noise P (fun j => wts.getD j 0) σ e) (fit : Ω → List ℝ)
    (hfit : ∀ ω, LsqFit B pts wts (List.ofFn fun j => expansion B.params B.elements (B.eff c) (pts.getD j []) + e j ω) (fit ω)) :
    ∑ j ∈ Finset.range pts.length, wts.getD j 0 * ∫ ω, (expansion B.params B.elements (B.eff (fit ω)) (pts.getD j []) - expansion B.params B.elements (B.eff c) (pts.getD j [])) ^ 2 ∂P =
      σ ^ 2 * B.elements.length ∧
    ∫ ω, misfit pts wts (List.ofFn fun j => expansion B.params B.elements (B.eff c) (pts.getD j []) + e j ω) (expansion B.params B.elements (B.eff (fit ω))) ∂P =
      σ ^ 2 * (pts.length - B.elements.length) := by
  obtain ⟨Φ, h1, h2, h3⟩ := fit_error B hB hsz hwl hpos hdet c hc
  have hw : ∀ j : Fin pts.length, 0 < wts.getD j 0 := by
    intro j
    have hj : (j : ℕ) < wts.length := by rw [hwl]; exact j.2
    rw [getD_of_lt _ _ _ hj]
    exact hpos _ (List.getElem_mem _)
  set K := hatK Φ (fun j : Fin pts.length => wts.getD j 0) with hK
  have e1 : ∀ ω (j : Fin pts.length), expansion B.params B.elements (B.eff (fit ω)) (pts.getD j []) - expansion B.params B.elements (B.eff c) (pts.getD j []) = ∑ k, (Φ * K) j k * e k ω := by
    intro ω j
    obtain ⟨hl, h4⟩ := h3 (fun j => e j ω) _ (hfit ω)
    have e3 : (fun i : Fin B.elements.length => (fit ω).getD i 0) = (fun i : Fin B.elements.length => c.getD i 0) + K *ᵥ fun j => e j ω := funext h4
    rw [← ofFn_coords _ hl, e3, h1, ← ofFn_coords c hc, h1, ofFn_coords c hc, mulVec_add, Pi.add_apply, add_sub_cancel_left, mulVec_mulVec]
    rfl
  constructor
  · rw [Finset.sum_range]
    simp only [e1, (he.lin_sq _).2]
    rw [← total_fit hw h2, Finset.mul_sum]
    exact Finset.sum_congr rfl fun j _ => by ring
  · have e2 : ∀ ω, misfit pts wts (List.ofFn fun j => expansion B.params B.elements (B.eff c) (pts.getD j []) + e j ω) (expansion B.params B.elements (B.eff (fit ω))) =
        ∑ j : Fin pts.length, wts.getD j 0 * (∑ k, (Φ * K - (1 : Matrix (Fin pts.length) (Fin pts.length) ℝ)) j k * e k ω) ^ 2 := by
      intro ω
      unfold misfit
      rw [Finset.sum_range]
      refine Finset.sum_congr rfl fun j _ => ?_
      congr 2
      rw [getD_of_lt (List.ofFn _) _ _ (by simp), List.getElem_ofFn]
      have : ∑ k, (Φ * K - (1 : Matrix (Fin pts.length) (Fin pts.length) ℝ)) j k * e k ω = ∑ k, (Φ * K) j k * e k ω - e j ω := by
        simp only [Matrix.sub_apply, sub_mul, Finset.sum_sub_distrib, Matrix.one_apply]
        simp
      rw [this, ← e1 ω j]
      ring
    simp only [e2]
    rw [integral_finsetSum Finset.univ fun j _ => ((he.lin_sq (fun k => (Φ * K - (1 : Matrix (Fin pts.length) (Fin pts.length) ℝ)) j k)).1.const_mul (wts.getD j 0))]
    simp only [integral_const_mul, (he.lin_sq _).2]
    rw [← total_rest hw h2, Finset.mul_sum]
    exact Finset.sum_congr rfl fun j _ => by ring

omit [IsProbabilityMeasure P] in
/-- **C212.** The mean square of the residuals, from which `get_polyfit(uq=True)` estimates the variance of the outputs (poly.py:862-864), is on average `s ^ 2 (1 - n / m)` for `n` basis polynomials, `m` equally weighted points and disturbances of variance `s ^ 2`. -/
theorem c212_estimate (B : Expansion) (hB : Regular B) {pts : List (List ℝ)} (hne : pts ≠ []) (hsz : ∀ x ∈ pts, x.length = B.dims)
    (hdet : Determined B pts) (c : List ℝ) (hc : c.length = B.elements.length) (s : ℝ) (e : Fin pts.length → Ω → ℝ)
    (he : Noise P (fun _ => 1) s e) (fit : Ω → List ℝ)
    (hfit : ∀ ω, LsqFit B pts (List.replicate pts.length (1 / pts.length)) (List.ofFn fun j => expansion B.params B.elements (B.eff c) (pts.getD j []) + e j ω) (fit ω)) :
    ∫ ω, Data.mean (fun j : Fin pts.length => (expansion B.params B.elements (B.eff c) (pts.getD j []) + e j ω - expansion B.params B.elements (B.eff (fit ω)) (pts.getD j [])) ^ 2) ∂P =
      s ^ 2 * (1 - B.elements.length / pts.length) := by
  have hm : (0 : ℝ) < pts.length := by exact_mod_cast List.length_pos_of_ne_nil hne
  have hwj : ∀ j : Fin pts.length, (List.replicate pts.length (1 / pts.length : ℝ)).getD j 0 = 1 / pts.length := by
    intro j
    rw [getD_of_lt _ _ _ (by simp), List.getElem_replicate]
  have he' : Noise P (fun j : Fin pts.length => (List.replicate pts.length (1 / pts.length : ℝ)).getD j 0) (s / √pts.length) e := by
    refine ⟨he.mem, he.mean, fun i j => ?_⟩
    rw [he.cov i j, hwj, div_pow, Real.sq_sqrt hm.le]
    split_ifs
    · field_simp
    · rfl
  have h := (c212_total B hB hsz (by simp) (by intro w hw; rw [List.eq_of_mem_replicate hw]; positivity) hdet c hc _ e he' fit hfit).2
  rw [div_pow, Real.sq_sqrt hm.le] at h
  rw [show s ^ 2 * (1 - (B.elements.length : ℝ) / pts.length) = s ^ 2 / pts.length * (pts.length - B.elements.length) by field_simp, ← h]
  congr 1
  funext ω
  unfold misfit Data.mean
  rw [Finset.sum_range, Finset.sum_div]
  refine Finset.sum_congr rfl fun j _ => ?_
  rw [hwj, getD_of_lt (List.ofFn _) _ _ (by simp), List.getElem_ofFn]
  ring

end Main

/-- There are such disturbances for all weights and all `σ`. -/
theorem exists_noise {m : ℕ} (hm : 0 < m) (w : Fin m → ℝ) (hw : ∀ j, 0 < w j) (σ : ℝ) :
    ∃ (Ω : Type) (_ : MeasurableSpace Ω) (P : Measure Ω) (e : Fin m → Ω → ℝ), IsProbabilityMeasure P ∧ Noise P w σ e := by
  have : Nonempty (Fin m × Bool) := ⟨(⟨0, hm⟩, true)⟩
  refine ⟨Fin m × Bool, inferInstance, (PMF.uniformOfFintype (Fin m × Bool)).toMeasure, fun j ω => if ω.1 = j then (if ω.2 then 1 else -1) * (σ * √(m / w j)) else 0, PMF.toMeasure.isProbabilityMeasure _, ?_, ?_, ?_⟩
  · intro j
    exact MemLp.of_discrete
  · intro j
    rw [PMF.integral_eq_sum]
    simp [Fintype.sum_prod_type, PMF.uniformOfFintype_apply]
  · intro i j
    rw [PMF.integral_eq_sum]
    simp only [Fintype.sum_prod_type, PMF.uniformOfFintype_apply]
    have hm' : (m : ℝ) ≠ 0 := by exact_mod_cast hm.ne'
    split_ifs with h
    · subst h
      have := (hw i).ne'
      simp
      ring_nf
      rw [Real.sq_sqrt (Nat.cast_nonneg m), inv_pow, Real.sq_sqrt (hw i).le]
      field_simp
    · refine Finset.sum_eq_zero fun k _ => ?_
      by_cases hk : k = i
      · subst hk; simp [h]
      · simp [hk]

/-- The hypotheses of C212 are met by planes, four points with equal weights and disturbances of variance 1. -/
example : Regular planes ∧ ∃ (pts : List (List ℝ)) (Ω : Type) (_ : MeasurableSpace Ω) (P : Measure Ω) (e : Fin pts.length → Ω → ℝ) (fit : Ω → List ℝ),
    (∀ x ∈ pts, x.length = planes.dims) ∧ pts.length = 4 ∧ Determined planes pts ∧ IsProbabilityMeasure P ∧ Noise P (fun _ => 1) 1 e ∧
    ∀ ω, LsqFit planes pts (List.replicate pts.length (1 / pts.length)) (List.ofFn fun j => expansion planes.params planes.elements (planes.eff [1, 2, 3]) (pts.getD j []) + e j ω) (fit ω) := by
  obtain ⟨pts, M, R, h1, h2, h3, h4, -⟩ := planes_case
  obtain ⟨Ω, inst, P, e, hP, he⟩ := exists_noise (m := pts.length) (by omega) (fun _ => 1) (fun _ => one_pos) 1
  have : ∀ ω, ∃ c, LsqFit planes pts (List.replicate pts.length (1 / pts.length)) (List.ofFn fun j => expansion planes.params planes.elements (planes.eff [1, 2, 3]) (pts.getD j []) + e j ω) c := by
    intro ω
    obtain ⟨c, hc⟩ := exists_lstsq (designMatrix M (List.replicate pts.length (1 / pts.length))) (rhs (List.replicate pts.length (1 / pts.length)) (List.ofFn fun j => expansion planes.params planes.elements (planes.eff [1, 2, 3]) (pts.getD j []) + e j ω)) M.length
    exact ⟨c, M, h4, hc⟩
  choose fit hfit using this
  exact ⟨planes_regular, pts, Ω, inst, P, e, fit, h1, h2, h3, hP, he, hfit⟩

end EQ.Poly
