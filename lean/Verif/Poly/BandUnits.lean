import Verif.Poly.BandProps
import Mathlib.Analysis.Matrix.Order
import Mathlib.Analysis.InnerProductSpace.PiL2
import Mathlib.Analysis.InnerProductSpace.Projection.Minimal

/-!
# Units of the outputs, order of the samples and uncertainty bands (C203)
-/

namespace EQ.Poly
open EQ.Basis Matrix

variable {X : Type} {M N : ℕ}

/-! ## Specification -/

/-- The solver minimises the weighted sum of squared residuals. -/
def SolvesLsq (φ : X → Fin N → ℝ) (solve : SolverFun X M N) : Prop := ∀ p w y, (∀ i, 0 < w i) →
  ∀ c : Fin N → ℝ, ∑ i, w i * (∑ k, φ (p i) k * solve p w y k - y i) ^ 2 ≤ ∑ i, w i * (∑ k, φ (p i) k * c k - y i) ^ 2

/-- Variances in other units. -/
def Variances.units (a : ℝ) : Variances → Variances
  | .scalar v => .scalar (a ^ 2 * v)
  | .array l => .array (l.map (a ^ 2 * ·))

/-- The object with all outputs, model values and variances in other units. -/
def Fitted.units (a b : ℝ) (s : Fitted X M) : Fitted X M :=
  { s with
    outputs := s.outputs.map fun y i => a * y i + b
    variances := s.variances.map (Variances.units a)
    evals := s.evals.map fun y i => a * y i + b }

/-- Variances in another order; an array of another length stays as it is. -/
def Variances.reorder (σ : Equiv.Perm (Fin M)) : Variances → Variances
  | .scalar v => .scalar v
  | .array l => .array (if l.length = M then List.ofFn fun i => l.getD (σ i) 0 else l)

/-- The object with the samples in another order. -/
def Fitted.reorder (σ : Equiv.Perm (Fin M)) (s : Fitted X M) : Fitted X M :=
  { points := fun i => s.points (σ i)
    weights := fun i => s.weights (σ i)
    inputs := s.inputs
    outputs := s.outputs.map fun y i => y (σ i)
    variances := s.variances.map (Variances.reorder σ)
    evals := s.evals.map fun y i => y (σ i) }

/-- The samples determine the coefficients. -/
def Fitted.Determined (φ : X → Fin N → ℝ) (s : Fitted X M) : Prop := ∀ c : Fin N → ℝ, (∀ i, ∑ k, φ (s.points i) k * c k = 0) → c = 0

/-! ## Proofs -/

theorem lsq_unique (φ : X → Fin N → ℝ) (p : Fin M → X) (w y : Fin M → ℝ) (hw : ∀ i, 0 < w i)
    (hdet : ∀ c : Fin N → ℝ, (∀ i, ∑ k, φ (p i) k * c k = 0) → c = 0) (c1 c2 : Fin N → ℝ)
    (h1 : ∀ c : Fin N → ℝ, ∑ i, w i * (∑ k, φ (p i) k * c1 k - y i) ^ 2 ≤ ∑ i, w i * (∑ k, φ (p i) k * c k - y i) ^ 2)
    (h2 : ∀ c : Fin N → ℝ, ∑ i, w i * (∑ k, φ (p i) k * c2 k - y i) ^ 2 ≤ ∑ i, w i * (∑ k, φ (p i) k * c k - y i) ^ 2) : c1 = c2 := by
  have hm := h1 fun k => (c1 k + c2 k) / 2
  have hm2 := h2 fun k => (c1 k + c2 k) / 2
  have e : ∀ i, ∑ k, φ (p i) k * ((c1 k + c2 k) / 2) = (∑ k, φ (p i) k * c1 k + ∑ k, φ (p i) k * c2 k) / 2 := by
    intro i
    rw [← Finset.sum_add_distrib, Finset.sum_div]
    exact Finset.sum_congr rfl fun k _ => by ring
  have ed : ∀ i, ∑ k, φ (p i) k * (c1 k - c2 k) = ∑ k, φ (p i) k * c1 k - ∑ k, φ (p i) k * c2 k := by
    intro i
    rw [← Finset.sum_sub_distrib]
    exact Finset.sum_congr rfl fun k _ => by ring
  simp only [e] at hm hm2
  have hs : ∑ i, w i * (∑ k, φ (p i) k * (c1 k - c2 k)) ^ 2 ≤ 0 := by
    have : ∑ i, w i * (∑ k, φ (p i) k * (c1 k - c2 k)) ^ 2 =
        2 * ∑ i, w i * (∑ k, φ (p i) k * c1 k - y i) ^ 2 + 2 * ∑ i, w i * (∑ k, φ (p i) k * c2 k - y i) ^ 2 -
        4 * ∑ i, w i * ((∑ k, φ (p i) k * c1 k + ∑ k, φ (p i) k * c2 k) / 2 - y i) ^ 2 := by
      simp only [Finset.mul_sum]
      rw [← Finset.sum_add_distrib, ← Finset.sum_sub_distrib]
      refine Finset.sum_congr rfl fun i _ => ?_
      rw [ed]
      ring
    linarith
  have hz := (Finset.sum_eq_zero_iff_of_nonneg fun i _ => mul_nonneg (hw i).le (sq_nonneg _)).1 (le_antisymm hs (Finset.sum_nonneg fun i _ => mul_nonneg (hw i).le (sq_nonneg _)))
  have := hdet (fun k => c1 k - c2 k) fun i => by
    have := hz i (Finset.mem_univ i)
    rcases mul_eq_zero.1 this with h | h
    · exact absurd h (hw i).ne'
    · exact pow_eq_zero_iff (two_ne_zero) |>.1 h
  funext k
  exact sub_eq_zero.1 (congrFun this k)

theorem fit_affine (φ : X → Fin N → ℝ) (e0 : Fin N → ℝ) (h0 : ∀ x, ∑ k, φ x k * e0 k = 1) (a b : ℝ) (c : Fin N → ℝ) (x : X) :
    ∑ k, φ x k * (a * c k + b * e0 k) = a * ∑ k, φ x k * c k + b := by
  have e : ∀ k, φ x k * (a * c k + b * e0 k) = a * (φ x k * c k) + b * (φ x k * e0 k) := fun k => by ring
  simp only [e, Finset.sum_add_distrib]
  rw [← Finset.mul_sum, ← Finset.mul_sum, h0, mul_one]

theorem solve_units (φ : X → Fin N → ℝ) (e0 : Fin N → ℝ) (h0 : ∀ x, ∑ k, φ x k * e0 k = 1) (solve : SolverFun X M N) (hs : SolvesLsq φ solve)
    (p : Fin M → X) (w y : Fin M → ℝ) (hw : ∀ i, 0 < w i) (hdet : ∀ c : Fin N → ℝ, (∀ i, ∑ k, φ (p i) k * c k = 0) → c = 0) (a b : ℝ) :
    solve p w (fun i => a * y i + b) = fun k => a * solve p w y k + b * e0 k := by
  refine lsq_unique φ p w _ hw hdet _ _ (hs p w _ hw) fun c => ?_
  have e : ∑ i, w i * (∑ k, φ (p i) k * (a * solve p w y k + b * e0 k) - (a * y i + b)) ^ 2 = a ^ 2 * ∑ i, w i * (∑ k, φ (p i) k * solve p w y k - y i) ^ 2 := by
    rw [Finset.mul_sum]
    refine Finset.sum_congr rfl fun i _ => ?_
    rw [fit_affine φ e0 h0]
    ring
  rw [e]
  by_cases ha : a = 0
  · rw [ha]
    simp only [ne_eq, OfNat.ofNat_ne_zero, not_false_eq_true, zero_pow, zero_mul]
    exact Finset.sum_nonneg fun i _ => mul_nonneg (hw i).le (sq_nonneg _)
  · have := mul_le_mul_of_nonneg_left (hs p w y hw fun k => a⁻¹ * c k + (-b / a) * e0 k) (sq_nonneg a)
    refine this.trans (le_of_eq ?_)
    rw [Finset.mul_sum]
    refine Finset.sum_congr rfl fun i _ => ?_
    rw [fit_affine φ e0 h0]
    field_simp
    ring

theorem dataVariance_units (φ : X → Fin N → ℝ) (e0 : Fin N → ℝ) (h0 : ∀ x, ∑ k, φ x k * e0 k = 1) (s : Fitted X M) (c : Fin N → ℝ) (a b : ℝ) :
    (s.units a b).dataVariance φ (fun k => a * c k + b * e0 k) = (s.dataVariance φ c).map fun v i => a ^ 2 * v i := by
  have hf : ∀ x, fitAt φ (fun k => a * c k + b * e0 k) x = a * fitAt φ c x + b := fun x => fit_affine φ e0 h0 a b c x
  unfold Fitted.dataVariance
  rcases s with ⟨pts, wts, inp, out, var, ev⟩
  rcases var with - | v
  · simp only [Fitted.units, Option.map_none]
    cases inp
    · rfl
    · rcases out with - | y
      · rfl
      · simp only [if_true, Option.map_some, hf, Except.map]
        congr 1
        funext _
        unfold Data.mean
        have : ∀ i, (a * y i + b - (a * fitAt φ c (pts i) + b)) ^ 2 = a ^ 2 * (y i - fitAt φ c (pts i)) ^ 2 := fun i => by ring
        simp only [this]
        rw [← Finset.mul_sum]
        ring
  · rcases v with v | l
    · simp only [Fitted.units, Option.map_some, Variances.units]
      cases inp <;> rfl
    · simp only [Fitted.units, Option.map_some, Variances.units]
      by_cases h : l.length = M
      · rw [dif_pos h, dif_pos (by simpa using h)]
        simp [Except.map]
      · rw [dif_neg h, dif_neg (by simpa using h)]
        rfl

/-- **C203, units.** The outputs and their variances in other units, `y ↦ a y + b` and `v ↦ a² v`: values of the fit become `a` times the former ones plus `b`, the bands `|a|` times the former
ones; if the call raised before, it raises the same exception. Least squares with positive weights, samples that determine the coefficients, constants among the polynomials. -/
theorem c203_units (chol : Matrix (Fin N) (Fin N) ℝ → Option (Matrix (Fin N) (Fin N) ℝ)) (hchol : CholContract chol) (φ : X → Fin N → ℝ)
    (e0 : Fin N → ℝ) (h0 : ∀ x, ∑ k, φ x k * e0 k = 1) (solve : SolverFun X M N) (hs : SolvesLsq φ solve) (s : Fitted X M) (hw : ∀ i, 0 < s.weights i)
    (hdet : s.Determined φ) (stack : List X) (a b : ℝ) :
    (s.units a b).polyfitUq chol φ solve stack = (s.polyfitUq chol φ solve stack).map fun r => (r.1.map fun v => a * v + b, r.2.map fun v => |a| * v) := by
  unfold Fitted.polyfitUq Fitted.coefficients
  rcases hev : s.evals with - | y
  · simp [Fitted.units, hev, Except.map]
  · have hevu : (s.units a b).evals = some fun i => a * y i + b := by simp [Fitted.units, hev]
    have hsol : solve (s.units a b).points (s.units a b).weights (fun i => a * y i + b) = fun k => a * solve s.points s.weights y k + b * e0 k :=
      solve_units φ e0 h0 solve hs s.points s.weights y hw hdet a b
    simp only [hevu, hsol]
    set c := solve s.points s.weights y
    have hdv := dataVariance_units φ e0 h0 s c a b
    rcases hv : s.dataVariance φ c with e | v
    · rw [hv] at hdv
      unfold Fitted.polystd
      simp only [hv, hdv]
      rfl
    · rw [hv] at hdv
      rw [polystd_eq chol hchol φ c s v hv, polystd_eq chol hchol φ _ (s.units a b) _ hdv]
      simp only [Except.map, List.map_map]
      congr 2
      · refine List.map_congr_left fun x _ => ?_
        exact fit_affine φ e0 h0 a b c x
      · refine List.map_congr_left fun x _ => ?_
        simp only [Function.comp]
        rw [show (s.units a b).design φ = s.design φ from rfl]
        have e : ∀ j, a ^ 2 * v j * (φ x ᵥ* (((s.design φ)ᵀ * s.design φ + (1 / 10 ^ 10 : ℝ) • 1)⁻¹ * (s.design φ)ᵀ)) j ^ 2 =
            a ^ 2 * (v j * (φ x ᵥ* (((s.design φ)ᵀ * s.design φ + (1 / 10 ^ 10 : ℝ) • 1)⁻¹ * (s.design φ)ᵀ)) j ^ 2) := fun j => by ring
        simp only [e]
        rw [← Finset.mul_sum, Real.sqrt_mul (sq_nonneg a), Real.sqrt_sq_eq_abs]
        ring

theorem solve_reorder (φ : X → Fin N → ℝ) (solve : SolverFun X M N) (hs : SolvesLsq φ solve) (σ : Equiv.Perm (Fin M))
    (p : Fin M → X) (w y : Fin M → ℝ) (hw : ∀ i, 0 < w i) (hdet : ∀ c : Fin N → ℝ, (∀ i, ∑ k, φ (p i) k * c k = 0) → c = 0) :
    solve (fun i => p (σ i)) (fun i => w (σ i)) (fun i => y (σ i)) = solve p w y := by
  refine lsq_unique φ p w y hw hdet _ _ (fun c => ?_) (hs p w y hw)
  have h := hs (fun i => p (σ i)) (fun i => w (σ i)) (fun i => y (σ i)) (fun i => hw _) c
  rwa [Equiv.sum_comp σ fun i => w i * (∑ k, φ (p i) k * solve (fun i => p (σ i)) (fun i => w (σ i)) (fun i => y (σ i)) k - y i) ^ 2,
    Equiv.sum_comp σ fun i => w i * (∑ k, φ (p i) k * c k - y i) ^ 2] at h

theorem dataVariance_reorder (φ : X → Fin N → ℝ) (σ : Equiv.Perm (Fin M)) (s : Fitted X M) (c : Fin N → ℝ) :
    (s.reorder σ).dataVariance φ c = (s.dataVariance φ c).map fun v i => v (σ i) := by
  unfold Fitted.dataVariance
  rcases s with ⟨pts, wts, inp, out, var, ev⟩
  rcases var with - | v
  · simp only [Fitted.reorder, Option.map_none]
    cases inp
    · rfl
    · rcases out with - | y
      · rfl
      · simp only [if_true, Option.map_some, Except.map]
        congr 1
        funext _
        unfold Data.mean
        rw [Equiv.sum_comp σ fun i => (y i - fitAt φ c (pts i)) ^ 2]
  · rcases v with v | l
    · simp only [Fitted.reorder, Option.map_some, Variances.reorder]
      cases inp <;> rfl
    · simp only [Fitted.reorder, Option.map_some, Variances.reorder]
      by_cases h : l.length = M
      · rw [dif_pos h, dif_pos (by rw [if_pos h]; simp)]
        simp only [if_pos h, Except.map, Except.ok.injEq]
        funext i
        have hi : (σ i : ℕ) < l.length := by rw [h]; exact (σ i).2
        simp [List.getD_eq_getElem?_getD, List.getElem?_eq_getElem hi]
      · rw [dif_neg h, dif_neg (by rw [if_neg h]; exact h)]
        rfl

/-- **C203, order.** The samples in another order: same values, same bands, same exceptions. -/
theorem c203_order (chol : Matrix (Fin N) (Fin N) ℝ → Option (Matrix (Fin N) (Fin N) ℝ)) (hchol : CholContract chol) (φ : X → Fin N → ℝ)
    (solve : SolverFun X M N) (hs : SolvesLsq φ solve) (s : Fitted X M) (hw : ∀ i, 0 < s.weights i) (hdet : s.Determined φ) (stack : List X) (σ : Equiv.Perm (Fin M)) :
    (s.reorder σ).polyfitUq chol φ solve stack = s.polyfitUq chol φ solve stack := by
  unfold Fitted.polyfitUq Fitted.coefficients
  rcases hev : s.evals with - | y
  · simp [Fitted.reorder, hev]
  · have hevu : (s.reorder σ).evals = some fun i => y (σ i) := by simp [Fitted.reorder, hev]
    have hsol : solve (s.reorder σ).points (s.reorder σ).weights (fun i => y (σ i)) = solve s.points s.weights y :=
      solve_reorder φ solve hs σ s.points s.weights y hw hdet
    simp only [hevu, hsol]
    set c := solve s.points s.weights y
    have hdv := dataVariance_reorder φ σ s c
    rcases hv : s.dataVariance φ c with e | v
    · rw [hv] at hdv
      unfold Fitted.polystd
      simp only [hv, hdv]
      rfl
    · rw [hv] at hdv
      rw [polystd_eq chol hchol φ c s v hv, polystd_eq chol hchol φ _ (s.reorder σ) _ hdv]
      have e1 : ((s.reorder σ).design φ)ᵀ * (s.reorder σ).design φ = (s.design φ)ᵀ * s.design φ := by
        ext i j
        simp only [Matrix.mul_apply, Matrix.transpose_apply]
        exact Equiv.sum_comp σ fun k => s.design φ k i * s.design φ k j
      rw [e1]
      have e2 : ∀ x j, (φ x ᵥ* (((s.design φ)ᵀ * s.design φ + (1 / 10 ^ 10 : ℝ) • 1)⁻¹ * ((s.reorder σ).design φ)ᵀ)) j =
          (φ x ᵥ* (((s.design φ)ᵀ * s.design φ + (1 / 10 ^ 10 : ℝ) • 1)⁻¹ * (s.design φ)ᵀ)) (σ j) := fun x j => rfl
      simp only [e2]
      congr 3
      funext x
      rw [Equiv.sum_comp σ fun j => v j * (φ x ᵥ* (((s.design φ)ᵀ * s.design φ + (1 / 10 ^ 10 : ℝ) • 1)⁻¹ * (s.design φ)ᵀ)) j ^ 2]

/-- Least squares problems have solutions. -/
theorem lsq_exists (φ : X → Fin N → ℝ) (p : Fin M → X) (w y : Fin M → ℝ) (hw : ∀ i, 0 < w i) : ∃ c0 : Fin N → ℝ, ∀ c : Fin N → ℝ,
    ∑ i, w i * (∑ k, φ (p i) k * c0 k - y i) ^ 2 ≤ ∑ i, w i * (∑ k, φ (p i) k * c k - y i) ^ 2 := by
  let A : Matrix (Fin M) (Fin N) ℝ := Matrix.of fun i k => √(w i) * φ (p i) k
  let T : (Fin N → ℝ) →ₗ[ℝ] EuclideanSpace ℝ (Fin M) := (WithLp.linearEquiv 2 ℝ (Fin M → ℝ)).symm.toLinearMap.comp A.mulVecLin
  let u : EuclideanSpace ℝ (Fin M) := WithLp.toLp 2 fun i => √(w i) * y i
  obtain ⟨v, hv, hmin⟩ := (LinearMap.range T).exists_norm_eq_iInf_of_complete_subspace (Submodule.complete_of_finiteDimensional _) u
  obtain ⟨c0, rfl⟩ := hv
  have key : ∀ c, ‖u - T c‖ ^ 2 = ∑ i, w i * (∑ k, φ (p i) k * c k - y i) ^ 2 := by
    intro c
    rw [EuclideanSpace.norm_sq_eq]
    refine Finset.sum_congr rfl fun i _ => ?_
    have : (u - T c) i = √(w i) * (y i - ∑ k, φ (p i) k * c k) := by
      have h1 : (T c) i = ∑ k, √(w i) * φ (p i) k * c k := rfl
      have h2 : u i = √(w i) * y i := rfl
      rw [PiLp.sub_apply, h1, h2, mul_sub, Finset.mul_sum]
      simp only [mul_assoc]
    rw [this, Real.norm_eq_abs, sq_abs, mul_pow, Real.sq_sqrt (hw i).le]
    ring
  refine ⟨c0, fun c => ?_⟩
  rw [← key, ← key]
  refine pow_le_pow_left₀ (norm_nonneg _) ?_ 2
  rw [hmin]
  have hb : BddBelow (Set.range fun v : ((LinearMap.range T : Submodule ℝ _) : Set (EuclideanSpace ℝ (Fin M))) => ‖u - v‖) :=
    ⟨0, by rintro _ ⟨_, rfl⟩; exact norm_nonneg _⟩
  exact ciInf_le hb ⟨T c, ⟨c, rfl⟩⟩

open scoped MatrixOrder in
/-- Positive definite matrices have factors. -/
theorem chol_exists : ∃ chol : Matrix (Fin N) (Fin N) ℝ → Option (Matrix (Fin N) (Fin N) ℝ), CholContract chol := by
  classical
  have h : ∀ S : Matrix (Fin N) (Fin N) ℝ, S.PosDef → ∃ L : Matrix (Fin N) (Fin N) ℝ, L * Lᵀ = S := by
    intro S hS
    have hp : (0 : Matrix (Fin N) (Fin N) ℝ) ≤ S := Matrix.nonneg_iff_posSemidef.2 hS.posSemidef
    have hr := (Matrix.nonneg_iff_posSemidef.1 (CFC.sqrt_nonneg S)).isHermitian
    have hm := CFC.sqrt_mul_sqrt_self S hp
    refine ⟨CFC.sqrt S, ?_⟩
    rw [← conjTranspose_eq_transpose_of_trivial, hr.eq, hm]
  refine ⟨fun S => if hS : S.PosDef then some (h S hS).choose else none, fun S hS => ⟨(h S hS).choose, dif_pos hS, (h S hS).choose_spec⟩⟩

/-- A line through three samples, with a variance for each of them: the hypotheses hold, and the call answers. -/
example : (∃ chol : Matrix (Fin 2) (Fin 2) ℝ → Option (Matrix (Fin 2) (Fin 2) ℝ), CholContract chol) ∧ ∃ (solve : SolverFun ℝ 3 2) (s : Fitted ℝ 3), SolvesLsq (fun x => ![1, x]) solve ∧ (∀ i, 0 < s.weights i) ∧ s.Determined (fun x => ![1, x]) ∧
    (∀ x : ℝ, ∑ k, ![1, x] k * ![1, 0] k = 1) ∧ (∃ y, s.evals = some y) ∧ ∃ v, s.dataVariance (fun x => ![1, x]) ![1, 2] = .ok v := by
  classical
  refine ⟨chol_exists, fun p w y => if hw : ∀ i, 0 < w i then (lsq_exists (fun x => ![1, x]) p w y hw).choose else 0,
    ⟨![0, 1, 3], fun _ => 1 / 3, true, some ![1, 2, 5], some (.array [1, 2, 3]), some ![1, 2, 5]⟩, ?_, ?_, ?_, ?_, ⟨_, rfl⟩, ?_⟩
  · intro p w y hw c
    simp only [dif_pos hw]
    exact (lsq_exists (fun x => ![1, x]) p w y hw).choose_spec c
  · intro i
    norm_num
  · intro c h
    have h0 := h 0
    have h1 := h 1
    simp [Fin.sum_univ_two] at h0 h1
    funext k
    fin_cases k
    · exact h0
    · simpa [h0] using h1
  · intro x
    simp [Fin.sum_univ_two]
  · exact ⟨_, by unfold Fitted.dataVariance; exact dif_pos rfl⟩

end EQ.Poly
