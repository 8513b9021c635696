import Verif.Poly.SampledFit
import Verif.Dist.GridProps
import Verif.Corr.Nataf
import Verif.Corr.LawProps

/-!
# Polynomials of correlated parameters by the Nataf transform: C155
-/

namespace EQ.Corr
open EQ.Param EQ.Basis EQ.Sampling EQ.Sampling.Spec EQ.ParamSpec EQ.Stats.Spec EQ.Poly EQ.Poly.Spec EQ.Dist EQ.DistSpec EQ.DistLemmas Polynomial

/-! ## Model -/

/-- The parameters that replace the given ones (`correlations.py:90-94`): standard Gaussian, with the grid of `gaussian.py:25`, no
bounds and mean zero. -/
noncomputable def standardParam : Sampled where
  x := linspace (-15.0 * Real.sqrt 1 + 0, 15.0 * Real.sqrt 1 + 0, 8000)
  w := (linspace (-15.0 * Real.sqrt 1 + 0, 15.0 * Real.sqrt 1 + 0, 8000)).map (density (.norm 0 (Real.sqrt 1)))
  lower := none
  upper := none
  mean := 0

/-- One row of `get_correlated_samples` (`correlations.py:197-206`). -/
noncomputable def natafRow (A : Matrix (Fin d) (Fin d) ℝ) (Phi : ℝ → ℝ) (icdf : Fin d → ℝ → ℝ) (x : List ℝ) : List ℝ :=
  List.ofFn fun i => correlatedSamples A Phi icdf (Matrix.of fun (_ : Fin 1) (j : Fin d) => x.getD j 0) 0 i

/-- The points of `get_points` (`correlations.py:101-102`, `correlations.py:135-144`): the standard points, transformed. -/
noncomputable def natafPoints (A : Matrix (Fin d) (Fin d) ℝ) (Phi : ℝ → ℝ) (icdf : Fin d → ℝ → ℝ) (pts : List (List ℝ)) : List (List ℝ) :=
  pts.map (natafRow A Phi icdf)

/-- `set_model` of the correlated object for a function (`correlations.py:145-168`) and a polynomial solved by numerical integration on a tensor
grid: the model is evaluated at the transformed points, the coefficients are computed on the standard points (`poly.py:147-155`). The first
result are the points, the second the coefficients. -/
noncomputable def natafFit (A : Matrix (Fin d) (Fin d) ℝ) (Phi : ℝ → ℝ) (icdf : Fin d → ℝ → ℝ) (B : Expansion) (orders : List ℕ)
    (model : List ℝ → ℝ) : Except Err (List (List ℝ) × List ℝ) :=
  match tensorGrid (localRules B.params orders) with
  | .error e => .error e
  | .ok (pts, wts) =>
    match B.integrate pts wts ((natafPoints A Phi icdf pts).map model) with
    | .error e => .error e
    | .ok c => .ok (natafPoints A Phi icdf pts, c)

/-- The polynomial of the transform: as many standard parameters as there were, same index set (`correlations.py:90-100`). -/
noncomputable def natafPoly (E : EighArgsort) (d : ℕ) (elements : List (List ℕ)) : Expansion :=
  ⟨(List.replicate d standardParam).map (Sampled.mparam E), elements, none⟩

/-! ## Specification -/

/-- Expectations under the law of a standard parameter: the normal density on its grid. -/
noncomputable def standardE : (ℝ → ℝ) → ℝ := sampleE (standardParam.x.zip standardParam.w)

/-- The standard normal sampled on the grid is the Gaussian of the distribution model. -/
theorem standard_is_gaussian (w : World) (e : Option Dist.Endpoints) (D : Attrs) (h : mkParameter w .gaussian ⟨some 0, some 1, none, none⟩ e = .ok D) :
    ∃ L r, D.law = some L ∧ D.range = some r ∧ standardParam.x = linspace r ∧ standardParam.w = (linspace r).map (density L) := by
  have h := mkParameter_ok h
  simp only [construct, gaussian, Except.ok.injEq] at h
  subst h
  refine ⟨_, _, rfl, rfl, ?_, ?_⟩ <;> simp only [standardParam] <;> norm_num

theorem standard_eq : standardParam.x = linspace (-15, 15, 8000) ∧ standardParam.w = (linspace (-15, 15, 8000)).map phi := by
  have e1 : density (.norm 0 (√1)) = phi := by
    funext x
    simp [density, locScale]
  simp only [standardParam, e1]
  norm_num

theorem standard_enough {o : ℕ} (h : o < 7998) : Enough standardParam o := by
  obtain ⟨h1, h2⟩ := standard_eq
  obtain ⟨g1, g2⟩ := grid_sum_ne phi (-15) 15 (by norm_num) 8000 (by norm_num) (fun x => (phi_pos x).le) (fun x _ _ => phi_pos x)
  refine ⟨by rw [h1, h2, List.length_map], by rw [h2]; exact g1, by rw [h2]; exact g2, ?_⟩
  rw [h1, h2]
  exact grid_card phi (-15) 15 (by norm_num) 8000 (o + 1) (fun x _ _ => phi_pos x) (by omega)

theorem standards_enough {orders : List ℕ} {d : ℕ} (hd : orders.length = d) (h : ∀ o ∈ orders, o < 7998) :
    List.Forall₂ Enough (List.replicate d standardParam) orders := by
  subst hd
  induction orders with
  | nil => exact .nil
  | cons o os ih =>
    exact .cons (standard_enough (h o (by simp))) (ih fun o' h' => h o' (by simp [h']))

/-! ## Recovery -/

/-- **C155, recovery.** For all correlation matrices, marginal laws and models that, as functions of the standard variables, lie in the
span of the basis: `set_model` completes; the polynomial of `get_transformed_poly` evaluated at any standard point is the model at the correlated
point it is mapped to; its `get_mean` and `get_variance` are those of the model at correlated points whose standard points are independent with the
law of the standard parameter. Missing: the values at the points of `get_points`, which are not those of the model (`c155_points_violated`). -/
theorem c155_recovery_partial {d : ℕ} (hd : 0 < d) {E : EighArgsort} (hE : EighArgsortOK E) (A : Matrix (Fin d) (Fin d) ℝ) (Phi : ℝ → ℝ)
    (icdf : Fin d → ℝ → ℝ) (elements : List (List ℕ)) (hB : Regular (natafPoly E d elements)) (orders : List ℕ) (hlen : orders.length = d)
    (ho : ∀ o ∈ orders, o < 7998) (hbox : ∀ row ∈ elements, List.Forall₂ (· ≤ ·) row orders) (hnd : elements.Nodup)
    (model : List ℝ → ℝ) (c : List ℝ) (hc : c.length = elements.length)
    (hm : ∀ x : List ℝ, x.length = d → model (natafRow A Phi icdf x) = expansion (natafPoly E d elements).params elements c x) :
    (∃ pts wts, tensorGrid (localRules (natafPoly E d elements).params orders) = .ok (pts, wts) ∧ pts ≠ [] ∧ (∀ x ∈ pts, x.length = d) ∧
      natafFit A Phi icdf (natafPoly E d elements) orders model = .ok (pts.map (natafRow A Phi icdf), c)) ∧
    (∀ stack : List (List ℝ), (∀ x ∈ stack, x.length = d) →
      (natafPoly E d elements).polyfit c stack = .ok (stack.map fun x => model (natafRow A Phi icdf x))) ∧
    (elements.head? = some (List.replicate d 0) → 2 ≤ c.length →
      Stats.mean c = .ok (prodE (List.replicate d standardE) fun x => model (natafRow A Phi icdf x)) ∧
      Stats.variance c = .ok (lawVar (List.replicate d standardE) fun x => model (natafRow A Phi icdf x))) := by
  have hS := standards_enough hlen ho
  have hdim : (natafPoly E d elements).dims = d := by simp [natafPoly, Expansion.dims]
  have hne : List.replicate d standardParam ≠ [] := by
    intro h
    have := congrArg List.length h
    simp at this
    omega
  obtain ⟨pts, wts, h1, h2, h3, -, h5, h6, h7⟩ := c154_recovery hE _ orders hS hne (natafPoly E d elements) hB rfl rfl hbox hnd c hc
  have hpoly : ∀ stack : List (List ℝ), (∀ x ∈ stack, x.length = d) →
      (natafPoly E d elements).polyfit c stack = .ok (stack.map fun x => model (natafRow A Phi icdf x)) := by
    intro stack hst
    rw [h7 stack fun x hx => by rw [hst x hx, hdim]]
    congr 1
    exact List.map_congr_left fun x hx => (hm x (hst x hx)).symm
  have hpts : pts ≠ [] := by
    rintro rfl
    rw [List.length_nil, List.length_eq_zero_iff] at h2
    rw [h2] at h3
    simp at h3
  refine ⟨⟨pts, wts, h1, hpts, fun x hx => by rw [h5 x hx, hdim], ?_⟩, hpoly, fun hz h2 => ?_⟩
  · have e : (natafPoints A Phi icdf pts).map model = pts.map (expansion (natafPoly E d elements).params (natafPoly E d elements).elements c) := by
      rw [natafPoints, List.map_map]
      exact List.map_congr_left fun x hx => hm x (by rw [h5 x hx, hdim])
    simp only [natafFit, h1, e, h6]
    rfl
  · have := c154_moments hE _ orders hS (natafPoly E d elements) hB rfl rfl hbox hnd (by rw [hdim]; exact hz) c hc h2
      (fun x => model (natafRow A Phi icdf x)) fun x hx => hpoly [x] (by simpa [hdim] using hx)
    rw [List.map_replicate] at this
    exact this

/-! ## Linear models of Gaussian parameters -/

/-- The law of the standard parameter: total mass one, mean zero. -/
theorem standard_law : (∀ a : ℝ, standardE (fun _ => a) = a) ∧ standardE (fun t => t) = 0 := by
  have h := standard_enough (o := 0) (by norm_num)
  obtain ⟨-, -, hE1, hone⟩ := sampled_facts _ _ h.len h.nonneg h.sum
  constructor
  · intro a
    have := hE1 (C a)
    simp only [eval_C] at this
    unfold standardE
    rw [← this, ← mul_one (C a), ← smul_eq_C_mul, map_smul, hone, smul_eq_mul, mul_one]
  · have := (grid_symmetric phi phi_pos 0 15 (by norm_num) 8000 (fun x => by simp [phi]) 1 0 le_rfl (by norm_num) (by norm_num)).1 0 le_rfl
    rw [gridCoeffs, customCoeffs_eq _ _ _ _ le_rfl (by norm_num), customT_zero, add_zero, add_zero, ← standard_eq.2, ← standard_eq.1] at this
    simp only [hone, div_one] at this
    rw [hE1] at this
    simpa [standardE] using this

theorem standardE_quad (a b e : ℝ) : standardE (fun t => a + b * t + e * t ^ 2) = a + e * standardE fun t => t ^ 2 := by
  have h := sampleE_sum (standardParam.x.zip standardParam.w) (Finset.univ : Finset (Fin 3)) ![a, b, e] fun i t => t ^ (i : ℕ)
  simp only [Fin.sum_univ_three, Matrix.cons_val_zero, Matrix.cons_val_one, Matrix.cons_val] at h
  have h1 := standard_law.1 1
  have h2 := standard_law.2
  simp only [standardE] at h1 h2 ⊢
  simpa [h1, h2] using h

/-- Moments of affine functions of independent standard variables. -/
theorem standard_affine (d : ℕ) (a : ℝ) (b : Fin d → ℝ) :
    prodE (List.replicate d standardE) (fun x => a + ∑ j, b j * x.getD j 0) = a ∧
    prodE (List.replicate d standardE) (fun x => (a + ∑ j, b j * x.getD j 0) ^ 2) = a ^ 2 + (∑ j, b j ^ 2) * standardE fun t => t ^ 2 := by
  induction d generalizing a with
  | zero => simp [prodE]
  | succ d ih =>
    have e : ∀ t : ℝ, ∀ xs : List ℝ, a + ∑ j, b j * (t :: xs).getD j 0 = (a + b 0 * t) + ∑ j : Fin d, b j.succ * xs.getD j 0 := by
      intro t xs
      rw [Fin.sum_univ_succ, ← add_assoc]
      rfl
    simp only [List.replicate_succ, prodE, e]
    constructor
    · simp only [(ih _ fun j => b j.succ).1]
      have := standardE_quad a (b 0) 0
      simpa using this
    · simp only [(ih _ fun j => b j.succ).2]
      have := standardE_quad (a ^ 2 + (∑ j : Fin d, b j.succ ^ 2) * standardE fun t => t ^ 2) (2 * a * b 0) (b 0 ^ 2)
      rw [Fin.sum_univ_succ]
      rw [show (fun t => (a + b 0 * t) ^ 2 + (∑ j : Fin d, b j.succ ^ 2) * standardE fun t => t ^ 2) =
        fun t => a ^ 2 + (∑ j : Fin d, b j.succ ^ 2) * (standardE fun t => t ^ 2) + 2 * a * b 0 * t + b 0 ^ 2 * t ^ 2 from funext fun t => by ring, this]
      ring

/-- The inverse distribution function of a Gaussian parameter undoes the normal distribution function. -/
theorem icdf_gaussian {m s : ℝ} (hs : 0 < s) {icdf : ℝ → ℝ} (h : IcdfOK (fun z => Phi ((z - m) / s)) icdf) (y : ℝ) : icdf (Phi y) = m + s * y := by
  have key : ∀ z, icdf (Phi y) ≤ z ↔ m + s * y ≤ z := by
    intro z
    rw [h _ _ (Phi_mem y).1 (Phi_mem y).2, Phi_strictMono.le_iff_le, le_div_iff₀ hs]
    constructor <;> intro h <;> linarith
  exact le_antisymm ((key _).2 le_rfl) ((key _).1 le_rfl)

theorem natafRow_gaussian {d : ℕ} (A : Matrix (Fin d) (Fin d) ℝ) (icdf : Fin d → ℝ → ℝ) (m s : Fin d → ℝ) (hs : ∀ i, 0 < s i)
    (hi : ∀ i, IcdfOK (fun z => Phi ((z - m i) / s i)) (icdf i)) (x : List ℝ) (i : Fin d) :
    (natafRow A Phi icdf x).getD i 0 = m i + s i * ∑ j, A i j * x.getD j 0 := by
  have hl : (i : ℕ) < (natafRow A Phi icdf x).length := by simp [natafRow]
  rw [getD_of_lt _ _ _ hl]
  simp only [natafRow, List.getElem_ofFn, correlatedSamples, Matrix.of_apply, Fin.eta]
  rw [icdf_gaussian (hs i) (hi i), Matrix.mul_apply]
  congr 2
  exact Finset.sum_congr rfl fun j _ => by rw [Matrix.transpose_apply, Matrix.of_apply, mul_comm]

/-- Functions that a basis can represent. -/
def InSpan (params : List MParam) (elements : List (List ℕ)) (g : List ℝ → ℝ) : Prop :=
  ∃ c : List ℝ, c.length = elements.length ∧ ∀ x : List ℝ, x.length = params.length → g x = expansion params elements c x

theorem inSpan_of_coeffs {params : List MParam} {elements : List (List ℕ)} {g : List ℝ → ℝ} (f : ℕ → ℝ)
    (h : ∀ x : List ℝ, x.length = params.length → g x = ∑ k ∈ Finset.range elements.length, f k * basisFun params (elements.getD k []) x) :
    InSpan params elements g := by
  refine ⟨List.ofFn fun k : Fin elements.length => f k, by simp, fun x hx => ?_⟩
  rw [h x hx, sum_expansion _ _ _ (by simp)]
  refine Finset.sum_congr rfl fun k hk => ?_
  rw [Finset.mem_range] at hk
  rw [getD_of_lt (List.ofFn fun k : Fin elements.length => f k) _ _ (by simpa using hk), List.getElem_ofFn]

theorem InSpan.coeffs {params : List MParam} {elements : List (List ℕ)} {g : List ℝ → ℝ} (h : InSpan params elements g) :
    ∃ f : ℕ → ℝ, ∀ x : List ℝ, x.length = params.length → g x = ∑ k ∈ Finset.range elements.length, f k * basisFun params (elements.getD k []) x := by
  obtain ⟨c, hc, h⟩ := h
  exact ⟨fun k => c.getD k 0, fun x hx => by rw [h x hx, sum_expansion _ _ _ hc]⟩

theorem InSpan.add {params : List MParam} {elements : List (List ℕ)} {g g' : List ℝ → ℝ} (h : InSpan params elements g)
    (h' : InSpan params elements g') : InSpan params elements fun x => g x + g' x := by
  obtain ⟨f, hf⟩ := h.coeffs
  obtain ⟨f', hf'⟩ := h'.coeffs
  refine inSpan_of_coeffs (fun k => f k + f' k) fun x hx => ?_
  rw [hf x hx, hf' x hx, ← Finset.sum_add_distrib]
  exact Finset.sum_congr rfl fun k _ => by ring

theorem inSpan_basis {params : List MParam} {elements : List (List ℕ)} {row : List ℕ} (h : row ∈ elements) (a : ℝ) :
    InSpan params elements fun x => a * basisFun params row x := by
  obtain ⟨k, hk, rfl⟩ := List.getElem_of_mem h
  refine inSpan_of_coeffs (fun j => if j = k then a else 0) fun x _ => ?_
  rw [Finset.sum_eq_single k]
  · rw [if_pos rfl, getD_of_lt _ _ _ hk]
  · intro j _ hj
    rw [if_neg hj, zero_mul]
  · intro h; exact absurd (Finset.mem_range.2 hk) h

theorem inSpan_sum {params : List MParam} {elements : List (List ℕ)} {ι : Type*} (I : Finset ι) (g : ι → List ℝ → ℝ)
    (h : ∀ i ∈ I, InSpan params elements (g i)) : InSpan params elements fun x => ∑ i ∈ I, g i x := by
  classical
  induction I using Finset.induction_on with
  | empty => exact inSpan_of_coeffs (fun _ => 0) fun x _ => by simp
  | insert i I hi ih =>
    simp only [Finset.sum_insert hi]
    exact (h i (by simp)).add (ih fun j hj => h j (by simp [hj]))

theorem basisFun_unit (P : MParam) (d : ℕ) (j : ℕ) (hj : j < d) (x : List ℝ) (hx : x.length = d) :
    basisFun (List.replicate d P) ((List.replicate d 0).set j 1) x = univ P 1 (x.getD j 0) := by
  induction d generalizing j x with
  | zero => omega
  | succ d ih =>
    cases x with
    | nil => simp at hx
    | cons t x =>
      have hx' : x.length = d := by simpa using hx
      cases j with
      | zero =>
        have := Stats.basisFun_zero (List.replicate d P) x (by simp [hx'])
        rw [List.length_replicate] at this
        simp only [List.replicate_succ, List.set_cons_zero, basisFun, List.getD_cons_zero, this, mul_one]
      | succ j =>
        have h0 : univ P 0 t = 1 := by rw [univ_eq]; simp [opoly]
        simp only [List.replicate_succ, List.set_cons_succ, basisFun, List.getD_cons_succ, h0, one_mul]
        exact ih j (by omega) x hx'

/-- The first-degree polynomial of a standard parameter is a multiple of the variable. -/
theorem standard_univ_one (E : EighArgsort) : ∃ r : ℝ, ∀ t, t = r * univ (standardParam.mparam E) 1 t := by
  have h := standard_enough (o := 1) (by norm_num)
  obtain ⟨hpos, hset, hE1, hone⟩ := sampled_facts _ _ h.len h.nonneg h.sum
  have hrow : ∀ k, (standardParam.mparam E).ab k = customT (customData standardParam.x standardParam.w) k := fun k =>
    customCoeffs_eq _ _ (k + 1) k (by omega) (by omega)
  have hb := (customT_orthonormal _ hpos 2 (by rw [hset]; exact h.card)).1 1 le_rfl (by norm_num)
  have h0 : ((standardParam.mparam E).ab 0).1 = 0 := by
    rw [hrow, customT_zero]
    simp only [hone, div_one]
    rw [hE1]
    simpa [standardE] using standard_law.2
  refine ⟨√((standardParam.mparam E).ab 1).2, fun t => ?_⟩
  rw [univ_eq, opoly, h0]
  simp only [eval_mul, eval_C, map_zero, sub_zero, eval_X]
  rw [← mul_assoc, mul_inv_cancel₀ (by rw [hrow]; exact (Real.sqrt_pos.2 hb).ne'), one_mul]

theorem affine_inSpan (E : EighArgsort) {d : ℕ} {elements : List (List ℕ)} (hz : List.replicate d 0 ∈ elements)
    (hu : ∀ j < d, (List.replicate d 0).set j 1 ∈ elements) (a : ℝ) (b : Fin d → ℝ) :
    InSpan (natafPoly E d elements).params elements fun x => a + ∑ j, b j * x.getD j 0 := by
  obtain ⟨r, hr⟩ := standard_univ_one E
  have h := (inSpan_basis (params := (natafPoly E d elements).params) hz a).add
    (inSpan_sum (Finset.univ : Finset (Fin d)) _ fun j _ => inSpan_basis (params := (natafPoly E d elements).params) (hu j j.2) (b j * r))
  obtain ⟨c, hc, h⟩ := h
  refine ⟨c, hc, fun x hx => ?_⟩
  rw [← h x hx]
  have hx' : x.length = d := by simpa [natafPoly] using hx
  have hp : (natafPoly E d elements).params = List.replicate d (standardParam.mparam E) := by simp [natafPoly]
  have h0 := Stats.basisFun_zero (List.replicate d (standardParam.mparam E)) x (by simp [hx'])
  rw [List.length_replicate] at h0
  rw [hp]
  simp only [h0, mul_one]
  congr 1
  refine Finset.sum_congr rfl fun j _ => ?_
  rw [basisFun_unit _ d j j.2 x hx', mul_assoc, ← hr]

/-- **C155, linear models.** For Gaussian parameters of any means and deviations, any fictive correlation matrix with its Cholesky factor, and a
linear model in a basis that holds the constant and all linear terms: the mean is that of the model, and the variance is the one that
the covariances `s_i s_j R0_ij` give, times the second moment of the sampled standard normal law. -/
theorem c155_linear {d : ℕ} (hd : 0 < d) {E : EighArgsort} (hE : EighArgsortOK E) (R0 A : Matrix (Fin d) (Fin d) ℝ) (hA : CholOK R0 A)
    (m s : Fin d → ℝ) (hs : ∀ i, 0 < s i) (icdf : Fin d → ℝ → ℝ) (hi : ∀ i, IcdfOK (fun z => Phi ((z - m i) / s i)) (icdf i))
    (elements : List (List ℕ)) (hB : Regular (natafPoly E d elements)) (orders : List ℕ) (hlen : orders.length = d)
    (ho : ∀ o ∈ orders, o < 7998) (hbox : ∀ row ∈ elements, List.Forall₂ (· ≤ ·) row orders) (hnd : elements.Nodup)
    (hz : elements.head? = some (List.replicate d 0)) (hu : ∀ j < d, (List.replicate d 0).set j 1 ∈ elements) (a0 : ℝ) (a : Fin d → ℝ) :
    ∃ pts c, natafFit A Phi icdf (natafPoly E d elements) orders (fun z => a0 + ∑ i : Fin d, a i * z.getD i 0) = .ok (pts, c) ∧
      Stats.mean c = .ok (a0 + ∑ i, a i * m i) ∧
      Stats.variance c = .ok ((∑ i, ∑ j, a i * a j * (s i * s j * R0 i j)) * standardE fun t => t ^ 2) := by
  have hz' : List.replicate d 0 ∈ elements := List.mem_of_mem_head? hz
  set b : Fin d → ℝ := fun j => ∑ i, a i * s i * A i j with hb
  have hT : ∀ x : List ℝ, a0 + ∑ i : Fin d, a i * (natafRow A Phi icdf x).getD i 0 = (a0 + ∑ i, a i * m i) + ∑ j, b j * x.getD j 0 := by
    intro x
    simp only [natafRow_gaussian A icdf m s hs hi, mul_add, Finset.sum_add_distrib, hb, Finset.sum_mul, Finset.mul_sum]
    rw [add_assoc, Finset.sum_comm]
    congr 2
    exact Finset.sum_congr rfl fun j _ => Finset.sum_congr rfl fun i _ => by ring
  obtain ⟨c, hc, hspan⟩ := affine_inSpan E hz' hu (a0 + ∑ i, a i * m i) b
  have h2 : 2 ≤ c.length := by
    rw [hc]
    by_contra hlt
    have hne := hB.ne
    have hl : elements.length = 1 := by
      have := List.length_pos_iff.2 hne
      change 0 < elements.length at this
      omega
    obtain ⟨r, hr⟩ := List.length_eq_one_iff.1 hl
    have e1 := hu 0 hd
    rw [hr, List.mem_singleton] at e1 hz'
    have := congrArg (fun l : List ℕ => l.getD 0 0) (e1.trans hz'.symm)
    obtain ⟨n, rfl⟩ : ∃ n, d = n + 1 := ⟨d - 1, by omega⟩
    simp [List.replicate_succ] at this
  obtain ⟨⟨pts, wts, -, -, -, h⟩, -, hmv⟩ := c155_recovery_partial hd hE A Phi icdf elements hB orders hlen ho hbox hnd
    (fun z => a0 + ∑ i : Fin d, a i * z.getD i 0) c hc (fun x hx => by rw [hT]; exact hspan x (by simpa [natafPoly] using hx))
  obtain ⟨h3, h4⟩ := hmv hz h2
  simp only [lawVar, hT] at h3 h4
  obtain ⟨k1, -⟩ := standard_affine d (a0 + ∑ i, a i * m i) b
  rw [k1] at h3 h4
  refine ⟨_, c, h, h3, ?_⟩
  rw [h4]
  congr 1
  have k2 := (standard_affine d 0 b).2
  simp only [zero_add, ne_eq, OfNat.ofNat_ne_zero, not_false_eq_true, zero_pow] at k2
  simp only [add_sub_cancel_left]
  rw [k2]
  congr 1
  rw [← hA.1]
  simp only [hb, Matrix.mul_apply, Matrix.transpose_apply, sq, Finset.sum_mul, Finset.mul_sum]
  rw [Finset.sum_comm]
  refine Finset.sum_congr rfl fun i _ => ?_
  rw [Finset.sum_comm]
  exact Finset.sum_congr rfl fun j _ => Finset.sum_congr rfl fun k _ => by ring

/-- The inverse distribution function of a Gaussian parameter exists. -/
theorem exists_icdf_gaussian (m s : ℝ) (hs : 0 < s) : ∃ icdf, IcdfOK (fun z => Phi ((z - m) / s)) icdf := by
  have hsurj : ∀ u : ℝ, 0 < u → u < 1 → ∃ y, Phi y = u := by
    intro u h0 h1
    obtain ⟨a, ha⟩ : ∃ a, Phi a < u :=
      ((ProbabilityTheory.tendsto_cdf_atBot (ProbabilityTheory.gaussianReal 0 1)).eventually_lt_const h0).exists
    obtain ⟨b, hb⟩ : ∃ b, u < Phi b :=
      ((ProbabilityTheory.tendsto_cdf_atTop (ProbabilityTheory.gaussianReal 0 1)).eventually_const_lt h1).exists
    exact mem_range_of_exists_le_of_exists_ge Phi_continuous ⟨a, ha.le⟩ ⟨b, hb.le⟩
  classical
  refine ⟨fun u => if h : 0 < u ∧ u < 1 then m + s * (hsurj u h.1 h.2).choose else 0, fun u z h0 h1 => ?_⟩
  dsimp only
  rw [dif_pos ⟨h0, h1⟩]
  have hy := (hsurj u h0 h1).choose_spec
  set y := (hsurj u h0 h1).choose
  rw [← hy, Phi_strictMono.le_iff_le, le_div_iff₀ hs]
  constructor <;> intro h <;> linarith

theorem regular_one (E : EighArgsort) : Regular (natafPoly E 1 [[0], [1]]) := by
  refine ⟨by simp [natafPoly], ?_, ?_, by simp [natafPoly, SquareOpt]⟩
  · simp [natafPoly, Expansion.dims]
  · intro _
    exact ⟨1, rfl⟩

/-- C155, the values at the points: the polynomial of `get_transformed_poly` is a function of the standard variables. At the points of `get_points`, where
the model was evaluated, `get_polyfit` does not return the model: for one Gaussian parameter with mean and variance one and the model `z`
it is wrong by one at every point. -/
theorem c155_points_violated {E : EighArgsort} (hE : EighArgsortOK E) (icdf : ℝ → ℝ) (hi : IcdfOK (fun z => Phi ((z - 1) / 1)) icdf) :
    CholOK (1 : Matrix (Fin 1) (Fin 1) ℝ) 1 ∧
    ∃ pts c, natafFit (1 : Matrix (Fin 1) (Fin 1) ℝ) Phi (fun _ => icdf) (natafPoly E 1 [[0], [1]]) [1] (fun z => z.getD 0 0) = .ok (pts, c) ∧
      pts ≠ [] ∧ (natafPoly E 1 [[0], [1]]).polyfit c pts = .ok (pts.map fun z => z.getD 0 0 + 1) ∧
      (natafPoly E 1 [[0], [1]]).polyfit c pts ≠ .ok (pts.map fun z => z.getD 0 0) := by
  have hT : ∀ x : List ℝ, (natafRow (1 : Matrix (Fin 1) (Fin 1) ℝ) Phi (fun _ => icdf) x).getD 0 0 = 1 + x.getD 0 0 := by
    intro x
    have := natafRow_gaussian (1 : Matrix (Fin 1) (Fin 1) ℝ) (fun _ => icdf) (fun _ => 1) (fun _ => 1) (fun _ => one_pos) (fun _ => hi) x 0
    simpa using this
  obtain ⟨c, hc, hspan⟩ := affine_inSpan E (d := 1) (elements := [[0], [1]]) (by simp) (fun j hj => by
    obtain rfl : j = 0 := by omega
    simp) 1 fun _ => 1
  obtain ⟨⟨pts, wts, -, hne, hl, h⟩, hp, -⟩ := c155_recovery_partial one_pos hE (1 : Matrix (Fin 1) (Fin 1) ℝ) Phi (fun _ => icdf) [[0], [1]] (regular_one E)
    [1] rfl (by simp) (by simp) (by simp) (fun z => z.getD 0 0) c hc (fun x hx => by
      rw [hT, ← hspan x (by simpa [natafPoly] using hx)]
      simp)
  have hfit : (natafPoly E 1 [[0], [1]]).polyfit c (pts.map (natafRow (1 : Matrix (Fin 1) (Fin 1) ℝ) Phi fun _ => icdf)) =
      .ok ((pts.map (natafRow (1 : Matrix (Fin 1) (Fin 1) ℝ) Phi fun _ => icdf)).map fun z => z.getD 0 0 + 1) := by
    rw [hp _ (by
      intro x hx
      obtain ⟨y, -, rfl⟩ := List.mem_map.1 hx
      simp [natafRow])]
    congr 1
    refine List.map_congr_left fun z _ => ?_
    rw [hT, add_comm]
  refine ⟨⟨by simp, fun i j hij => by omega, fun i => by simp⟩, _, c, h, by simpa using hne, hfit, ?_⟩
  rw [hfit]
  intro heq
  have heq := Except.ok.inj heq
  obtain ⟨x, l, rfl⟩ := List.exists_cons_of_ne_nil hne
  simp at heq

/-- Two correlated Gaussian parameters and a linear model: the hypotheses of `c155_recovery_partial` and `c155_linear`. -/
example : ∃ (E : EighArgsort) (icdf : Fin 2 → ℝ → ℝ), EighArgsortOK E ∧ CholOK (fictive !![1, 1/2; 1/2, 1] fun _ _ => 1/2) cholDemo ∧
    (∀ i, IcdfOK (fun z => Phi ((z - 3) / 2)) (icdf i)) ∧ Regular (natafPoly E 2 [[0, 0], [0, 1], [1, 0]]) ∧
    (∀ row ∈ ([[0, 0], [0, 1], [1, 0]] : List (List ℕ)), List.Forall₂ (· ≤ ·) row [1, 1]) ∧
    (∀ j < 2, (List.replicate 2 0).set j 1 ∈ ([[0, 0], [0, 1], [1, 0]] : List (List ℕ))) := by
  obtain ⟨g, hg⟩ := exists_icdf_gaussian 3 2 (by norm_num)
  refine ⟨someEighArgsort, fun _ => g, someEighArgsort_ok, cholDemo_ok, fun _ => hg, ?_, by simp, fun j hj => ?_⟩
  · refine ⟨by simp [natafPoly], ?_, ?_, by simp [natafPoly, SquareOpt]⟩
    · simp [natafPoly, Expansion.dims]
    · simp [natafPoly, Expansion.dims]
  · interval_cases j <;> simp [List.replicate]

end EQ.Corr
