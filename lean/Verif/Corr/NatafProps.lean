import Verif.Corr.Nataf
import Verif.Param.UniqueProps
import Mathlib.Probability.Moments.Covariance

/-!
# Correlated samples have the requested correlation: C152
-/

namespace EQ.Corr

open EQ.Basis EQ.Param EQ.Poly EQ.Sampling EQ.ParamSpec Matrix MeasureTheory ProbabilityTheory Polynomial
open scoped ENNReal

/-! ## The equation -/

theorem bivariate_neg (rho x y : ℝ) : bivariate rho (-x) (-y) = bivariate rho x y := by
  unfold bivariate
  norm_num

/-- The mesh of two equal rules. -/
theorem grid_two (R : List (ℝ × ℝ)) :
    tensorGrid [⟨R.map Prod.fst, R.map Prod.snd⟩, ⟨R.map Prod.fst, R.map Prod.snd⟩] =
      .ok ((R.flatMap fun a => R.map fun b => (a, b)).map (fun q => [q.1.1, q.2.1]),
        (R.flatMap fun a => R.map fun b => (a, b)).map fun q => q.1.2 * q.2.2) := by
  have h1 : (1.0 : ℝ) = 1 := by norm_num
  simp only [tensorGrid, List.foldl_cons, List.foldl_nil, Sampling.tensorStep, leftSide, rightSide, kronWeights, h1]
  rw [zipWith_kron, zipWith_kron]
  simp [List.flatMap_map, List.map_flatMap, Function.comp_def]

/-- The equation solved: the reversal of the coefficients has no effect. -/
theorem checkDifference_eq {R : List (ℝ × ℝ)} (hR : R.reverse = R.map fun q => (-q.1, q.2)) (c : ℝ) (t1 t2 : ℝ → ℝ) (target rho : ℝ) :
    checkDifference ((R.flatMap fun a => R.map fun b => (a, b)).map (fun q => [q.1.1, q.2.1]))
      (((R.flatMap fun a => R.map fun b => (a, b)).map fun q => q.1.2 * q.2.2).map fun w => w * c) t1 t2 target rho =
      (R.map fun a => (R.map fun b => a.2 * b.2 * c * (t1 a.1 * t2 b.1 * bivariate rho a.1 b.1)).sum).sum - target := by
  set L := R.flatMap fun a => R.map fun b => (a, b) with hL
  have hrev : L.reverse = L.map fun q => ((-q.1.1, q.1.2), (-q.2.1, q.2.2)) := by
    rw [hL, List.reverse_flatMap, hR, List.map_flatMap, List.flatMap_map]
    congr 1
    funext a
    simp only [Function.comp_apply]
    rw [← List.map_reverse, hR, List.map_map, List.map_map]
    rfl
  unfold checkDifference
  simp only
  congr 1
  rw [List.map_map, List.zipWith_map, List.zipWith_self, ← List.map_reverse, hrev, List.map_map, List.map_map, List.zipWith_map, List.zipWith_self]
  have e : ∀ g : (ℝ × ℝ) × ℝ × ℝ → ℝ, (L.map g).sum = (L.map fun q => g ((-q.1.1, q.1.2), (-q.2.1, q.2.2))).sum := by
    intro g
    rw [← List.sum_reverse, ← List.map_reverse, hrev, List.map_map]
    rfl
  have e2 : (R.map fun a => (R.map fun b => a.2 * b.2 * c * (t1 a.1 * t2 b.1 * bivariate rho a.1 b.1)).sum).sum =
      (L.map fun q => q.1.2 * q.2.2 * c * (t1 q.1.1 * t2 q.2.1 * bivariate rho q.1.1 q.2.1)).sum := by
    rw [hL, List.map_flatMap, List.flatMap_def, List.sum_flatten]
    simp only [List.map_map, Function.comp_def]
  rw [e2, e]
  refine congrArg List.sum (List.map_congr_left fun q _ => ?_)
  simp only [Function.comp_apply, List.getD_cons_zero, List.getD_cons_succ, bivariate_neg]
  ring

/-- **C152, the equation.** Whatever the eigenvalue solver returns within its contract, the mesh exists and the function handed to the root
finder is a Gauss rule with 32 points in each direction, applied to the product of the standardised marginals and the normal density on
`[-8, 8]²`, minus the requested correlation: the reversal of the coefficients has no effect, and the one-dimensional rule integrates
polynomials up to degree 63 over `[-8, 8]` exactly. -/
theorem c152_equation {E : EighArgsort} (hE : EighArgsortOK E) :
    ∃ pts w, natafMesh E = .ok (pts, w) ∧ ∃ R : List (ℝ × ℝ), R.length = 32 ∧
      (∀ f : ℝ[X], f.natDegree ≤ 63 → (R.map fun q => q.2 * f.eval q.1).sum = ∫ x in (-8 : ℝ)..8, f.eval x) ∧
      ∀ t1 t2 target rho, checkDifference pts w t1 t2 target rho =
        (R.map fun a => (R.map fun b => a.2 * b.2 * (t1 a.1 * t2 b.1 * bivariate rho a.1 b.1)).sum).sum - target := by
  have hd : meshParam.dist.shapeParameterA = (1 : ℝ) - 1 ∧ meshParam.dist.shapeParameterB = (1 : ℝ) - 1 ∧ meshParam.dist.lower = -8 ∧
      meshParam.dist.upper = 8 := by simp [meshParam, mkUniform]
  obtain ⟨R, h, hsym⟩ := c151_symmetric hE one_pos (by norm_num : (-8 : ℝ) < 8) meshParam.dist hd (some (-8)) (some 8) (order := 31) (by norm_num)
  obtain ⟨R', h', hlen, -, -, hx⟩ := c14_rule_beta hE one_pos one_pos (by norm_num : (-8 : ℝ) < 8) meshParam.dist hd (some (-8)) (some 8)
    (order := 31) (by norm_num)
  rw [h] at h'
  obtain rfl := Except.ok.inj h'
  have hsym' : R.reverse = R.map fun q => (-q.1, q.2) := by
    rw [hsym]
    refine List.map_congr_left fun q _ => ?_
    rw [neg_add_cancel, zero_sub]
  have hgrid : endGrid E [meshParam, meshParam] [31, 31] =
      tensorGrid [⟨R.map Prod.fst, R.map Prod.snd⟩, ⟨R.map Prod.fst, R.map Prod.snd⟩] := by
    have hr : meshParam.rule E 31 = .ok ⟨R.map Prod.fst, R.map Prod.snd⟩ := by
      unfold EParam.rule
      rw [show localQuadrature E (meshParam.dist.ruleParam meshParam.lower meshParam.upper) meshParam.endpoints 31 = .ok R from h]
    simp only [endGrid, endRules, hr]
  refine ⟨_, _, by rw [natafMesh, hgrid, grid_two], R.map fun q => (q.1, 16 * q.2), by simp [hlen], fun f hf => ?_, fun t1 t2 target rho => ?_⟩
  · have := hx f (by rw [hlen]; omega)
    rw [List.map_map]
    have e : (R.map ((fun q => q.2 * f.eval q.1) ∘ fun q => (q.1, 16 * q.2))).sum = 16 * (R.map fun q => q.2 * f.eval q.1).sum := by
      rw [← List.sum_map_mul_left]
      exact congrArg List.sum (List.map_congr_left fun q _ => by simp only [Function.comp_apply]; ring)
    rw [e, this]
    unfold betaE betaWeight
    simp only [sub_self, Real.rpow_zero, mul_one, intervalIntegral.integral_const, smul_eq_mul]
    norm_num
    ring
  · rw [checkDifference_eq hsym', List.map_map]
    congr 2
    refine List.map_congr_left fun a _ => ?_
    simp only [Function.comp_apply, List.map_map]
    refine congrArg List.sum (List.map_congr_left fun b _ => ?_)
    simp only [Function.comp_apply]
    ring

/-! ## The law of two entries -/

/-- A Cholesky factor for two variables. -/
noncomputable def cholTwo (rho : ℝ) : Matrix (Fin 2) (Fin 2) ℝ := !![1, 0; rho, Real.sqrt (1 - rho ^ 2)]

theorem cholTwo_ok {rho : ℝ} (h : rho ^ 2 < 1) : CholOK !![1, rho; rho, 1] (cholTwo rho) := by
  have hs : 0 < Real.sqrt (1 - rho ^ 2) := Real.sqrt_pos.2 (by linarith)
  have h2 : Real.sqrt (1 - rho ^ 2) * Real.sqrt (1 - rho ^ 2) = 1 - rho ^ 2 := Real.mul_self_sqrt (by linarith)
  refine ⟨?_, fun i j hij => ?_, fun i => ?_⟩
  · ext i j
    fin_cases i <;> fin_cases j <;> simp [cholTwo, Matrix.mul_apply, Fin.sum_univ_two, Matrix.vecHead, Matrix.vecTail]
    rw [h2]; ring
  · fin_cases i <;> fin_cases j <;> simp_all [cholTwo]
  · fin_cases i
    · simp [cholTwo]
    · simpa [cholTwo] using hs

theorem multinorm_two {rho : ℝ} (h : rho ^ 2 < 1) (v : Fin 2 → ℝ) : multinormPdf !![1, rho; rho, 1] v = bivariate rho (v 0) (v 1) := by
  have hdet : (!![1, rho; rho, 1] : Matrix (Fin 2) (Fin 2) ℝ).det = 1 - rho ^ 2 := by rw [Matrix.det_fin_two_of]; ring
  have h0 : 1 - rho ^ 2 ≠ 0 := by linarith
  unfold multinormPdf bivariate
  rw [Matrix.inv_def, hdet, Matrix.adjugate_fin_two_of, Ring.inverse_eq_inv']
  have e1 : Real.sqrt ((2 * Real.pi) ^ 2 * (1 - rho ^ 2)) = 2 * Real.pi * Real.sqrt (1 - rho ^ 2) := by
    rw [Real.sqrt_mul (by positivity), Real.sqrt_sq (by positivity)]
  rw [e1, div_eq_inv_mul, ← one_div]
  norm_num
  left
  simp only [Matrix.vecHead, Matrix.vecTail, Function.comp_apply, Fin.succ_zero_eq_one]
  field_simp
  ring

/-- Two entries of the normal vector. -/
theorem pair_law {S A : Matrix (Fin d) (Fin d) ℝ} (hA : CholOK S A) {i j : Fin d} (hi : S i i = 1) (hj : S j j = 1) {rho : ℝ} (hij : S i j = rho)
    (hji : S j i = rho) (h : rho ^ 2 < 1) :
    (stdGaussian (EuclideanSpace ℝ (Fin d))).map (fun x => ![toEuclideanCLM (𝕜 := ℝ) A x i, toEuclideanCLM (𝕜 := ℝ) A x j]) =
      (volume : Measure (Fin 2 → ℝ)).withDensity fun v => ENNReal.ofReal (bivariate rho (v 0) (v 1)) := by
  have hS := chol_posSemidef hA
  have hB := cholTwo_ok h
  let σ : Fin 2 → Fin d := ![i, j]
  let P : EuclideanSpace ℝ (Fin d) →L[ℝ] EuclideanSpace ℝ (Fin 2) :=
    LinearMap.toContinuousLinearMap (Matrix.toEuclideanLin ((1 : Matrix (Fin d) (Fin d) ℝ).submatrix σ id))
  have hP : ∀ y a, P y a = y (σ a) := by
    intro y a
    change (((1 : Matrix (Fin d) (Fin d) ℝ).submatrix σ id) *ᵥ y.ofLp) a = _
    rw [Matrix.mulVec, dotProduct]
    simp [Matrix.one_apply]
  have hadj : ∀ u k, P.adjoint u k = ∑ a, if σ a = k then u a else 0 := by
    intro u k
    have h1 := ContinuousLinearMap.adjoint_inner_left P (EuclideanSpace.single k 1) u
    rw [EuclideanSpace.inner_single_right] at h1
    simp only [one_mul, conj_trivial] at h1
    rw [h1, PiLp.inner_apply]
    refine Finset.sum_congr rfl fun a _ => ?_
    rw [hP]
    simp
  have hlaw : (multivariateGaussian 0 S).map P = multivariateGaussian 0 !![1, rho; rho, 1] := by
    refine IsGaussian.ext ?_ ?_
    · rw [integral_id_multivariateGaussian']
      simp only [id]
      rw [integral_map (by fun_prop) (by fun_prop), ContinuousLinearMap.integral_comp_comm _ IsGaussian.integrable_fun_id]
      simp
    · ext u v
      rw [covarianceBilin_multivariateGaussian (chol_posSemidef hB), covarianceBilin_map IsGaussian.memLp_two_id,
        covarianceBilin_multivariateGaussian hS]
      have aux : ∀ (f : Fin d → ℝ) (w : Fin 2 → ℝ), ∑ k, f k * (∑ a, if σ a = k then w a else 0) = ∑ a, f (σ a) * w a := by
        intro f w
        simp only [Finset.mul_sum]
        rw [Finset.sum_comm]
        refine Finset.sum_congr rfl fun a _ => ?_
        rw [Finset.sum_eq_single (σ a)]
        · rw [if_pos rfl]
        · intro k _ hk
          rw [if_neg (Ne.symm hk), mul_zero]
        · intro hk
          exact absurd (Finset.mem_univ _) hk
      have h1 : ∀ w : EuclideanSpace ℝ (Fin 2), (P.adjoint w).ofLp = fun k => ∑ a, if σ a = k then w a else 0 := fun w => funext (hadj w)
      rw [h1 u, h1 v, dotProduct_comm, dotProduct, aux]
      simp only [Matrix.mulVec, dotProduct]
      have h2 : ∀ k, ∑ l, S k l * (∑ a, if σ a = l then v a else 0) = ∑ a, S k (σ a) * v a := fun k => aux (S k) v
      simp only [h2]
      simp only [Fin.sum_univ_two]
      have s0 : σ 0 = i := rfl
      have s1 : σ 1 = j := rfl
      rw [s0, s1, hi, hj, hij, hji]
      simp
      ring
  rw [show (fun x => ![toEuclideanCLM (𝕜 := ℝ) A x i, toEuclideanCLM (𝕜 := ℝ) A x j]) =
    (fun y : EuclideanSpace ℝ (Fin 2) => y.ofLp) ∘ P ∘ toEuclideanCLM (𝕜 := ℝ) A from ?_]
  · rw [← Measure.map_map (by fun_prop) (by fun_prop), ← Measure.map_map (by fun_prop) (by fun_prop), c72_law S A hA, hlaw, ← c72_law _ _ hB,
      ← map_pi_eq_stdGaussian, Measure.map_map (by fun_prop) (by fun_prop), Measure.map_map (by fun_prop) (by fun_prop)]
    have := gauss_map hB
    simp only [multinorm_two h] at this
    rw [← this]
    rfl
  · funext x
    funext a
    simp only [Function.comp_apply]
    change _ = P (toEuclideanCLM (𝕜 := ℝ) A x) a
    rw [hP]
    fin_cases a <;> rfl

/-- The fictive correlations are smaller than one when the Cholesky factorisation exists. -/
theorem chol_corr {S A : Matrix (Fin d) (Fin d) ℝ} (hA : CholOK S A) {i j : Fin d} (hne : i ≠ j) (hi : S i i = 1) (hj : S j j = 1) {rho : ℝ}
    (hij : S i j = rho) (hji : S j i = rho) : rho ^ 2 < 1 := by
  obtain ⟨hAA, htri, hpos⟩ := hA
  have hdet : 0 < A.det := by
    rw [Matrix.det_of_lowerTriangular A fun i j hij => htri i j (by simpa using hij)]
    exact Finset.prod_pos fun i _ => hpos i
  -- the combination of rows `i` and `j`
  set w : Fin d → ℝ := Pi.single i rho - Pi.single j 1 with hw
  have h0 : w ≠ 0 := by
    intro h
    have := congrFun h j
    rw [hw, Pi.sub_apply, Pi.single_eq_of_ne hne.symm, Pi.single_eq_same, Pi.zero_apply] at this
    norm_num at this
  have h1 : w ᵥ* A ≠ 0 := fun h => h0 (Matrix.eq_zero_of_vecMul_eq_zero hdet.ne' h)
  have h2 : 0 < (w ᵥ* A) ⬝ᵥ (w ᵥ* A) := by
    refine lt_of_le_of_ne (Finset.sum_nonneg fun k _ => mul_self_nonneg _) fun h => h1 (dotProduct_self_eq_zero.1 h.symm)
  have h3 : (w ᵥ* A) ⬝ᵥ (w ᵥ* A) = w ⬝ᵥ S *ᵥ w := by
    rw [← hAA, ← Matrix.mulVec_mulVec, Matrix.dotProduct_mulVec, Matrix.mulVec_transpose]
  rw [h3, hw, Matrix.mulVec_sub, sub_dotProduct, dotProduct_sub, dotProduct_sub] at h2
  simp [Matrix.mulVec_single, hi, hj, hij, hji] at h2
  nlinarith

theorem bivariate_continuous (rho : ℝ) : Continuous fun p : ℝ × ℝ => bivariate rho p.1 p.2 := by
  unfold bivariate
  fun_prop

theorem bivariate_nonneg (rho x y : ℝ) : 0 ≤ bivariate rho x y := by
  unfold bivariate
  have : (0:ℝ) ≤ 2.0 := by norm_num
  have : (0:ℝ) ≤ 1.0 := by norm_num
  positivity

/-- Expectations of functions of two entries of the normal vector. -/
theorem pair_integral {S A : Matrix (Fin d) (Fin d) ℝ} (hA : CholOK S A) {i j : Fin d} (hi : S i i = 1) (hj : S j j = 1) {rho : ℝ}
    (hij : S i j = rho) (hji : S j i = rho) (h : rho ^ 2 < 1) {g : ℝ × ℝ → ℝ} (hg : Measurable g) :
    ∫ x, g (toEuclideanCLM (𝕜 := ℝ) A x i, toEuclideanCLM (𝕜 := ℝ) A x j) ∂stdGaussian (EuclideanSpace ℝ (Fin d)) =
      ∫ p : ℝ × ℝ, g p * bivariate rho p.1 p.2 := by
  have hlaw := pair_law hA hi hj hij hji h
  have hm : Measurable fun x : EuclideanSpace ℝ (Fin d) => ![toEuclideanCLM (𝕜 := ℝ) A x i, toEuclideanCLM (𝕜 := ℝ) A x j] := by
    refine measurable_pi_iff.2 fun a => ?_
    fin_cases a
    · exact (by fun_prop : Measurable fun x : EuclideanSpace ℝ (Fin d) => toEuclideanCLM (𝕜 := ℝ) A x i)
    · exact (by fun_prop : Measurable fun x : EuclideanSpace ℝ (Fin d) => toEuclideanCLM (𝕜 := ℝ) A x j)
  have hg2 : Measurable fun v : Fin 2 → ℝ => g (v 0, v 1) := hg.comp (by fun_prop)
  have hd : Measurable fun v : Fin 2 → ℝ => ENNReal.ofReal (bivariate rho (v 0) (v 1)) :=
    ((bivariate_continuous rho).measurable.comp (by fun_prop : Measurable fun v : Fin 2 → ℝ => (v 0, v 1))).ennreal_ofReal
  have e := integral_map (μ := stdGaussian (EuclideanSpace ℝ (Fin d))) hm.aemeasurable (f := fun v : Fin 2 → ℝ => g (v 0, v 1))
    hg2.aestronglyMeasurable
  rw [hlaw, integral_withDensity_eq_integral_toReal_smul hd (Filter.Eventually.of_forall fun _ => ENNReal.ofReal_lt_top)] at e
  have e2 : ∫ x, g (toEuclideanCLM (𝕜 := ℝ) A x i, toEuclideanCLM (𝕜 := ℝ) A x j) ∂stdGaussian (EuclideanSpace ℝ (Fin d)) =
    ∫ v : Fin 2 → ℝ, (ENNReal.ofReal (bivariate rho (v 0) (v 1))).toReal • g (v 0, v 1) := e.symm
  rw [e2, ← (volume_preserving_finTwoArrow ℝ).integral_comp' (fun p : ℝ × ℝ => g p * bivariate rho p.1 p.2)]
  refine integral_congr_ae (Filter.Eventually.of_forall fun v => ?_)
  simp only [MeasurableEquiv.finTwoArrow_apply]
  rw [ENNReal.toReal_ofReal (bivariate_nonneg _ _ _), smul_eq_mul, mul_comm]

/-- The law of one column of the correlated samples. -/
theorem entry_law {R : Matrix (Fin d) (Fin d) ℝ} {rho : Fin d → Fin d → ℝ} {A : Matrix (Fin d) (Fin d) ℝ} (hA : CholOK (fictive R rho) A)
    {pdf F icdf : Fin d → ℝ → ℝ} (hM : ∀ i, Margin (pdf i) (F i) (icdf i)) (i : Fin d) :
    Measurable (sampleEntry A Phi icdf i) ∧
      (stdGaussian (EuclideanSpace ℝ (Fin d))).map (sampleEntry A Phi icdf i) = marginLaw (pdf i) := by
  have hS := chol_posSemidef hA
  have hT : Measurable fun y => icdf i (Phi y) := (icdf_mono (hM i).inv).measurable
  have he : sampleEntry A Phi icdf i = (fun y => icdf i (Phi y)) ∘ (fun y : EuclideanSpace ℝ (Fin d) => y i) ∘ toEuclideanCLM (𝕜 := ℝ) A := by
    funext x
    rw [sampleEntry_eq]
    rfl
  have hm := (measurePreserving_eval_multivariateGaussian hS (μ := 0) (i := i))
  have h1 : (fictive R rho i i).toNNReal = 1 := by rw [(c72_fictive R rho).2.1 i]; exact Real.toNNReal_one
  refine ⟨?_, ?_⟩
  · rw [he]
    exact hT.comp (hm.measurable.comp (by fun_prop))
  · rw [he, ← Measure.map_map hT (hm.measurable.comp (by fun_prop)), ← Measure.map_map hm.measurable (by fun_prop), c72_law _ _ hA, hm.map_eq, h1]
    exact (hM i).map

/-! ## C152: the correlation of the samples -/

/-- Specification: the correlation coefficient of two random variables. -/
noncomputable def correlation {Ω : Type*} [MeasurableSpace Ω] (P : Measure Ω) (X Y : Ω → ℝ) : ℝ :=
  cov[X, Y; P] / (Real.sqrt Var[X; P] * Real.sqrt Var[Y; P])

/-- The correlation of two columns is the integral discretised by the equation. -/
theorem correlation_integral {R : Matrix (Fin d) (Fin d) ℝ} {rho : Fin d → Fin d → ℝ} {A : Matrix (Fin d) (Fin d) ℝ}
    (hA : CholOK (fictive R rho) A) {pdf F icdf : Fin d → ℝ → ℝ} (hM : ∀ i, Margin (pdf i) (F i) (icdf i)) {i j : Fin d} (hne : i ≠ j) :
    correlation (stdGaussian (EuclideanSpace ℝ (Fin d))) (sampleEntry A Phi icdf i) (sampleEntry A Phi icdf j) =
      ∫ p : ℝ × ℝ, standardised Phi (icdf i) (∫ x, x ∂marginLaw (pdf i)) Var[id; marginLaw (pdf i)] p.1 *
        standardised Phi (icdf j) (∫ x, x ∂marginLaw (pdf j)) Var[id; marginLaw (pdf j)] p.2 * bivariate (fictive R rho i j) p.1 p.2 := by
  obtain ⟨hsym, hdiag, -, -⟩ := c72_fictive R rho
  have hji : fictive R rho j i = fictive R rho i j := by
    conv_lhs => rw [← hsym]
    rfl
  have hrho := chol_corr hA hne (hdiag i) (hdiag j) rfl hji
  have hmean : ∀ k, ∫ x, sampleEntry A Phi icdf k x ∂stdGaussian (EuclideanSpace ℝ (Fin d)) = ∫ x, x ∂marginLaw (pdf k) := by
    intro k
    obtain ⟨h1, h2⟩ := entry_law hA hM k
    rw [← h2, integral_map h1.aemeasurable (by fun_prop)]
  have hvar : ∀ k, Var[sampleEntry A Phi icdf k; stdGaussian (EuclideanSpace ℝ (Fin d))] = Var[id; marginLaw (pdf k)] := by
    intro k
    obtain ⟨h1, h2⟩ := entry_law hA hM k
    rw [← h2, variance_id_map h1.aemeasurable]
  have hT : ∀ k, Measurable fun y => icdf k (Phi y) := fun k => (icdf_mono (hM k).inv).measurable
  have hs : ∀ k m v, Measurable (standardised Phi (icdf k) m v) := fun k m v => ((hT k).sub_const m).div_const _
  have hpair := pair_integral hA (hdiag i) (hdiag j) rfl hji hrho
    (g := fun p => standardised Phi (icdf i) (∫ x, x ∂marginLaw (pdf i)) Var[id; marginLaw (pdf i)] p.1 *
        standardised Phi (icdf j) (∫ x, x ∂marginLaw (pdf j)) Var[id; marginLaw (pdf j)] p.2)
    (((hs i _ _).comp measurable_fst).mul ((hs j _ _).comp measurable_snd))
  rw [← hpair, correlation, covariance, hvar, hvar, hmean, hmean, div_eq_mul_inv, ← integral_mul_const]
  refine integral_congr_ae (Filter.Eventually.of_forall fun x => ?_)
  simp only [standardised, sampleEntry_eq]
  field_simp

/-- **C152, correlated pairs.** For all numbers of parameters, all laws with densities, all requested correlations and all outcomes of the
root finding for which the Cholesky factorisation exists: where the requested correlation is not zero, the correlation of the two columns
of the samples differs from it by the value of the equation at the root returned plus the error of a Gauss rule with 32 points in each
direction on the integral of the product of the standardised marginals against the normal density. -/
theorem c152_correlation {E : EighArgsort} (hE : EighArgsortOK E) :
    ∃ pts w, natafMesh E = .ok (pts, w) ∧ ∃ Q : List (ℝ × ℝ), Q.length = 32 ∧
      (∀ f : ℝ[X], f.natDegree ≤ 63 → (Q.map fun q => q.2 * f.eval q.1).sum = ∫ x in (-8 : ℝ)..8, f.eval x) ∧
      ∀ (d : ℕ) (R : Matrix (Fin d) (Fin d) ℝ) (rho : Fin d → Fin d → ℝ) (A : Matrix (Fin d) (Fin d) ℝ), CholOK (fictive R rho) A →
      ∀ pdf F icdf : Fin d → ℝ → ℝ, (∀ i, Margin (pdf i) (F i) (icdf i)) →
      ∀ i j, i < j → R i j ≠ 0 →
        let t := fun k => standardised Phi (icdf k) (∫ x, x ∂marginLaw (pdf k)) Var[id; marginLaw (pdf k)]
        let density := fun x y => Real.exp (-(x ^ 2 - 2 * rho i j * x * y + y ^ 2) / (2 * (1 - rho i j ^ 2))) /
          (2 * Real.pi * Real.sqrt (1 - rho i j ^ 2))
        correlation (stdGaussian (EuclideanSpace ℝ (Fin d))) (sampleEntry A Phi icdf i) (sampleEntry A Phi icdf j) - R i j =
          checkDifference pts w (t i) (t j) (R i j) (rho i j) +
          ((∫ p : ℝ × ℝ, t i p.1 * t j p.2 * density p.1 p.2) -
            (Q.map fun a => (Q.map fun b => a.2 * b.2 * (t i a.1 * t j b.1 * density a.1 b.1)).sum).sum) := by
  obtain ⟨pts, w, h, Q, hl, hx, hc⟩ := c152_equation hE
  refine ⟨pts, w, h, Q, hl, hx, fun d R rho A hA pdf F icdf hM i j hij hR => ?_⟩
  intro t density
  have hd : ∀ x y, density x y = bivariate (rho i j) x y := by
    intro x y
    simp only [density, bivariate]
    norm_num
    rw [div_eq_inv_mul]
    congr 1
    · ring
    · congr 1
      ring
  have := correlation_integral hA hM hij.ne
  rw [((c72_fictive R rho).2.2.2 i j hij hR).1] at this
  simp only [hd]
  rw [this, hc]
  simp only [t]
  ring

/-- **C152, uncorrelated pairs.** Where the requested correlation is zero the correlation of the samples is zero, in both orders. -/
theorem c152_zero {R : Matrix (Fin d) (Fin d) ℝ} {rho : Fin d → Fin d → ℝ} {A : Matrix (Fin d) (Fin d) ℝ}
    (hA : CholOK (fictive R rho) A) {pdf F icdf : Fin d → ℝ → ℝ} (hM : ∀ i, Margin (pdf i) (F i) (icdf i)) {i j : Fin d} (hij : i < j)
    (hR : R i j = 0) :
    correlation (stdGaussian (EuclideanSpace ℝ (Fin d))) (sampleEntry A Phi icdf i) (sampleEntry A Phi icdf j) = 0 ∧
    correlation (stdGaussian (EuclideanSpace ℝ (Fin d))) (sampleEntry A Phi icdf j) (sampleEntry A Phi icdf i) = 0 := by
  have key : ∀ a b : Fin d, a ≠ b → fictive R rho a b = 0 →
      correlation (stdGaussian (EuclideanSpace ℝ (Fin d))) (sampleEntry A Phi icdf a) (sampleEntry A Phi icdf b) = 0 := by
    intro a b hne h0
    have hb : ∀ x y, bivariate 0 x y = gaussianPDFReal 0 1 x * gaussianPDFReal 0 1 y := by
      intro x y
      simp only [bivariate, gaussianPDFReal]
      norm_num
      rw [mul_mul_mul_comm, ← Real.exp_add, ← mul_inv, ← mul_inv, mul_mul_mul_comm (Real.sqrt _), Real.mul_self_sqrt Real.pi_pos.le, Real.mul_self_sqrt zero_le_two]
      congr 1
      · rw [mul_inv]; norm_num
      · congr 1
        ring
    rw [correlation_integral hA hM hne, h0]
    simp only [hb]
    have e : ∀ f g : ℝ → ℝ, ∫ p : ℝ × ℝ, f p.1 * g p.2 * (gaussianPDFReal 0 1 p.1 * gaussianPDFReal 0 1 p.2) =
        (∫ x, gaussianPDFReal 0 1 x • f x) * ∫ y, gaussianPDFReal 0 1 y • g y := by
      intro f g
      rw [← integral_prod_mul]
      refine integral_congr_ae (Filter.Eventually.of_forall fun p => ?_)
      simp only [smul_eq_mul]
      ring
    rw [e, ← integral_gaussianReal_eq_integral_smul one_ne_zero]
    have hz : ∫ x, standardised Phi (icdf a) (∫ x, x ∂marginLaw (pdf a)) Var[id; marginLaw (pdf a)] x ∂gaussianReal 0 1 = 0 := by
      have hm := (icdf_mono (hM a).inv).measurable
      have hmean : ∫ x, x ∂marginLaw (pdf a) = ∫ y, icdf a (Phi y) ∂gaussianReal 0 1 := by
        rw [← (hM a).map, integral_map hm.aemeasurable (by fun_prop)]
      unfold standardised
      rw [integral_div, div_eq_zero_iff]
      left
      by_cases hi : Integrable (fun y => icdf a (Phi y)) (gaussianReal 0 1)
      · rw [integral_sub hi (integrable_const _), hmean]
        simp
      · refine integral_undef fun h => hi ?_
        refine (h.add (integrable_const (∫ x, x ∂marginLaw (pdf a)))).congr (Filter.Eventually.of_forall fun y => ?_)
        simp only [Pi.add_apply, sub_add_cancel]
    rw [hz, zero_mul]
  obtain ⟨h1, h2⟩ := (c72_fictive R rho).2.2.1 i j hij hR
  exact ⟨key i j hij.ne h1, key j i hij.ne' h2⟩

/-! ### Examples: two uniform parameters with fictive correlation 1/2, and two uncorrelated ones -/

example : EighArgsortOK someEighArgsort ∧ CholOK (fictive (!![1, 1/2; 1/2, 1] : Matrix (Fin 2) (Fin 2) ℝ) fun _ _ => 1/2) cholDemo ∧
    (∀ _ : Fin 2, Margin (Set.indicator (Set.Icc 0 1) 1) (fun z => max 0 (min 1 z)) id) ∧
    (!![1, 1/2; 1/2, 1] : Matrix (Fin 2) (Fin 2) ℝ) 0 1 ≠ 0 :=
  ⟨someEighArgsort_ok, cholDemo_ok, fun _ => uniform_margin, by norm_num⟩

example : correlation (stdGaussian (EuclideanSpace ℝ (Fin 2))) (sampleEntry 1 Phi (fun _ => id) 0) (sampleEntry 1 Phi (fun _ => id) 1) = 0 :=
  (c152_zero (R := 1) (rho := fun _ _ => 1 / 2) (pdf := fun _ => Set.indicator (Set.Icc 0 1) 1) (F := fun _ z => max 0 (min 1 z))
    ⟨by ext a b; fin_cases a <;> fin_cases b <;> simp [fictive], fun a b h => Matrix.one_apply_ne h.ne, fun a => by simp⟩
    (fun _ => uniform_margin) (by decide) (by simp)).1

end EQ.Corr
