import Verif.Corr.Model
import Mathlib.Probability.Distributions.Gaussian.Multivariate
import Mathlib.Probability.CDF
import Mathlib.Analysis.Matrix.PosDef
import Mathlib.Topology.Order.IntermediateValue
import Mathlib.LinearAlgebra.Matrix.Block
import Mathlib.Tactic.FinCases

/-!
# Laws of the correlated samples: C72, C103, C104
-/

namespace EQ.Corr

open EQ.Basis Matrix MeasureTheory ProbabilityTheory

/-- Contract of `np.linalg.cholesky` (`correlations.py:80`). -/
def CholOK (S A : Matrix (Fin d) (Fin d) ℝ) : Prop := A * Aᵀ = S ∧ (∀ i j, i < j → A i j = 0) ∧ ∀ i, 0 < A i i

/-! ## C72: the fictive correlation matrix and the correlated normal samples -/

/-- C72. For every requested matrix and every outcome of the root finding, `R0` is symmetric, has a unit diagonal, and is zero
(above the diagonal, and by symmetry below) wherever the requested correlation is. -/
theorem c72_fictive (R : Matrix (Fin d) (Fin d) ℝ) (rho : Fin d → Fin d → ℝ) :
    (fictive R rho)ᵀ = fictive R rho ∧ (∀ i, fictive R rho i i = 1) ∧
    (∀ i j, i < j → R i j = 0 → fictive R rho i j = 0 ∧ fictive R rho j i = 0) ∧
    ∀ i j, i < j → R i j ≠ 0 → fictive R rho i j = rho i j ∧ fictive R rho j i = rho i j := by
  refine ⟨?_, fun i => ?_, fun i j hij h => ?_, fun i j hij h => ?_⟩
  · ext i j
    unfold fictive
    rw [Matrix.transpose_apply, Matrix.of_apply, Matrix.of_apply]
    rcases lt_trichotomy i j with h | h | h
    · rw [if_neg h.not_gt, if_pos h, if_pos h]
    · subst h; rfl
    · rw [if_pos h, if_neg h.not_gt, if_pos h]
  · unfold fictive; simp
  · unfold fictive
    simp only [Matrix.of_apply]
    rw [if_pos hij, if_pos h, if_neg hij.not_gt, if_pos hij]
    exact ⟨rfl, rfl⟩
  · unfold fictive
    simp only [Matrix.of_apply]
    rw [if_pos hij, if_neg h, if_neg hij.not_gt, if_pos hij]
    exact ⟨rfl, rfl⟩

/-- Specification: the matrix of second moments of the rows of `X`. -/
noncomputable def secondMoments (X : Matrix (Fin N) (Fin d) ℝ) : Matrix (Fin d) (Fin d) ℝ := (1 / (N : ℝ)) • (Xᵀ * X)

/-- C72. Samples with identity second moments are mapped by the Cholesky factor to samples whose second moments are
`R0`. -/
theorem c72_samples (S A : Matrix (Fin d) (Fin d) ℝ) (hA : CholOK S A) (X : Matrix (Fin N) (Fin d) ℝ)
    (hX : secondMoments X = 1) : secondMoments (X * Aᵀ) = S := by
  unfold secondMoments at *
  rw [Matrix.transpose_mul, Matrix.transpose_transpose]
  have : A * Xᵀ * (X * Aᵀ) = A * (Xᵀ * X) * Aᵀ := by simp only [Matrix.mul_assoc]
  rw [this, ← Matrix.smul_mul, ← Matrix.mul_smul, hX, Matrix.mul_one, hA.1]

theorem chol_posSemidef {S A : Matrix (Fin d) (Fin d) ℝ} (hA : CholOK S A) : S.PosSemidef := by
  have := Matrix.posSemidef_self_mul_conjTranspose A
  rwa [Matrix.conjTranspose_eq_transpose_of_trivial, hA.1] at this

/-- C72. The law of the correlated normal vector `A x`, for a standard normal `x`, is the centred normal law with covariance
`R0`. -/
theorem c72_law (S A : Matrix (Fin d) (Fin d) ℝ) (hA : CholOK S A) :
    (stdGaussian (EuclideanSpace ℝ (Fin d))).map (toEuclideanCLM (𝕜 := ℝ) A) = multivariateGaussian 0 S := by
  have hS := chol_posSemidef hA
  refine IsGaussian.ext ?_ ?_
  · rw [integral_id_multivariateGaussian']
    simp only [id]
    rw [integral_map (by fun_prop) (by fun_prop),
      ContinuousLinearMap.integral_comp_comm _ IsGaussian.integrable_fun_id]
    simp
  · ext u v
    rw [covarianceBilin_multivariateGaussian hS, covarianceBilin_map IsGaussian.memLp_two_id, covarianceBilin_stdGaussian,
      innerSL_apply_apply, ContinuousLinearMap.adjoint_inner_left, ← ContinuousLinearMap.star_eq_adjoint, ← map_star,
      ← mul_apply_eq_comp, ← map_mul, inner_toEuclideanCLM]
    rw [Matrix.star_eq_conjTranspose, Matrix.conjTranspose_eq_transpose_of_trivial, hA.1]

/-! ## C103: marginal laws -/

/-- The `i`-th entry of the correlated sample made of one standard normal point. -/
noncomputable def sampleEntry (A : Matrix (Fin d) (Fin d) ℝ) (Phi : ℝ → ℝ) (icdf : Fin d → ℝ → ℝ) (i : Fin d)
    (x : EuclideanSpace ℝ (Fin d)) : ℝ :=
  correlatedSamples A Phi icdf (Matrix.of fun (_ : Fin 1) j => x j) 0 i

theorem sampleEntry_eq (A : Matrix (Fin d) (Fin d) ℝ) (Phi : ℝ → ℝ) (icdf : Fin d → ℝ → ℝ) (i : Fin d)
    (x : EuclideanSpace ℝ (Fin d)) : sampleEntry A Phi icdf i x = icdf i (Phi (toEuclideanCLM (𝕜 := ℝ) A x i)) := by
  unfold sampleEntry correlatedSamples
  rw [Matrix.of_apply, Matrix.mul_apply]
  congr 2
  show _ = (A *ᵥ x.ofLp) i
  rw [Matrix.mulVec, dotProduct]
  refine Finset.sum_congr rfl fun j _ => ?_
  rw [Matrix.transpose_apply, Matrix.of_apply]; ring

/-- The standard normal distribution function. -/
noncomputable def Phi : ℝ → ℝ := cdf (gaussianReal 0 1)

theorem Phi_strictMono : StrictMono Phi := by
  intro a b hab
  unfold Phi
  rw [cdf_eq_real, cdf_eq_real]
  have hsplit : Set.Iic b = Set.Iic a ∪ Set.Ioc a b := (Set.Iic_union_Ioc_eq_Iic hab.le).symm
  have hdisj : Disjoint (Set.Iic a) (Set.Ioc a b) := Set.disjoint_left.2 fun x hx hx' => absurd hx'.1 (not_lt.2 hx)
  rw [hsplit, measureReal_union hdisj measurableSet_Ioc]
  have : 0 < (gaussianReal 0 1).real (Set.Ioc a b) := by
    rw [measureReal_def, ENNReal.toReal_pos_iff]
    refine ⟨?_, measure_lt_top _ _⟩
    rw [pos_iff_ne_zero]
    intro h0
    have := gaussianReal_absolutelyContinuous' 0 (v := 1) one_ne_zero h0
    rw [Real.volume_Ioc, ENNReal.ofReal_eq_zero] at this
    linarith
  linarith

theorem Phi_continuous : Continuous Phi := by
  have := nullSingletonClass_gaussianReal (μ := 0) (v := 1) one_ne_zero
  rw [continuous_iff_continuousAt]
  intro x
  rw [show Phi = (cdf (gaussianReal 0 1) : ℝ → ℝ) from rfl]
  rw [(cdf (gaussianReal 0 1)).mono.continuousAt_iff_leftLim_eq_rightLim]
  have h := StieltjesFunction.measure_singleton (cdf (gaussianReal 0 1)) x
  rw [measure_cdf, measure_singleton] at h
  have h1 := (ENNReal.ofReal_eq_zero.1 h.symm)
  have h2 := (cdf (gaussianReal 0 1)).mono.leftLim_le (le_refl x)
  rw [(cdf (gaussianReal 0 1)).rightLim_eq]
  linarith

theorem Phi_mem (x : ℝ) : 0 < Phi x ∧ Phi x < 1 := by
  have h0 : 0 ≤ Phi (x - 1) := cdf_nonneg _ _
  have h1 : Phi (x + 1) ≤ 1 := cdf_le_one _ _
  exact ⟨lt_of_le_of_lt h0 (Phi_strictMono (by linarith)), lt_of_lt_of_le (Phi_strictMono (by linarith)) h1⟩

/-- The standard normal probability that `Phi` is at most `t` is `t`. -/
theorem Phi_uniform (t : ℝ) (h0 : 0 ≤ t) (h1 : t ≤ 1) : (gaussianReal 0 1).real {y | Phi y ≤ t} = t := by
  rcases h0.eq_or_lt with rfl | h0
  · have : {y | Phi y ≤ 0} = ∅ := Set.eq_empty_of_forall_notMem fun y hy => absurd hy (not_le.2 (Phi_mem y).1)
    rw [this]; simp
  rcases h1.eq_or_lt with rfl | h1
  · have : {y | Phi y ≤ 1} = Set.univ := Set.eq_univ_of_forall fun y => (Phi_mem y).2.le
    rw [this]; simp
  obtain ⟨a, ha⟩ : ∃ a, Phi a < t := ((tendsto_cdf_atBot (gaussianReal 0 1)).eventually_lt_const h0).exists
  obtain ⟨b, hb⟩ : ∃ b, t < Phi b := ((tendsto_cdf_atTop (gaussianReal 0 1)).eventually_const_lt h1).exists
  obtain ⟨y, hy⟩ : ∃ y, Phi y = t := mem_range_of_exists_le_of_exists_ge Phi_continuous ⟨a, ha.le⟩ ⟨b, hb.le⟩
  have : {z | Phi z ≤ t} = Set.Iic y := by
    ext z
    rw [Set.mem_setOf_eq, ← hy, Phi_strictMono.le_iff_le, Set.mem_Iic]
  rw [this, ← hy]
  unfold Phi
  rw [cdf_eq_real]

/-- Contract of the inverse distribution function of a parameter with distribution function `F`: the generalised inverse. -/
def IcdfOK (F icdf : ℝ → ℝ) : Prop := ∀ u z, 0 < u → u < 1 → (icdf u ≤ z ↔ u ≤ F z)

/-- C103. Whatever the requested correlations and the root finding: if the Cholesky factorisation of `R0` exists, every
column of the correlated samples of standard normal points has the distribution function of its parameter. The joint law
is that of the same transforms applied to a normal vector with covariance `R0`. -/
theorem c103_marginals (R : Matrix (Fin d) (Fin d) ℝ) (rho : Fin d → Fin d → ℝ) (A : Matrix (Fin d) (Fin d) ℝ)
    (hA : CholOK (fictive R rho) A) (F icdf : Fin d → ℝ → ℝ) (hF : ∀ i z, 0 ≤ F i z ∧ F i z ≤ 1) (hi : ∀ i, IcdfOK (F i) (icdf i)) :
    (∀ i z, (stdGaussian (EuclideanSpace ℝ (Fin d))).real {x | sampleEntry A Phi icdf i x ≤ z} = F i z) ∧
    ∀ B : Set (Fin d → ℝ), MeasurableSet {y : EuclideanSpace ℝ (Fin d) | (fun i => icdf i (Phi (y i))) ∈ B} →
      stdGaussian (EuclideanSpace ℝ (Fin d)) {x | (fun i => sampleEntry A Phi icdf i x) ∈ B} =
        multivariateGaussian 0 (fictive R rho) {y | (fun i => icdf i (Phi (y i))) ∈ B} := by
  have hS := chol_posSemidef hA
  have hlaw := c72_law _ _ hA
  refine ⟨fun i z => ?_, fun B hB => ?_⟩
  · have hset : {x | sampleEntry A Phi icdf i x ≤ z} =
        (toEuclideanCLM (𝕜 := ℝ) A) ⁻¹' ((fun y : EuclideanSpace ℝ (Fin d) => y i) ⁻¹' {t | Phi t ≤ F i z}) := by
      ext x
      rw [Set.mem_setOf_eq, sampleEntry_eq, hi i _ _ (Phi_mem _).1 (Phi_mem _).2]
      rfl
    have hm : MeasurableSet {t | Phi t ≤ F i z} := measurableSet_le Phi_continuous.measurable measurable_const
    have hm2 : MeasurableSet ((fun y : EuclideanSpace ℝ (Fin d) => y i) ⁻¹' {t | Phi t ≤ F i z}) :=
      (measurePreserving_eval_multivariateGaussian hS (μ := 0) (i := i)).measurable hm
    rw [hset, measureReal_def, ← Measure.map_apply (by fun_prop) hm2, hlaw,
      (measurePreserving_eval_multivariateGaussian hS).measure_preimage hm.nullMeasurableSet]
    have h1 : (fictive R rho i i).toNNReal = 1 := by rw [(c72_fictive R rho).2.1 i]; exact Real.toNNReal_one
    rw [h1, ← measureReal_def]
    exact Phi_uniform _ (hF i z).1 (hF i z).2
  · rw [← hlaw, Measure.map_apply (by fun_prop) hB]
    congr 1
    ext x
    simp only [Set.mem_setOf_eq, Set.mem_preimage, sampleEntry_eq]

/-! ### An example: two uniform parameters on `[0, 1]` with fictive correlation 1/2 -/

/-- Example: the Cholesky factor of the correlation matrix with entry `1/2`. -/
noncomputable def cholDemo : Matrix (Fin 2) (Fin 2) ℝ := !![1, 0; 1/2, Real.sqrt (3/4)]

theorem cholDemo_ok : CholOK (fictive (!![1, 1/2; 1/2, 1] : Matrix (Fin 2) (Fin 2) ℝ) fun _ _ => 1/2) cholDemo := by
  have h : Real.sqrt (3/4) * Real.sqrt (3/4) = 3/4 := Real.mul_self_sqrt (by norm_num)
  refine ⟨?_, fun i j hij => ?_, fun i => ?_⟩
  · ext i j
    rw [Matrix.mul_apply, Fin.sum_univ_two]
    simp only [Matrix.transpose_apply]
    unfold fictive cholDemo
    fin_cases i <;> fin_cases j <;> simp only [Matrix.of_apply] <;>
      simp [-Nat.ofNat_pos, -Real.sqrt_div', -Real.sqrt_div] <;> (try linarith)
  · fin_cases i <;> fin_cases j <;> simp_all [cholDemo]
  · fin_cases i
    · simp [cholDemo]
    · show 0 < cholDemo 1 1
      unfold cholDemo
      simp

theorem uniform_icdf : IcdfOK (fun z => max 0 (min 1 z)) id := by
  intro u z h0 h1
  simp only [id, le_max_iff, le_min_iff]
  constructor
  · intro h; exact Or.inr ⟨h1.le, h⟩
  · rintro (h | h)
    · linarith
    · exact h.2

example (z : ℝ) : (stdGaussian (EuclideanSpace ℝ (Fin 2))).real {x | sampleEntry cholDemo Phi (fun _ => id) 1 x ≤ z} =
    max 0 (min 1 z) :=
  (c103_marginals _ _ cholDemo cholDemo_ok (fun _ z => max 0 (min 1 z)) (fun _ => id)
    (fun _ z => ⟨le_max_left _ _, max_le zero_le_one (min_le_left _ _)⟩) fun _ => uniform_icdf).1 1 z

/-- Two samples with identity second moments. -/
example : secondMoments (!![1, 1; 1, -1] : Matrix (Fin 2) (Fin 2) ℝ) = 1 := by
  ext i j
  unfold secondMoments
  fin_cases i <;> fin_cases j <;> simp [Matrix.mul_apply, Fin.sum_univ_two] <;> norm_num

/-! ## C104: no requested correlation -/

/-- C104. If no correlation is requested, then whatever the root finding would return: `R0` is the identity, its only
Cholesky factor is the identity, each sample entry depends on its own coordinate only, and the joint density is the product of
the marginal densities. -/
theorem c104_independent (R : Matrix (Fin d) (Fin d) ℝ) (hR : ∀ i j, i < j → R i j = 0) (rho : Fin d → Fin d → ℝ)
    (A : Matrix (Fin d) (Fin d) ℝ) (hA : CholOK (fictive R rho) A) (Phi : ℝ → ℝ) (icdf : Fin d → ℝ → ℝ) :
    A = 1 ∧ (∀ (X : Matrix (Fin N) (Fin d) ℝ) p i, correlatedSamples A Phi icdf X p i = icdf i (Phi (X p i))) ∧
    ∀ (ppf : ℝ → ℝ) (cdf pdf : Fin d → ℝ → ℝ) (x : Fin d → ℝ), jointPdf (fictive R rho) ppf cdf pdf x = ∏ i, pdf i (x i) := by
  have hI : fictive R rho = 1 := by
    ext i j
    obtain ⟨-, h2, h3, -⟩ := c72_fictive R rho
    rcases lt_trichotomy i j with h | h | h
    · rw [(h3 i j h (hR i j h)).1, Matrix.one_apply_ne h.ne]
    · subst h; rw [h2, Matrix.one_apply_eq]
    · rw [(h3 j i h (hR j i h)).2, Matrix.one_apply_ne h.ne']
  obtain ⟨hAA, htri, hpos⟩ := hA
  rw [hI] at hAA
  have hA1 : A = 1 := by
    have hinv : A⁻¹ = Aᵀ := Matrix.inv_eq_right_inv hAA
    have hb : A.BlockTriangular OrderDual.toDual := fun i j hij => htri i j hij
    have : Invertible A := ⟨Aᵀ, mul_eq_one_comm.1 hAA, hAA⟩
    have hb' := Matrix.blockTriangular_inv_of_blockTriangular hb
    rw [hinv] at hb'
    have hoff : ∀ i j, i ≠ j → A i j = 0 := fun i j hij => by
      rcases lt_or_gt_of_ne hij with h | h
      · exact htri i j h
      · exact hb' (show OrderDual.toDual i < OrderDual.toDual j from h)
    ext i j
    by_cases hij : i = j
    · subst hij
      have h := congrFun (congrFun hAA i) i
      rw [Matrix.mul_apply, Finset.sum_eq_single i (fun k _ hk => by rw [hoff i k (Ne.symm hk), zero_mul])
        (fun h => absurd (Finset.mem_univ _) h), Matrix.transpose_apply, Matrix.one_apply_eq] at h
      rw [Matrix.one_apply_eq]
      nlinarith [hpos i]
    · rw [hoff i j hij, Matrix.one_apply_ne hij]
  refine ⟨hA1, fun X p i => ?_, fun ppf cdf pdf x => ?_⟩
  · unfold correlatedSamples
    rw [hA1, Matrix.transpose_one, Matrix.mul_one, Matrix.of_apply]
  · unfold jointPdf
    simp only
    set U := fun i => ppf (cdf i (x i)) with hU
    have hden : ∏ i, normPdf (U i) = multinormPdf (1 : Matrix (Fin d) (Fin d) ℝ) U := by
      unfold normPdf multinormPdf
      rw [Finset.prod_div_distrib, ← Real.exp_sum, Finset.prod_const, Finset.card_univ, Fintype.card_fin, inv_one,
        Matrix.one_mulVec, Matrix.det_one, mul_one, dotProduct]
      congr 1
      · congr 1
        rw [← Finset.sum_neg_distrib, Finset.sum_div]
        refine Finset.sum_congr rfl fun i _ => by ring
      · exact ((Real.sqrt_eq_iff_mul_self_eq (by positivity) (by positivity)).2
          (by rw [← mul_pow, Real.mul_self_sqrt (by positivity)])).symm
    have hpos' : 0 < ∏ i, normPdf (U i) := Finset.prod_pos fun i _ => by unfold normPdf; positivity
    rw [hI, ← hden, div_self hpos'.ne', one_mul]

/-- The identity meets the hypotheses. -/
example : CholOK (fictive (1 : Matrix (Fin 2) (Fin 2) ℝ) fun _ _ => 7) 1 := by
  refine ⟨?_, fun i j hij => Matrix.one_apply_ne hij.ne, fun i => by simp⟩
  ext i j
  unfold fictive
  fin_cases i <;> fin_cases j <;> simp

end EQ.Corr
