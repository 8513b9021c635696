import Verif.Corr.LawProps
import Mathlib.MeasureTheory.Integral.Pi
import Mathlib.MeasureTheory.Measure.Lebesgue.EqHaar
import Mathlib.Probability.Distributions.Gaussian.Real
import Mathlib.Probability.Independence.Integration
import Mathlib.MeasureTheory.Constructions.Polish.Basic
import Mathlib.LinearAlgebra.Matrix.ToLin

/-!
# The joint density of the correlated samples: C150
-/

namespace EQ.Corr

open EQ.Basis Matrix MeasureTheory ProbabilityTheory
open scoped ENNReal

/-- The product of measures with densities has the product of the densities. -/
theorem pi_withDensity {f : Fin d → ℝ → ℝ≥0∞} (hf : ∀ i, Measurable (f i))
    [∀ i, IsProbabilityMeasure ((volume : Measure ℝ).withDensity (f i))] :
    Measure.pi (fun i => (volume : Measure ℝ).withDensity (f i)) = (volume : Measure (Fin d → ℝ)).withDensity fun x => ∏ i, f i (x i) := by
  refine Measure.pi_eq fun s hs => ?_
  have hm : Measurable fun x : Fin d → ℝ => ∏ i, f i (x i) := Finset.measurable_prod _ fun i _ => (hf i).comp (measurable_pi_apply i)
  rw [withDensity_apply _ (MeasurableSet.univ_pi hs), ← lintegral_indicator (MeasurableSet.univ_pi hs)]
  have e : (Set.univ.pi s).indicator (fun x : Fin d → ℝ => ∏ i, f i (x i)) = fun x => ∏ i, (s i).indicator (f i) (x i) := by
    funext x
    classical
    by_cases hx : x ∈ Set.univ.pi s
    · rw [Set.indicator_of_mem hx]
      exact Finset.prod_congr rfl fun i _ => (Set.indicator_of_mem (hx i (Set.mem_univ i)) _).symm
    · rw [Set.indicator_of_notMem hx]
      simp only [Set.mem_pi, Set.mem_univ, true_implies, not_forall] at hx
      obtain ⟨i, hi⟩ := hx
      exact (Finset.prod_eq_zero (Finset.mem_univ i) (Set.indicator_of_notMem hi _)).symm
  rw [e]
  have key : ∀ (m : ℕ) (g : Fin m → ℝ → ℝ≥0∞), (∀ i, Measurable (g i)) →
      ∫⁻ x : Fin m → ℝ, ∏ i, g i (x i) = ∏ i, ∫⁻ x, g i x := by
    intro m
    induction m with
    | zero =>
      intro g _
      rw [volume_pi, Measure.pi_of_empty _ fun i => i.elim0]
      simp
    | succ m ih =>
      intro g hg
      have hp := (measurePreserving_piFinSuccAbove (fun _ : Fin (m+1) => (volume : Measure ℝ)) 0).symm
      have h1 := hp.lintegral_comp_emb (MeasurableEquiv.measurableEmbedding _) (fun x => ∏ i, g i (x i))
      rw [show (volume : Measure (Fin (m+1) → ℝ)) = Measure.pi fun _ => volume from rfl, ← h1]
      have h2 : ∀ a : ℝ × (Fin m → ℝ), (∏ i, g i ((MeasurableEquiv.piFinSuccAbove (fun _ => ℝ) 0).symm a i)) = g 0 a.1 * ∏ i, g i.succ (a.2 i) := by
        intro a
        rw [Fin.prod_univ_succ]
        rfl
      simp only [h2]
      rw [lintegral_prod_mul (g := fun x : Fin m → ℝ => ∏ i, g i.succ (x i)) (hg 0).aemeasurable]
      · rw [Fin.prod_univ_succ]
        congr 1
        exact ih (fun i => g i.succ) fun i => hg _
      · exact (Finset.measurable_prod _ fun i _ => (hg i.succ).comp (measurable_pi_apply i)).aemeasurable
  rw [key d _ fun i => (hf i).indicator (hs i)]
  refine Finset.prod_congr rfl fun i _ => ?_
  rw [lintegral_indicator (hs i), withDensity_apply _ (hs i)]

/-- Densities are carried along by maps with a left inverse. -/
theorem map_withDensity {α β : Type*} [MeasurableSpace α] [MeasurableSpace β] (μ : Measure α) {c : α → ℝ≥0∞} (hc : Measurable c)
    {T : α → β} (hT : Measurable T) {T' : β → α} (hT' : Measurable T') (h : ∀ a, T' (T a) = a) :
    (μ.withDensity c).map T = (μ.map T).withDensity fun b => c (T' b) := by
  ext s hs
  rw [Measure.map_apply hT hs, withDensity_apply _ (hT hs), withDensity_apply _ hs, setLIntegral_map (f := fun b => c (T' b)) hs (hc.comp hT') hT]
  simp only [h]

theorem normPdf_eq (u : ℝ) : normPdf u = gaussianPDFReal 0 1 u := by
  unfold normPdf gaussianPDFReal
  simp only [NNReal.coe_one, mul_one, sub_zero]
  rw [div_eq_inv_mul]

theorem normPdf_pos (u : ℝ) : 0 < normPdf u := by
  unfold normPdf
  positivity

theorem gauss_pi : Measure.pi (fun _ : Fin d => gaussianReal 0 1) =
    (volume : Measure (Fin d → ℝ)).withDensity fun x => ENNReal.ofReal (∏ i, normPdf (x i)) := by
  have h1 : gaussianReal 0 1 = (volume : Measure ℝ).withDensity (gaussianPDF 0 1) := gaussianReal_of_var_ne_zero 0 one_ne_zero
  have : IsProbabilityMeasure ((volume : Measure ℝ).withDensity (gaussianPDF 0 1)) := by rw [← h1]; infer_instance
  rw [h1, pi_withDensity (f := fun _ => gaussianPDF 0 1) fun _ => measurable_gaussianPDF 0 1]
  congr 1
  funext x
  rw [ENNReal.ofReal_prod_of_nonneg fun i _ => (normPdf_pos _).le]
  refine Finset.prod_congr rfl fun i _ => ?_
  rw [normPdf_eq]
  rfl

theorem prod_normPdf (x : Fin d → ℝ) : ∏ i, normPdf (x i) = Real.exp (-(x ⬝ᵥ x) / 2) / Real.sqrt ((2 * Real.pi) ^ d) := by
  unfold normPdf
  rw [Finset.prod_div_distrib, ← Real.exp_sum, Finset.prod_const, Finset.card_univ, Fintype.card_fin]
  congr 1
  · congr 1
    rw [dotProduct, ← Finset.sum_neg_distrib, Finset.sum_div]
    exact Finset.sum_congr rfl fun i _ => by ring
  · rw [Real.sqrt_eq_rpow, Real.sqrt_eq_rpow, ← Real.rpow_natCast, ← Real.rpow_mul (by positivity), ← Real.rpow_natCast,
      ← Real.rpow_mul (by positivity), mul_comm (1 / 2 : ℝ)]

/-- The law of `A x` for a standard normal `x` has the density of the code. -/
theorem gauss_map {S A : Matrix (Fin d) (Fin d) ℝ} (hA : CholOK S A) :
    (Measure.pi (fun _ : Fin d => gaussianReal 0 1)).map (fun x => A *ᵥ x) =
      (volume : Measure (Fin d → ℝ)).withDensity fun y => ENNReal.ofReal (multinormPdf S y) := by
  obtain ⟨hAA, htri, hpos⟩ := hA
  have hdet : 0 < A.det := by
    rw [Matrix.det_of_lowerTriangular A fun i j hij => htri i j (by simpa using hij)]
    exact Finset.prod_pos fun i _ => hpos i
  have hunit : IsUnit A.det := hdet.ne'.isUnit
  have hSdet : S.det = A.det ^ 2 := by rw [← hAA, Matrix.det_mul, Matrix.det_transpose, sq]
  have hSinv : S⁻¹ = A⁻¹ᵀ * A⁻¹ := by rw [← hAA, Matrix.mul_inv_rev, Matrix.transpose_nonsing_inv]
  have hT : Measurable fun x : Fin d → ℝ => A *ᵥ x := (Matrix.toLin' A).continuous_of_finiteDimensional.measurable
  have hT' : Measurable fun x : Fin d → ℝ => A⁻¹ *ᵥ x := (Matrix.toLin' A⁻¹).continuous_of_finiteDimensional.measurable
  have hg : Measurable fun x : Fin d → ℝ => ENNReal.ofReal (∏ i, normPdf (x i)) := by
    refine ENNReal.measurable_ofReal.comp ?_
    refine Finset.measurable_prod _ fun i _ => ?_
    have : Measurable normPdf := by
      have e : normPdf = gaussianPDFReal 0 1 := funext normPdf_eq
      rw [e]
      exact measurable_gaussianPDFReal 0 1
    exact this.comp (measurable_pi_apply i)
  rw [gauss_pi, map_withDensity _ hg hT hT' fun x => by rw [Matrix.mulVec_mulVec, Matrix.nonsing_inv_mul _ hunit, Matrix.one_mulVec]]
  have hmap := Measure.map_linearMap_addHaar_pi_eq_smul_addHaar (f := Matrix.toLin' A) (by rw [LinearMap.det_toLin']; exact hdet.ne') volume
  rw [LinearMap.det_toLin'] at hmap
  change (volume : Measure (Fin d → ℝ)).map (fun x => A *ᵥ x) = _ at hmap
  have hgc : Measurable fun y : Fin d → ℝ => ENNReal.ofReal (∏ i, normPdf ((A⁻¹ *ᵥ y) i)) := hg.comp hT'
  rw [hmap, withDensity_smul_measure, ← withDensity_smul _ hgc]
  congr 1
  funext y
  simp only [Pi.smul_apply, smul_eq_mul]
  rw [← ENNReal.ofReal_mul (abs_nonneg _), prod_normPdf]
  congr 1
  unfold multinormPdf
  have hq : (A⁻¹ *ᵥ y) ⬝ᵥ (A⁻¹ *ᵥ y) = y ⬝ᵥ S⁻¹ *ᵥ y := by
    rw [hSinv, ← Matrix.mulVec_mulVec, Matrix.dotProduct_mulVec, dotProduct_comm, Matrix.mulVec_transpose]
  rw [hq, hSdet, Real.sqrt_mul (by positivity), Real.sqrt_sq hdet.le, abs_of_pos (inv_pos.2 hdet)]
  field_simp

/-- A distribution with density `pdf`, distribution function `F` and inverse `icdf`. -/
structure Margin (pdf F icdf : ℝ → ℝ) : Prop where
  meas : Measurable pdf
  nonneg : ∀ x, 0 ≤ pdf x
  total : ∫⁻ x, ENNReal.ofReal (pdf x) = 1
  cdf : ∀ z, F z = ((volume : Measure ℝ).withDensity fun x => ENNReal.ofReal (pdf x)).real (Set.Iic z)
  inv : IcdfOK F icdf

/-- The law of a parameter. -/
noncomputable def marginLaw (pdf : ℝ → ℝ) : Measure ℝ := (volume : Measure ℝ).withDensity fun x => ENNReal.ofReal (pdf x)

theorem Margin.prob {pdf F icdf : ℝ → ℝ} (h : Margin pdf F icdf) : IsProbabilityMeasure (marginLaw pdf) :=
  ⟨by rw [marginLaw, withDensity_apply _ MeasurableSet.univ, Measure.restrict_univ, h.total]⟩

theorem icdf_mono {F icdf : ℝ → ℝ} (h : IcdfOK F icdf) : Monotone fun y => icdf (Phi y) := by
  intro a b hab
  rw [h _ _ (Phi_mem a).1 (Phi_mem a).2]
  exact (Phi_strictMono.monotone hab).trans ((h _ _ (Phi_mem b).1 (Phi_mem b).2).1 le_rfl)

theorem Margin.cdf_icdf {pdf F icdf : ℝ → ℝ} (h : Margin pdf F icdf) {u : ℝ} (h0 : 0 < u) (h1 : u < 1) : F (icdf u) = u := by
  have := h.prob
  refine le_antisymm ?_ ((h.inv u _ h0 h1).1 le_rfl)
  -- the distribution function is continuous
  have hF : F = fun z => ProbabilityTheory.cdf (marginLaw pdf) z := by
    funext z
    rw [h.cdf z, cdf_eq_real]
    rfl
  have hna : NullSingletonClass (marginLaw pdf) := by
    unfold marginLaw
    infer_instance
  have hc : ContinuousAt F (icdf u) := by
    rw [hF, (ProbabilityTheory.cdf (marginLaw pdf)).mono.continuousAt_iff_leftLim_eq_rightLim]
    have h2 := StieltjesFunction.measure_singleton (ProbabilityTheory.cdf (marginLaw pdf)) (icdf u)
    rw [measure_cdf, measure_singleton] at h2
    have h3 := ENNReal.ofReal_eq_zero.1 h2.symm
    have h4 := (ProbabilityTheory.cdf (marginLaw pdf)).mono.leftLim_le (le_refl (icdf u))
    rw [(ProbabilityTheory.cdf (marginLaw pdf)).rightLim_eq]
    linarith
  have hlt : ∀ z, z < icdf u → F z ≤ u := by
    intro z hz
    by_contra hcon
    exact absurd ((h.inv u z h0 h1).2 (not_le.1 hcon).le) (not_le.2 hz)
  have ht : Filter.Tendsto F (nhdsWithin (icdf u) (Set.Iio (icdf u))) (nhds (F (icdf u))) := hc.tendsto.mono_left nhdsWithin_le_nhds
  exact le_of_tendsto ht (Filter.eventually_of_mem self_mem_nhdsWithin fun z hz => hlt z hz)

theorem Margin.map {pdf F icdf : ℝ → ℝ} (h : Margin pdf F icdf) : (gaussianReal 0 1).map (fun y => icdf (Phi y)) = marginLaw pdf := by
  have := h.prob
  have hm := (icdf_mono h.inv).measurable
  have : IsProbabilityMeasure ((gaussianReal 0 1).map fun y => icdf (Phi y)) := Measure.isProbabilityMeasure_map hm.aemeasurable
  refine Measure.eq_of_cdf _ _ ?_
  ext z
  rw [cdf_eq_real, cdf_eq_real, measureReal_def, Measure.map_apply hm measurableSet_Iic, ← measureReal_def]
  have hz : (fun y => icdf (Phi y)) ⁻¹' Set.Iic z = {y | Phi y ≤ F z} := by
    ext y
    exact h.inv _ _ (Phi_mem y).1 (Phi_mem y).2
  rw [hz, Phi_uniform]
  · exact h.cdf z
  · rw [h.cdf z]; exact measureReal_nonneg
  · rw [h.cdf z]
    exact measureReal_le_one (μ := marginLaw pdf)

/-- Contract of `norm.ppf`. -/
structure PpfOK (ppf : ℝ → ℝ) : Prop where
  meas : Measurable ppf
  left : ∀ y, ppf (Phi y) = y

/-- **C150.** For all numbers of parameters, all laws with densities, all requested correlations and all outcomes of the root finding
for which the Cholesky factorisation exists: `get_pdf` is the density of the law of the points returned by `get_correlated_samples`. -/
theorem c150_density (R : Matrix (Fin d) (Fin d) ℝ) (rho : Fin d → Fin d → ℝ) (A : Matrix (Fin d) (Fin d) ℝ) (hA : CholOK (fictive R rho) A)
    (pdf F icdf : Fin d → ℝ → ℝ) (hM : ∀ i, Margin (pdf i) (F i) (icdf i)) (ppf : ℝ → ℝ) (hp : PpfOK ppf) :
    (stdGaussian (EuclideanSpace ℝ (Fin d))).map (fun x i => sampleEntry A Phi icdf i x) =
      (volume : Measure (Fin d → ℝ)).withDensity fun z => ENNReal.ofReal (jointPdf (fictive R rho) ppf F pdf z) := by
  set S := fictive R rho with hS
  have hprob := fun i => (hM i).prob
  have hT1 : ∀ i, Measurable fun y => icdf i (Phi y) := fun i => (icdf_mono (hM i).inv).measurable
  have hF : ∀ i, Measurable (F i) := by
    intro i
    have := hprob i
    have hmono : Monotone (F i) := by
      intro a b hab
      rw [(hM i).cdf a, (hM i).cdf b]
      exact measureReal_mono (Set.Iic_subset_Iic.2 hab) (measure_ne_top (marginLaw (pdf i)) _)
    exact hmono.measurable
  have hAm : Measurable fun x : Fin d → ℝ => A *ᵥ x := (Matrix.toLin' A).continuous_of_finiteDimensional.measurable
  -- the sample as a map of two steps
  have e1 : (stdGaussian (EuclideanSpace ℝ (Fin d))).map (fun x i => sampleEntry A Phi icdf i x) =
      ((Measure.pi (fun _ : Fin d => gaussianReal 0 1)).map (fun x => A *ᵥ x)).map fun y i => icdf i (Phi (y i)) := by
    have hT : Measurable fun (y : Fin d → ℝ) i => icdf i (Phi (y i)) := measurable_pi_lambda _ fun i => (hT1 i).comp (measurable_pi_apply i)
    rw [Measure.map_map hT hAm, ← map_pi_eq_stdGaussian, Measure.map_map]
    · congr 1
      funext x i
      simp only [Function.comp_def]
      rw [sampleEntry_eq]
      rfl
    · refine measurable_pi_lambda _ fun i => ?_
      have : (fun x => sampleEntry A Phi icdf i x) = (fun y => icdf i (Phi y)) ∘ fun x : EuclideanSpace ℝ (Fin d) => toEuclideanCLM (𝕜 := ℝ) A x i :=
        funext fun x => sampleEntry_eq A Phi icdf i x
      rw [this]
      exact (hT1 i).comp (by fun_prop)
    · fun_prop
  rw [e1, gauss_map hA]
  have hnm : Measurable normPdf := by
    have e : normPdf = gaussianPDFReal 0 1 := funext normPdf_eq
    rw [e]
    exact measurable_gaussianPDFReal 0 1
  have hprod : Measurable fun x : Fin d → ℝ => ∏ i, normPdf (x i) :=
    Finset.measurable_prod _ fun i _ => hnm.comp (measurable_pi_apply i)
  have hmn : Measurable (multinormPdf S) := by
    unfold multinormPdf
    have : Continuous fun u : Fin d → ℝ => Real.exp (-(u ⬝ᵥ S⁻¹ *ᵥ u) / 2) / Real.sqrt ((2 * Real.pi) ^ d * S.det) := by
      have h1 : Continuous fun u : Fin d → ℝ => u ⬝ᵥ S⁻¹ *ᵥ u :=
        continuous_id.dotProduct (Matrix.toLin' S⁻¹).continuous_of_finiteDimensional
      exact ((Real.continuous_exp.comp ((h1.neg).div_const 2))).div_const _
    exact this.measurable
  have hprod' : Measurable fun x : Fin d → ℝ => ENNReal.ofReal (∏ i, normPdf (x i)) := ENNReal.measurable_ofReal.comp hprod
  have hquot : Measurable fun y : Fin d → ℝ => ENNReal.ofReal (multinormPdf S y / ∏ i, normPdf (y i)) :=
    ENNReal.measurable_ofReal.comp (hmn.div hprod)
  -- relative to independent normal variables
  have e2 : (volume : Measure (Fin d → ℝ)).withDensity (fun y => ENNReal.ofReal (multinormPdf S y)) =
      (Measure.pi (fun _ : Fin d => gaussianReal 0 1)).withDensity fun y => ENNReal.ofReal (multinormPdf S y / ∏ i, normPdf (y i)) := by
    rw [gauss_pi, ← withDensity_mul _ hprod' hquot]
    congr 1
    funext y
    have hpp : 0 < ∏ i, normPdf (y i) := Finset.prod_pos fun i _ => normPdf_pos _
    rw [Pi.mul_apply, ← ENNReal.ofReal_mul hpp.le, mul_div_cancel₀ _ hpp.ne']
  rw [e2]
  have hT : Measurable fun (y : Fin d → ℝ) i => icdf i (Phi (y i)) := measurable_pi_lambda _ fun i => (hT1 i).comp (measurable_pi_apply i)
  have hT' : Measurable fun (z : Fin d → ℝ) i => ppf (F i (z i)) := measurable_pi_lambda _ fun i =>
    hp.meas.comp ((hF i).comp (measurable_pi_apply i))
  rw [map_withDensity _ hquot hT hT' fun y => by
    funext i
    rw [(hM i).cdf_icdf (Phi_mem _).1 (Phi_mem _).2, hp.left]]
  have : ∀ i, SigmaFinite ((gaussianReal 0 1).map fun y => icdf i (Phi y)) := fun i => by
    rw [(hM i).map]
    have := hprob i
    infer_instance
  rw [Measure.pi_map_pi fun i => (hT1 i).aemeasurable]
  have e3 : (Measure.pi fun i => (gaussianReal 0 1).map fun y => icdf i (Phi y)) =
      (volume : Measure (Fin d → ℝ)).withDensity fun z => ENNReal.ofReal (∏ i, pdf i (z i)) := by
    have e4 : (fun i => (gaussianReal 0 1).map fun y => icdf i (Phi y)) = fun i => (volume : Measure ℝ).withDensity fun x => ENNReal.ofReal (pdf i x) :=
      funext fun i => (hM i).map
    rw [e4]
    have : ∀ i, IsProbabilityMeasure ((volume : Measure ℝ).withDensity fun x => ENNReal.ofReal (pdf i x)) := hprob
    rw [pi_withDensity (f := fun i x => ENNReal.ofReal (pdf i x)) fun i => ENNReal.measurable_ofReal.comp (hM i).meas]
    congr 1
    funext z
    rw [ENNReal.ofReal_prod_of_nonneg fun i _ => (hM i).nonneg _]
  have hpm : Measurable fun z : Fin d → ℝ => ∏ i, pdf i (z i) := Finset.measurable_prod _ fun i _ => (hM i).meas.comp (measurable_pi_apply i)
  have hpm' : Measurable fun z : Fin d → ℝ => ENNReal.ofReal (∏ i, pdf i (z i)) := ENNReal.measurable_ofReal.comp hpm
  have hq' : Measurable fun z : Fin d → ℝ => ENNReal.ofReal (multinormPdf S (fun i => ppf (F i (z i))) / ∏ i, normPdf (ppf (F i (z i)))) :=
    hquot.comp hT'
  rw [e3, ← withDensity_mul _ hpm' hq']
  congr 1
  funext z
  rw [Pi.mul_apply, ← ENNReal.ofReal_mul (Finset.prod_nonneg fun i _ => (hM i).nonneg _), mul_comm]
  rfl

/-- **C150.** `get_pdf` integrates to one, and its integral over a region is the probability that a sample falls into the region. -/
theorem c150_region (R : Matrix (Fin d) (Fin d) ℝ) (rho : Fin d → Fin d → ℝ) (A : Matrix (Fin d) (Fin d) ℝ) (hA : CholOK (fictive R rho) A)
    (pdf F icdf : Fin d → ℝ → ℝ) (hM : ∀ i, Margin (pdf i) (F i) (icdf i)) (ppf : ℝ → ℝ) (hp : PpfOK ppf) :
    ∫⁻ z, ENNReal.ofReal (jointPdf (fictive R rho) ppf F pdf z) = 1 ∧
    ∀ B : Set (Fin d → ℝ), MeasurableSet B →
      stdGaussian (EuclideanSpace ℝ (Fin d)) {x | (fun i => sampleEntry A Phi icdf i x) ∈ B} =
        ∫⁻ z in B, ENNReal.ofReal (jointPdf (fictive R rho) ppf F pdf z) := by
  have h := c150_density R rho A hA pdf F icdf hM ppf hp
  have hm : Measurable fun (x : EuclideanSpace ℝ (Fin d)) i => sampleEntry A Phi icdf i x := by
    refine measurable_pi_lambda _ fun i => ?_
    have : (fun x => sampleEntry A Phi icdf i x) = (fun y => icdf i (Phi y)) ∘ fun x : EuclideanSpace ℝ (Fin d) => toEuclideanCLM (𝕜 := ℝ) A x i :=
      funext fun x => sampleEntry_eq A Phi icdf i x
    rw [this]
    exact (icdf_mono (hM i).inv).measurable.comp (by fun_prop)
  have hB : ∀ B : Set (Fin d → ℝ), MeasurableSet B →
      stdGaussian (EuclideanSpace ℝ (Fin d)) {x | (fun i => sampleEntry A Phi icdf i x) ∈ B} =
        ∫⁻ z in B, ENNReal.ofReal (jointPdf (fictive R rho) ppf F pdf z) := by
    intro B hB
    rw [← withDensity_apply _ hB, ← h, Measure.map_apply hm hB]
    rfl
  refine ⟨?_, hB⟩
  have := hB Set.univ MeasurableSet.univ
  rw [Measure.restrict_univ] at this
  rw [← this]
  simp

/-! ### A case: two uniform parameters on `[0, 1]` -/

/-- There is an inverse of the normal distribution function. -/
theorem exists_ppf : ∃ ppf, PpfOK ppf := by
  have he : MeasurableEmbedding Phi := Phi_continuous.measurableEmbedding Phi_strictMono.injective
  obtain ⟨g, hg, h⟩ := he.exists_measurable_extend measurable_id fun _ => ⟨0⟩
  exact ⟨g, hg, fun y => congrFun h y⟩

theorem uniform_margin : Margin (Set.indicator (Set.Icc 0 1) 1) (fun z => max 0 (min 1 z)) id where
  meas := measurable_one.indicator measurableSet_Icc
  nonneg := fun x => Set.indicator_nonneg (fun _ _ => zero_le_one) x
  total := by
    have : (fun x : ℝ => ENNReal.ofReal (Set.indicator (Set.Icc 0 1) 1 x)) = Set.indicator (Set.Icc 0 1) 1 := by
      funext x
      by_cases h : x ∈ Set.Icc (0:ℝ) 1 <;> simp [h]
    rw [this, lintegral_indicator_one measurableSet_Icc]
    simp
  cdf := fun z => by
    have : (fun x : ℝ => ENNReal.ofReal (Set.indicator (Set.Icc 0 1) 1 x)) = Set.indicator (Set.Icc 0 1) 1 := by
      funext x
      by_cases h : x ∈ Set.Icc (0:ℝ) 1 <;> simp [h]
    rw [this, withDensity_indicator_one measurableSet_Icc, measureReal_def, Measure.restrict_apply measurableSet_Iic]
    have e : Set.Iic z ∩ Set.Icc (0:ℝ) 1 = Set.Icc 0 (min 1 z) := by
      ext x
      simp only [Set.mem_inter_iff, Set.mem_Iic, Set.mem_Icc, le_min_iff]
      tauto
    rw [e, Real.volume_Icc, sub_zero]
    rcases le_total 0 (min 1 z) with h | h
    · rw [ENNReal.toReal_ofReal h, max_eq_right h]
    · rw [ENNReal.ofReal_of_nonpos h, max_eq_left h]
      simp
  inv := uniform_icdf

example (ppf : ℝ → ℝ) (hp : PpfOK ppf) : ∫⁻ z, ENNReal.ofReal (jointPdf (fictive (!![1, 1/2; 1/2, 1] : Matrix (Fin 2) (Fin 2) ℝ) fun _ _ => 1/2) ppf
    (fun _ z => max 0 (min 1 z)) (fun _ => Set.indicator (Set.Icc 0 1) 1) z) = 1 :=
  (c150_region _ _ cholDemo cholDemo_ok _ _ (fun _ => id) (fun _ => uniform_margin) ppf hp).1

end EQ.Corr
