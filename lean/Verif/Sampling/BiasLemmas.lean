import Verif.Sampling.InducedProps
import Mathlib.MeasureTheory.Integral.Pi
import Mathlib.MeasureTheory.Integral.IntervalIntegral.Basic
import Mathlib.MeasureTheory.Measure.WithDensity
import Mathlib.MeasureTheory.Function.L1Space.Integrable

/-!
# Helper lemmas: expectations over the random numbers of the induced mesh
-/

namespace EQ.Sampling
open Polynomial MeasureTheory Spec EQ.ParamSpec

/-- The uniform law on `[0, 1]`. -/
noncomputable def unit01 : Measure ℝ := volume.restrict (Set.Icc 0 1)

instance : IsProbabilityMeasure unit01 := ⟨by simp [unit01]⟩

/-- The law with density `P ^ 2 / 2` on `[-1, 1]`. -/
noncomputable def lawOf (P : ℝ[X]) : Measure ℝ :=
  (volume.restrict (Set.Icc (-1) 1)).withDensity fun t => ENNReal.ofReal (P.eval t ^ 2 / 2)

theorem lawOf_Iic (P : ℝ[X]) (x : ℝ) (h1 : -1 ≤ x) (h2 : x ≤ 1) : lawOf P (Set.Iic x) = ENNReal.ofReal (inducedF P x) := by
  have hc := density_cont P
  rw [lawOf, withDensity_apply _ measurableSet_Iic, Measure.restrict_restrict measurableSet_Iic]
  have e : Set.Iic x ∩ Set.Icc (-1) 1 = Set.Icc (-1) x := by
    ext y; simp only [Set.mem_inter_iff, Set.mem_Iic, Set.mem_Icc]
    constructor
    · rintro ⟨a, b, c⟩; exact ⟨b, a⟩
    · rintro ⟨a, b⟩; exact ⟨b, a, b.trans h2⟩
  rw [e, inducedF, intervalIntegral.integral_of_le h1, ← integral_Icc_eq_integral_Ioc,
    ofReal_integral_eq_lintegral_ofReal (hc.continuousOn.integrableOn_Icc) (Filter.Eventually.of_forall fun t => by positivity)]

theorem lawOf_univ {n : ℕ} {P : ℝ[X]} (hP : Orthonormal n P) : lawOf P Set.univ = 1 := by
  have h := lawOf_Iic P 1 (by norm_num) le_rfl
  rw [inducedF_one hP, ENNReal.ofReal_one] at h
  rw [← h, lawOf, withDensity_apply _ MeasurableSet.univ, withDensity_apply _ measurableSet_Iic,
    Measure.restrict_restrict measurableSet_Iic, Measure.restrict_univ,
    Set.inter_eq_self_of_subset_right (s := Set.Iic _) fun y (hy : y ∈ Set.Icc (-1 : ℝ) 1) => hy.2]

/-- Pushing the uniform law through the quantiles gives the induced law. -/
theorem quantile_map {n : ℕ} {P : ℝ[X]} (hP : Orthonormal n P) (q : ℝ → ℝ) (hm : Measurable q)
    (hq : ∀ v, 0 ≤ v → v ≤ 1 → -1 ≤ q v ∧ q v ≤ 1 ∧ inducedF P (q v) = v) : unit01.map q = lawOf P := by
  have hmono : Monotone (inducedF P) := Markov.cdf_mono _ (density_cont P) fun t => by positivity
  have : IsFiniteMeasure (lawOf P) := ⟨by rw [lawOf_univ hP]; exact ENNReal.one_lt_top⟩
  have : IsProbabilityMeasure (unit01.map q) := Measure.isProbabilityMeasure_map hm.aemeasurable
  refine Measure.ext_of_Iic _ _ fun x => ?_
  rw [Measure.map_apply hm measurableSet_Iic, unit01, Measure.restrict_apply (hm measurableSet_Iic)]
  rcases lt_or_ge x (-1) with h1 | h1
  · have e1 : q ⁻¹' Set.Iic x ∩ Set.Icc 0 1 = ∅ := by
      ext v; simp only [Set.mem_inter_iff, Set.mem_preimage, Set.mem_Iic, Set.mem_Icc, Set.mem_empty_iff_false, iff_false]
      rintro ⟨a, b, c⟩
      have := (hq v b c).1
      linarith
    have e2 : Set.Iic x ∩ Set.Icc (-1) 1 = ∅ := by
      ext v; simp only [Set.mem_inter_iff, Set.mem_Iic, Set.mem_Icc, Set.mem_empty_iff_false, iff_false]
      rintro ⟨a, b, c⟩
      linarith
    rw [e1, lawOf, withDensity_apply _ measurableSet_Iic, Measure.restrict_restrict measurableSet_Iic, e2]
    simp
  rcases lt_or_ge 1 x with h2 | h2
  · have e1 : q ⁻¹' Set.Iic x ∩ Set.Icc 0 1 = Set.Icc 0 1 := by
      refine Set.inter_eq_self_of_subset_right fun v hv => ?_
      exact (hq v hv.1 hv.2).2.1.trans h2.le
    have e2 : lawOf P (Set.Iic x) = lawOf P Set.univ := by
      rw [lawOf, withDensity_apply _ MeasurableSet.univ, withDensity_apply _ measurableSet_Iic,
        Measure.restrict_restrict measurableSet_Iic, Measure.restrict_univ,
        Set.inter_eq_self_of_subset_right (s := Set.Iic _) fun y (hy : y ∈ Set.Icc (-1 : ℝ) 1) => hy.2.trans h2.le]
    rw [e1, e2, lawOf_univ hP]
    simp
  rw [lawOf_Iic P x h1 h2]
  have h0 : 0 ≤ inducedF P x := by
    have := hmono h1
    rwa [show inducedF P (-1) = 0 by simp [inducedF]] at this
  have h3 : inducedF P x ≤ 1 := by
    rw [← inducedF_one hP]; exact hmono h2
  apply le_antisymm
  · calc volume (q ⁻¹' Set.Iic x ∩ Set.Icc 0 1) ≤ volume (Set.Icc 0 (inducedF P x)) := by
          refine measure_mono fun v hv => ⟨hv.2.1, ?_⟩
          have := hmono (show q v ≤ x from hv.1)
          rwa [(hq v hv.2.1 hv.2.2).2.2] at this
      _ = ENNReal.ofReal (inducedF P x) := by rw [Real.volume_Icc, sub_zero]
  · calc ENNReal.ofReal (inducedF P x) = volume (Set.Ico 0 (inducedF P x)) := by rw [Real.volume_Ico, sub_zero]
      _ ≤ volume (q ⁻¹' Set.Iic x ∩ Set.Icc 0 1) := by
          refine measure_mono fun v hv => ?_
          have hv1 : v ≤ 1 := hv.2.le.trans h3
          refine ⟨?_, hv.1, hv1⟩
          by_contra hc
          have := hmono (not_le.1 hc).le
          rw [(hq v hv.1 hv1).2.2] at this
          exact absurd hv.2 (not_lt.2 this)

/-- A product of laws with densities. -/
theorem pi_density {d : ℕ} (μ : Measure ℝ) [IsFiniteMeasure μ] (f : Fin d → ℝ → ℝ) (hf : ∀ j, Measurable (f j))
    (h0 : ∀ j x, 0 ≤ f j x) (hi : ∀ j, Integrable (f j) μ) :
    (Measure.pi fun j => μ.withDensity fun t => ENNReal.ofReal (f j t)) =
      (Measure.pi fun _ => μ).withDensity fun x => ENNReal.ofReal (∏ j, f j (x j)) := by
  have : ∀ j, IsFiniteMeasure (μ.withDensity fun t => ENNReal.ofReal (f j t)) := fun j =>
    isFiniteMeasure_withDensity_ofReal (hi j).2
  refine Measure.pi_eq fun s hs => ?_
  rw [withDensity_apply _ (MeasurableSet.univ_pi hs)]
  simp_rw [withDensity_apply _ (hs _)]
  have hind : ∀ j, Integrable ((s j).indicator (f j)) μ := fun j => (hi j).indicator (hs j)
  have hnn : ∀ j x, 0 ≤ (s j).indicator (f j) x := fun j x => Set.indicator_nonneg (fun x _ => h0 j x) x
  have hprod : Integrable (fun x : Fin d → ℝ => ∏ j, (s j).indicator (f j) (x j)) (Measure.pi fun _ => μ) :=
    Integrable.fintype_prod (f := fun j => (s j).indicator (f j)) hind
  have e1 : ∫⁻ x in Set.univ.pi s, ENNReal.ofReal (∏ j, f j (x j)) ∂(Measure.pi fun _ => μ) =
      ENNReal.ofReal (∫ x, ∏ j, (s j).indicator (f j) (x j) ∂(Measure.pi fun _ => μ)) := by
    rw [ofReal_integral_eq_lintegral_ofReal hprod (Filter.Eventually.of_forall fun x => Finset.prod_nonneg fun j _ => hnn j _),
      ← lintegral_indicator (MeasurableSet.univ_pi hs)]
    refine lintegral_congr fun x => ?_
    by_cases hx : x ∈ Set.univ.pi s
    · rw [Set.indicator_of_mem hx]
      congr 1
      refine Finset.prod_congr rfl fun j _ => ?_
      rw [Set.indicator_of_mem (hx j trivial)]
    · rw [Set.indicator_of_notMem hx]
      have : ∃ j, x j ∉ s j := by
        by_contra hc
        push Not at hc
        exact hx fun j _ => hc j
      obtain ⟨j, hj⟩ := this
      rw [Finset.prod_eq_zero (Finset.mem_univ j) (Set.indicator_of_notMem hj _), ENNReal.ofReal_zero]
  rw [e1, integral_fintype_prod_eq_prod, ENNReal.ofReal_prod_of_nonneg fun j _ => integral_nonneg (hnn j)]
  refine Finset.prod_congr rfl fun j _ => ?_
  rw [integral_indicator (hs j), ofReal_integral_eq_lintegral_ofReal (hi j).integrableOn
    (Filter.Eventually.of_forall fun x => h0 j x)]

/-- The volume on the cube `[-1, 1] ^ d`. -/
noncomputable def cube (d : ℕ) : Measure (Fin d → ℝ) := Measure.pi fun _ => volume.restrict (Set.Icc (-1) 1)

instance (d : ℕ) : IsFiniteMeasure (cube d) := by unfold cube; infer_instance

theorem cube_ae (d : ℕ) : ∀ᵐ x ∂(cube d), ∀ j, -1 ≤ x j ∧ x j ≤ 1 := by
  rw [ae_all_iff]
  intro j
  have h : ∀ᵐ t : ℝ ∂(volume.restrict (Set.Icc (-1) 1)), t ∈ Set.Icc (-1 : ℝ) 1 := ae_restrict_mem measurableSet_Icc
  exact (Measure.quasiMeasurePreserving_eval (μ := fun _ : Fin d => volume.restrict (Set.Icc (-1 : ℝ) 1)) j).ae h

theorem cont_integrable {d : ℕ} (g : (Fin d → ℝ) → ℝ) (hg : Continuous g) : Integrable g (cube d) := by
  have hcomp : IsCompact (Set.univ.pi fun _ : Fin d => Set.Icc (-1 : ℝ) 1) := isCompact_univ_pi fun _ => isCompact_Icc
  obtain ⟨B, hB⟩ := hcomp.exists_bound_of_continuousOn hg.continuousOn
  refine Integrable.of_bound hg.aestronglyMeasurable B ?_
  filter_upwards [cube_ae d] with x hx
  exact hB x fun j _ => hx j

/-- The expectation over the random numbers of one row. -/
theorem row_expectation {d : ℕ} (P : Fin d → ℝ[X]) (n : Fin d → ℕ) (hP : ∀ j, Orthonormal (n j) (P j)) (q : Fin d → ℝ → ℝ)
    (hm : ∀ j, Measurable (q j))
    (hq : ∀ j v, 0 ≤ v → v ≤ 1 → -1 ≤ q j v ∧ q j v ≤ 1 ∧ inducedF (P j) (q j v) = v)
    (h : (Fin d → ℝ) → ℝ) (hc : Continuous h) :
    ∫ u, h (fun j => q j (u j)) ∂(Measure.pi fun _ : Fin d => unit01) = ∫ x, (∏ j, (P j).eval (x j) ^ 2 / 2) * h x ∂(cube d) := by
  have hfin : ∀ j, IsProbabilityMeasure (unit01.map (q j)) := fun j => Measure.isProbabilityMeasure_map (hm j).aemeasurable
  have h1 := Measure.pi_map_pi (μ := fun _ : Fin d => unit01) (f := q) fun j => (hm j).aemeasurable
  have h2 : (fun j => unit01.map (q j)) = fun j => lawOf (P j) := funext fun j => quantile_map (hP j) (q j) (hm j) (hq j)
  have h3 := pi_density (volume.restrict (Set.Icc (-1 : ℝ) 1)) (fun j t => (P j).eval t ^ 2 / 2)
    (fun j => (density_cont (P j)).measurable) (fun j t => by positivity)
    (fun j => (density_cont (P j)).continuousOn.integrableOn_Icc)
  have h4 : (Measure.pi fun _ : Fin d => unit01).map (fun u j => q j (u j)) =
      (cube d).withDensity fun x => ENNReal.ofReal (∏ j, (P j).eval (x j) ^ 2 / 2) := by
    rw [h1, h2]; exact h3
  have hmeas : Measurable fun (u : Fin d → ℝ) j => q j (u j) := measurable_pi_lambda _ fun j => (hm j).comp (measurable_pi_apply j)
  have h5 := integral_map (μ := Measure.pi fun _ : Fin d => unit01) hmeas.aemeasurable (f := h) hc.aestronglyMeasurable
  rw [← h5, h4]
  have hcont : Continuous fun x : Fin d → ℝ => ∏ j, (P j).eval (x j) ^ 2 / 2 := by fun_prop
  rw [integral_withDensity_eq_integral_toReal_smul hcont.measurable.ennreal_ofReal
    (Filter.Eventually.of_forall fun x => ENNReal.ofReal_lt_top)]
  refine integral_congr_ae (Filter.Eventually.of_forall fun x => ?_)
  simp only [smul_eq_mul]
  rw [ENNReal.toReal_ofReal (Finset.prod_nonneg fun j _ => by positivity)]

/-- A selection of quantiles is measurable, after a change outside `[0, 1]`. -/
theorem quantile_measurable {P : ℝ[X]} (q : ℝ → ℝ) (hq : ∀ v, 0 ≤ v → v ≤ 1 → inducedF P (q v) = v) :
    Measurable fun v => q (max 0 (min v 1)) := by
  have hmono : Monotone (inducedF P) := Markov.cdf_mono _ (density_cont P) fun t => by positivity
  refine Monotone.measurable fun a b hab => ?_
  have h0 : ∀ v : ℝ, 0 ≤ max 0 (min v 1) ∧ max 0 (min v 1) ≤ 1 := fun v => ⟨le_max_left _ _, by simp⟩
  have hle : max 0 (min a 1) ≤ max 0 (min b 1) := max_le_max le_rfl (min_le_min hab le_rfl)
  rcases eq_or_lt_of_le hle with e | hlt
  · simp only [e]; exact le_rfl
  · by_contra hc
    have := hmono (not_le.1 hc).le
    rw [hq _ (h0 a).1 (h0 a).2, hq _ (h0 b).1 (h0 b).2] at this
    linarith

end EQ.Sampling
