import Verif.Dist.MomentProps
import Mathlib.Analysis.SpecialFunctions.JapaneseBracket
import Mathlib.Analysis.SpecialFunctions.ImproperIntegrals
import Mathlib.MeasureTheory.Function.JacobianOneDim
import Mathlib.MeasureTheory.Integral.IntegralEqImproper

/-!
# The densities of the laws integrate to one: helper lemmas
-/

namespace EQ.DistLemmas
open EQ.Dist EQ.DistSpec MeasureTheory Set Filter Topology

/-- A probability density. -/
def IsProb (f : ℝ → ℝ) : Prop := (∀ x, 0 ≤ f x) ∧ Integrable f ∧ ∫ x, f x = 1

theorem IsDensity.prob {f : ℝ → ℝ} (h : IsDensity f) : IsProb f := ⟨h.1, by simpa using h.2.2 0 (by norm_num), h.2.1⟩

theorem IsProb.locScale {f : ℝ → ℝ} (h : IsProb f) (loc s : ℝ) (hs : 0 < s) : IsProb (locScale f loc s) := by
  refine ⟨fun x => div_nonneg (h.1 _) hs.le, ?_, ?_⟩
  · simpa using integrable_locScale f (fun _ => 1) loc s hs (by simpa using h.2.1)
  · have := integral_locScale f (fun _ => 1) loc s hs
    simp only [one_mul] at this
    rw [this, h.2.2]

theorem IsDensity.locScale {f : ℝ → ℝ} (h : IsDensity f) (loc s : ℝ) (hs : 0 < s) : IsDensity (locScale f loc s) := by
  have hr : HasRaw f fun k => ∫ x, x ^ k * f x := ⟨h.1, fun k hk => ⟨h.2.2 k hk, rfl⟩⟩
  exact (locScale_moments hr (by simpa using h.2.1) loc s hs).1

theorem integrable_even {f : ℝ → ℝ} (he : ∀ x, f (-x) = f x) (h : IntegrableOn f (Ioi 0)) : Integrable f := by
  have h1 : Integrable (indicator (Ioi 0) f) := (integrable_indicator_iff measurableSet_Ioi).2 h
  have h2 : IntegrableOn f (Iio 0) := by
    rw [← integrable_indicator_iff measurableSet_Iio]
    refine h1.comp_neg.congr (Eventually.of_forall fun x => ?_)
    show indicator (Ioi 0) f (-x) = indicator (Iio 0) f x
    by_cases hx : x < 0
    · rw [indicator_of_mem (show -x ∈ Ioi 0 from neg_pos.2 hx), indicator_of_mem (show x ∈ Iio 0 from hx), he]
    · rw [indicator_of_notMem (show -x ∉ Ioi 0 from fun h => hx (neg_pos.1 h)), indicator_of_notMem (show x ∉ Iio 0 from hx)]
  rw [← integrableOn_univ, ← Iic_union_Ioi (a := (0 : ℝ))]
  exact ((integrableOn_Iic_iff_integrableOn_Iio (by simp)).2 h2).union h

theorem integrable_pow_exp (k : ℕ) : Integrable fun x : ℝ => |x| ^ k * Real.exp (-|x|) := by
  refine integrable_even (fun x => by rw [abs_neg]) ?_
  have := integrableOn_rpow_mul_exp_neg_mul_rpow (s := (k : ℝ)) (p := 1) (b := 1) (by have : (0 : ℝ) ≤ k := Nat.cast_nonneg k; linarith) one_pos one_pos
  refine this.congr_fun (fun x hx => ?_) measurableSet_Ioi
  have hx : 0 < x := hx
  simp [abs_of_pos hx]

theorem dens_logistic : IsDensity (fun x : ℝ => Real.exp (-x) / (1 + Real.exp (-x)) ^ 2) := by
  have hpos : ∀ x : ℝ, 0 ≤ Real.exp (-x) / (1 + Real.exp (-x)) ^ 2 := fun x => by positivity
  have hle : ∀ x : ℝ, Real.exp (-x) / (1 + Real.exp (-x)) ^ 2 ≤ Real.exp (-|x|) := by
    intro x
    have e := Real.exp_pos (-x)
    rcases le_total 0 x with h | h
    · rw [abs_of_nonneg h, div_le_iff₀ (by positivity)]
      nlinarith [mul_pos e e]
    · rw [abs_of_nonpos h, neg_neg, div_le_iff₀ (by positivity)]
      have : Real.exp x * Real.exp (-x) = 1 := by rw [← Real.exp_add]; simp
      nlinarith [Real.exp_pos x, mul_pos e e]
  have hk : ∀ k ≤ 4, Integrable fun x : ℝ => x ^ k * (Real.exp (-x) / (1 + Real.exp (-x)) ^ 2) := by
    intro k _
    refine (integrable_pow_exp k).mono' (by fun_prop) (Eventually.of_forall fun x => ?_)
    rw [norm_mul, norm_pow, Real.norm_eq_abs, Real.norm_of_nonneg (hpos x)]
    exact mul_le_mul_of_nonneg_left (hle x) (by positivity)
  refine ⟨hpos, ?_, hk⟩
  have hd : ∀ x : ℝ, HasDerivAt (fun x => (1 + Real.exp (-x))⁻¹) (Real.exp (-x) / (1 + Real.exp (-x)) ^ 2) x := by
    intro x
    have h1 : HasDerivAt (fun x : ℝ => 1 + Real.exp (-x)) (-Real.exp (-x)) x := by
      simpa using ((hasDerivAt_neg x).exp).const_add 1
    have := h1.inv (by positivity)
    rw [neg_neg] at this
    exact this
  have := integral_of_hasDerivAt_of_tendsto (m := 0) (n := 1) hd (by simpa using hk 0 (by norm_num)) ?_ ?_
  · simpa using this
  · apply Tendsto.inv_tendsto_atTop
    apply tendsto_atTop_add_const_left
    exact Real.tendsto_exp_atTop.comp tendsto_neg_atBot_atTop
  · have : Tendsto (fun x : ℝ => 1 + Real.exp (-x)) atTop (𝓝 (1 + 0)) :=
      (Real.tendsto_exp_neg_atTop_nhds_zero).const_add 1
    simpa using this.inv₀ (by norm_num)

theorem dens_gumbel : IsDensity (fun x : ℝ => Real.exp (-(x + Real.exp (-x)))) := by
  have hle : ∀ x : ℝ, Real.exp (-(x + Real.exp (-x))) ≤ Real.exp (-|x|) + Real.exp 1 * Real.exp (-|x|) := by
    intro x
    have e := Real.exp_pos (-x)
    rcases le_total 0 x with h | h
    · have : Real.exp (-(x + Real.exp (-x))) ≤ Real.exp (-|x|) := by
        rw [abs_of_nonneg h]
        exact Real.exp_le_exp.2 (by linarith)
      nlinarith [Real.exp_pos 1, Real.exp_pos (-|x|)]
    · have : Real.exp (-(x + Real.exp (-x))) ≤ Real.exp 1 * Real.exp (-|x|) := by
        rw [abs_of_nonpos h, ← Real.exp_add]
        apply Real.exp_le_exp.2
        have h1 := Real.quadratic_le_exp_of_nonneg (x := -x) (by linarith)
        nlinarith [sq_nonneg (x + 1)]
      nlinarith [Real.exp_pos 1, Real.exp_pos (-|x|)]
  have hk : ∀ k ≤ 4, Integrable fun x : ℝ => x ^ k * Real.exp (-(x + Real.exp (-x))) := by
    intro k _
    refine ((integrable_pow_exp k).add ((integrable_pow_exp k).const_mul (Real.exp 1))).mono' (by fun_prop) (Eventually.of_forall fun x => ?_)
    rw [norm_mul, norm_pow, Real.norm_eq_abs, Real.norm_of_nonneg (Real.exp_pos _).le]
    have := mul_le_mul_of_nonneg_left (hle x) (show 0 ≤ |x| ^ k by positivity)
    simp only [Pi.add_apply]
    linarith
  refine ⟨fun x => (Real.exp_pos _).le, ?_, hk⟩
  have hd : ∀ x : ℝ, HasDerivAt (fun x => Real.exp (-Real.exp (-x))) (Real.exp (-(x + Real.exp (-x)))) x := by
    intro x
    have h1 : HasDerivAt (fun x : ℝ => -Real.exp (-x)) (Real.exp (-x)) x := by
      have := (hasDerivAt_neg x).exp.neg
      simp only [mul_neg, mul_one, neg_neg] at this
      exact this
    have := h1.exp
    rw [← Real.exp_add] at this
    rw [show -(x + Real.exp (-x)) = -Real.exp (-x) + -x by ring]
    exact this
  have := integral_of_hasDerivAt_of_tendsto (m := 0) (n := 1) hd (by simpa using hk 0 (by norm_num)) ?_ ?_
  · simpa using this
  · exact Real.tendsto_exp_neg_atTop_nhds_zero.comp (Real.tendsto_exp_atTop.comp tendsto_neg_atBot_atTop)
  · have h : Tendsto (fun x : ℝ => Real.exp (-Real.exp (-x))) atTop (𝓝 (Real.exp (-0))) :=
      (Real.continuous_exp.tendsto _).comp Real.tendsto_exp_neg_atTop_nhds_zero.neg
    simpa using h

open Classical in
theorem dens_chi (k : ℝ) (hk : 0 < k) : IsDensity (density (.chi k)) := by
  have g := Real.Gamma_pos_of_pos (half_pos hk)
  have h2 := Real.rpow_pos_of_pos (two_pos : (0 : ℝ) < 2) (k / 2 - 1)
  have hr := raw_gg (1 / ((2 : ℝ) ^ (k / 2 - 1) * Real.Gamma (k / 2))) 2 (k - 1) (1 / 2) (by positivity) two_pos (by linarith) (by norm_num)
    (density (.chi k)) (fun x hx => by
      simp only [density]
      rw [if_pos hx, show -(1 / 2 : ℝ) * x ^ (2 : ℝ) = -x ^ 2 / 2 by rw [Real.rpow_two]; ring])
    (fun x hx => by simp only [density]; rw [if_neg (not_lt.2 hx)])
  refine (std_moments hr ?_).1
  simp only [Nat.cast_zero, add_zero, sub_add_cancel]
  rw [show -k / 2 = -(k / 2) by ring, Real.rpow_neg (by norm_num), one_div (2 : ℝ), Real.inv_rpow (by norm_num), inv_inv, Real.rpow_sub_one (by norm_num)]
  have := (Real.rpow_pos_of_pos (two_pos : (0 : ℝ) < 2) (k / 2)).ne'
  field_simp

open Classical in
theorem pareto_moment (b : ℝ) (k : ℕ) (hk : k < b) : Integrable fun x => x ^ k * density (.pareto b) x := by
  have hind : (fun x => x ^ k * density (.pareto b) x) =ᵐ[volume] indicator (Ioi 1) fun x => b * x ^ ((k : ℝ) - (b + 1)) := by
    have : ∀ᵐ x : ℝ, x ≠ 1 := by simp [ae_iff]
    filter_upwards [this] with x hx1
    simp only [density]
    by_cases hx : 1 < x
    · have hx0 : 0 < x := by linarith
      rw [if_pos hx.le, indicator_of_mem (by simpa using hx), Real.rpow_sub hx0, Real.rpow_natCast]
      ring
    · rw [if_neg (fun h => hx (lt_of_le_of_ne h (Ne.symm hx1))), indicator_of_notMem (by simpa using hx), mul_zero]
  refine Integrable.congr ?_ hind.symm
  rw [integrable_indicator_iff measurableSet_Ioi]
  exact (integrableOn_Ioi_rpow_of_lt (by linarith) one_pos).const_mul b

open Classical in
theorem prob_pareto (b : ℝ) (hb : 0 < b) : IsProb (density (.pareto b)) := by
  refine ⟨fun x => ?_, by simpa using pareto_moment b 0 (by simpa using hb), ?_⟩
  · simp only [density]
    split_ifs with h
    · have := Real.rpow_pos_of_pos (show 0 < x by linarith) (b + 1)
      positivity
    · exact le_rfl
  · have hind : density (.pareto b) =ᵐ[volume] indicator (Ioi 1) fun x => b * x ^ (-(b + 1)) := by
      have : ∀ᵐ x : ℝ, x ≠ 1 := by simp [ae_iff]
      filter_upwards [this] with x hx1
      simp only [density]
      by_cases hx : 1 < x
      · have hx0 : 0 < x := by linarith
        rw [if_pos hx.le, indicator_of_mem (by simpa using hx), Real.rpow_neg hx0.le]
        rfl
      · rw [if_neg (fun h => hx (lt_of_le_of_ne h (Ne.symm hx1))), indicator_of_notMem (by simpa using hx)]
    rw [integral_congr_ae hind, integral_indicator measurableSet_Ioi, integral_const_mul, integral_Ioi_rpow_of_lt (by linarith) one_pos]
    rw [Real.one_rpow, show -(b + 1) + 1 = -b by ring]
    field_simp

theorem dens_pareto (b : ℝ) (hb : 4 < b) : IsDensity (density (.pareto b)) := by
  obtain ⟨h1, -, h3⟩ := prob_pareto b (by linarith)
  refine ⟨h1, h3, fun k hk => pareto_moment b k ?_⟩
  have : (k : ℝ) ≤ 4 := by exact_mod_cast hk
  linarith

theorem prob_cauchy : IsProb (fun x : ℝ => 1 / (Real.pi * (1 + x ^ 2))) := by
  have e : (fun x : ℝ => 1 / (Real.pi * (1 + x ^ 2))) = fun x => Real.pi⁻¹ * (1 + x ^ 2)⁻¹ := by
    funext x
    rw [one_div, mul_inv]
  rw [e]
  refine ⟨fun x => by have := Real.pi_pos; positivity, integrable_inv_one_add_sq.const_mul _, ?_⟩
  rw [integral_const_mul, integral_univ_inv_one_add_sq, inv_mul_cancel₀ Real.pi_ne_zero]

open Classical in
theorem dens_truncnorm (a b : ℝ) (h : a < b) : IsDensity (fun x => if a ≤ x ∧ x ≤ b then phi x / ∫ t in a..b, phi t else 0) := by
  have hc : Continuous phi := by unfold phi; fun_prop
  have hp : ∀ x, 0 < phi x := fun x => by
    have := Real.pi_pos
    unfold phi
    positivity
  have hI : 0 < ∫ t in a..b, phi t := intervalIntegral.intervalIntegral_pos_of_pos (hc.intervalIntegrable _ _) hp h
  have hind : ∀ k : ℕ, (fun x => x ^ k * if a ≤ x ∧ x ≤ b then phi x / ∫ t in a..b, phi t else 0) = indicator (Icc a b) fun x => x ^ k * (phi x / ∫ t in a..b, phi t) := by
    intro k
    funext x
    by_cases hx : a ≤ x ∧ x ≤ b
    · rw [if_pos hx, indicator_of_mem (show x ∈ Icc a b from hx)]
    · rw [if_neg hx, indicator_of_notMem (show x ∉ Icc a b from hx), mul_zero]
  refine ⟨fun x => ?_, ?_, fun k _ => ?_⟩
  · beta_reduce
    split_ifs
    · exact div_nonneg (hp x).le hI.le
    · exact le_rfl
  · have := hind 0
    simp only [pow_zero, one_mul] at this
    rw [this, integral_indicator measurableSet_Icc, integral_Icc_eq_integral_Ioc, ← intervalIntegral.integral_of_le h.le, intervalIntegral.integral_div,
      div_self hI.ne']
  · rw [hind k, integrable_indicator_iff measurableSet_Icc]
    exact (by fun_prop : Continuous fun x => x ^ k * (phi x / ∫ t in a..b, phi t)).continuousOn.integrableOn_Icc

open Classical in
theorem dens_lognorm (s : ℝ) (hs : 0 < s) : IsDensity (density (.lognorm s)) := by
  have h2 : 0 < Real.sqrt (2 * Real.pi) := Real.sqrt_pos.2 (by have := Real.pi_pos; positivity)
  have himg : Real.exp '' univ = Ioi 0 := by rw [image_univ, Real.range_exp]
  have hder : ∀ x ∈ (univ : Set ℝ), HasDerivWithinAt Real.exp (Real.exp x) univ x := fun x _ => (Real.hasDerivAt_exp x).hasDerivWithinAt
  have hinj : InjOn Real.exp (univ : Set ℝ) := Real.exp_injective.injOn
  have hind : ∀ k : ℕ, (fun x => x ^ k * density (.lognorm s) x) = indicator (Ioi 0) fun x => x ^ k * (1 / (s * x * Real.sqrt (2 * Real.pi)) * Real.exp (-(Real.log x) ^ 2 / (2 * s ^ 2))) := by
    intro k
    funext x
    simp only [density]
    by_cases hx : 0 < x
    · rw [if_pos hx, indicator_of_mem (show x ∈ Ioi 0 from hx)]
    · rw [if_neg hx, indicator_of_notMem (show x ∉ Ioi 0 from hx), mul_zero]
  have hsub : ∀ (k : ℕ) (y : ℝ), |Real.exp y| • (Real.exp y ^ k * (1 / (s * Real.exp y * Real.sqrt (2 * Real.pi)) * Real.exp (-(Real.log (Real.exp y)) ^ 2 / (2 * s ^ 2)))) =
      Real.exp (k ^ 2 * s ^ 2 / 2) * locScale phi (k * s ^ 2) s y := by
    intro k y
    have e := Real.exp_pos y
    rw [abs_of_pos e, Real.log_exp, smul_eq_mul, locScale, phi]
    have : Real.exp y ^ k * Real.exp (-y ^ 2 / (2 * s ^ 2)) = Real.exp (k ^ 2 * s ^ 2 / 2) * Real.exp (-((y - k * s ^ 2) / s) ^ 2 / 2) := by
      rw [← Real.exp_nat_mul, ← Real.exp_add, ← Real.exp_add]
      congr 1
      field_simp
      ring
    calc _ = Real.exp y ^ k * Real.exp (-y ^ 2 / (2 * s ^ 2)) / (s * Real.sqrt (2 * Real.pi)) := by field_simp
      _ = _ := by rw [this]; field_simp
  have hphi : IsProb phi := (IsDensity.prob (std_moments raw_phi (by simp)).1)
  refine ⟨fun x => ?_, ?_, fun k _ => ?_⟩
  · simp only [density]
    split_ifs with h
    · positivity
    · exact le_rfl
  · have := hind 0
    simp only [pow_zero, one_mul] at this
    rw [this, integral_indicator measurableSet_Ioi, ← himg, integral_image_eq_integral_abs_deriv_smul MeasurableSet.univ hder hinj]
    have e : ∀ y : ℝ, |Real.exp y| • (1 / (s * Real.exp y * Real.sqrt (2 * Real.pi)) * Real.exp (-(Real.log (Real.exp y)) ^ 2 / (2 * s ^ 2))) = locScale phi 0 s y := by
      intro y
      simpa using hsub 0 y
    simp only [e]
    rw [setIntegral_univ]
    exact (hphi.locScale 0 s hs).2.2
  · rw [hind k, integrable_indicator_iff measurableSet_Ioi, ← himg, integrableOn_image_iff_integrableOn_abs_deriv_smul MeasurableSet.univ hder hinj]
    simp only [hsub]
    exact ((hphi.locScale _ s hs).2.1.const_mul _).integrableOn

/-- The integral behind Student's law, as a Beta integral. -/
theorem student_integral (p : ℝ) (hp : 0 < p) :
    ∫ x in Ioi (0 : ℝ), (1 + x ^ 2) ^ (-(p + 1 / 2)) = Real.Gamma p * Real.Gamma (1 / 2) / (2 * Real.Gamma (p + 1 / 2)) := by
  have g1 := Real.Gamma_pos_of_pos hp
  have g2 := Real.Gamma_pos_of_pos (show (0 : ℝ) < 1 / 2 by norm_num)
  have g3 := Real.Gamma_pos_of_pos (show (0 : ℝ) < p + 1 / 2 by linarith)
  have hnn : ∀ s ∈ Ioo (0 : ℝ) 1, 0 < 1 / s - 1 := fun s hs => by rw [sub_pos, lt_div_iff₀ hs.1, one_mul]; exact hs.2
  have hder : ∀ s ∈ Ioo (0 : ℝ) 1, HasDerivWithinAt (fun s : ℝ => Real.sqrt (1 / s - 1)) (-(1 / s ^ 2) / (2 * Real.sqrt (1 / s - 1))) (Ioo 0 1) s := by
    intro s hs
    have h1 : HasDerivAt (fun s : ℝ => 1 / s - 1) (-(1 / s ^ 2)) s := by
      have := (hasDerivAt_inv hs.1.ne').sub_const 1
      simpa [one_div] using this
    exact (h1.sqrt (hnn s hs).ne').hasDerivWithinAt
  have hinj : InjOn (fun s : ℝ => Real.sqrt (1 / s - 1)) (Ioo 0 1) := by
    intro s hs t ht hst
    have h := congrArg (· ^ 2) hst
    simp only [Real.sq_sqrt (hnn s hs).le, Real.sq_sqrt (hnn t ht).le] at h
    have : 1 / s = 1 / t := by linarith
    simpa using this
  have himg : (fun s : ℝ => Real.sqrt (1 / s - 1)) '' Ioo 0 1 = Ioi 0 := by
    ext x
    constructor
    · rintro ⟨s, hs, rfl⟩
      exact Real.sqrt_pos.2 (hnn s hs)
    · intro hx
      have hx : 0 < x := hx
      refine ⟨1 / (1 + x ^ 2), ⟨by positivity, by rw [div_lt_one (by positivity)]; nlinarith⟩, ?_⟩
      simp only [one_div_one_div]
      rw [add_sub_cancel_left, Real.sqrt_sq hx.le]
  rw [← himg, integral_image_eq_integral_abs_deriv_smul measurableSet_Ioo hder hinj]
  have hsub : ∀ s ∈ Ioo (0 : ℝ) 1, |-(1 / s ^ 2) / (2 * Real.sqrt (1 / s - 1))| • (1 + Real.sqrt (1 / s - 1) ^ 2) ^ (-(p + 1 / 2)) =
      Real.Gamma p * Real.Gamma (1 / 2) / (2 * Real.Gamma (p + 1 / 2)) * density (.beta p (1 / 2)) s := by
    intro s hs
    have hs0 := hs.1
    have hs1 : 0 < 1 - s := sub_pos.2 hs.2
    have hn := hnn s hs
    rw [Real.sq_sqrt hn.le, add_sub_cancel, smul_eq_mul, abs_div, abs_neg, abs_of_pos (by positivity), abs_of_pos (by positivity)]
    simp only [density]
    rw [if_pos (show 0 < s ∧ s < 1 from hs), Real.rpow_neg (by positivity), one_div s, Real.inv_rpow hs0.le, inv_inv]
    have e1 : s⁻¹ - 1 = (1 - s) / s := by field_simp
    have e2 : Real.sqrt (s⁻¹ - 1) = (1 - s) ^ (1 / 2 : ℝ) / s ^ (1 / 2 : ℝ) := by
      rw [e1, Real.sqrt_eq_rpow, Real.div_rpow hs1.le hs0.le]
    rw [e2, Real.rpow_add hs0, Real.rpow_sub_one hs0.ne', Real.rpow_sub_one hs1.ne']
    have a1 : s ^ (1 / 2 : ℝ) * s ^ (1 / 2 : ℝ) = s := by rw [← Real.rpow_add hs0]; norm_num
    have a2 : (1 - s) ^ (1 / 2 : ℝ) * (1 - s) ^ (1 / 2 : ℝ) = 1 - s := by rw [← Real.rpow_add hs1]; norm_num
    have b1 := Real.rpow_pos_of_pos hs0 (1 / 2)
    have b2 := Real.rpow_pos_of_pos hs1 (1 / 2)
    have b3 := Real.rpow_pos_of_pos hs0 p
    generalize s ^ (1 / 2 : ℝ) = u at *
    generalize (1 - s) ^ (1 / 2 : ℝ) = v at *
    generalize s ^ p = z at *
    rw [← a2]
    rw [← a1]
    field_simp
  rw [setIntegral_congr_fun measurableSet_Ioo hsub, integral_const_mul]
  have hb : ∫ s in Ioo (0 : ℝ) 1, density (.beta p (1 / 2)) s = 1 := by
    have h : ∫ s, density (.beta p (1 / 2)) s = 1 := (std_moments (raw_beta_closed p (1 / 2) hp (by norm_num)) (by simp)).1.2.1
    refine Eq.trans ?_ h
    rw [← integral_indicator measurableSet_Ioo]
    congr 1
    funext x
    by_cases hx : 0 < x ∧ x < 1
    · rw [indicator_of_mem (show x ∈ Ioo 0 1 from hx)]
    · rw [indicator_of_notMem (show x ∉ Ioo 0 1 from hx)]
      simp only [density]
      rw [if_neg hx]
  rw [hb, mul_one]

theorem student_std (k : ℝ) (hk : 0 < k) : density (.t k) = locScale (fun y => Real.Gamma ((k + 1) / 2) / (Real.sqrt Real.pi * Real.Gamma (k / 2)) *
    (1 + y ^ 2) ^ (-(k + 1) / 2)) 0 (Real.sqrt k) := by
  funext x
  have hs := Real.sqrt_pos.2 hk
  have hp := Real.sqrt_pos.2 Real.pi_pos
  simp only [density, locScale, sub_zero]
  rw [div_pow, Real.sq_sqrt hk.le, Real.sqrt_mul Real.pi_pos.le]
  field_simp

theorem student_moment (k : ℝ) (j : ℕ) (hj : j < k) : Integrable fun y : ℝ => y ^ j * (1 + y ^ 2) ^ (-(k + 1) / 2) := by
  have h := integrable_rpow_neg_one_add_norm_sq (E := ℝ) (μ := volume) (r := k + 1 - j) (by simp; linarith)
  refine h.mono' ?_ (Eventually.of_forall fun y => ?_)
  · have : Continuous fun y : ℝ => y ^ j * (1 + y ^ 2) ^ (-(k + 1) / 2) := by
      refine (continuous_pow j).mul ((by fun_prop : Continuous fun y : ℝ => 1 + y ^ 2).rpow_const fun y => .inl ?_)
      positivity
    exact this.aestronglyMeasurable
  · have hb : 0 < 1 + y ^ 2 := by positivity
    rw [norm_mul, norm_pow, Real.norm_eq_abs, Real.norm_of_nonneg (Real.rpow_pos_of_pos hb _).le, sq_abs]
    have e : (1 + y ^ 2) ^ (-(k + 1 - j) / 2) = (1 + y ^ 2) ^ ((j : ℝ) / 2) * (1 + y ^ 2) ^ (-(k + 1) / 2) := by
      rw [← Real.rpow_add hb]
      congr 1
      ring
    rw [e]
    apply mul_le_mul_of_nonneg_right _ (Real.rpow_pos_of_pos hb _).le
    have : |y| ^ j = (y ^ 2) ^ ((j : ℝ) / 2) := by
      rw [← sq_abs, ← Real.rpow_natCast, ← Real.rpow_natCast, ← Real.rpow_mul (abs_nonneg y)]
      congr 1
      push_cast
      ring
    rw [this]
    exact Real.rpow_le_rpow (sq_nonneg y) (by linarith) (by positivity)

theorem student_nonneg (k : ℝ) (hk : 0 < k) (y : ℝ) : 0 ≤ Real.Gamma ((k + 1) / 2) / (Real.sqrt Real.pi * Real.Gamma (k / 2)) * (1 + y ^ 2) ^ (-(k + 1) / 2) := by
  have := Real.Gamma_pos_of_pos (show 0 < (k + 1) / 2 by linarith)
  have := Real.Gamma_pos_of_pos (half_pos hk)
  have := Real.rpow_pos_of_pos (show 0 < 1 + y ^ 2 by positivity) (-(k + 1) / 2)
  positivity

theorem student_one (k : ℝ) (hk : 0 < k) : ∫ y : ℝ, Real.Gamma ((k + 1) / 2) / (Real.sqrt Real.pi * Real.Gamma (k / 2)) * (1 + y ^ 2) ^ (-(k + 1) / 2) = 1 := by
  have h := integral_comp_abs (f := fun y : ℝ => (1 + y ^ 2) ^ (-(k + 1) / 2))
  simp only [sq_abs] at h
  have hi := student_integral (k / 2) (half_pos hk)
  rw [show -(k / 2 + 1 / 2) = -(k + 1) / 2 by ring, show k / 2 + 1 / 2 = (k + 1) / 2 by ring] at hi
  rw [integral_const_mul, h, hi, Real.Gamma_one_half_eq]
  have := Real.Gamma_pos_of_pos (show 0 < (k + 1) / 2 by linarith)
  have := Real.Gamma_pos_of_pos (half_pos hk)
  have := Real.sqrt_pos.2 Real.pi_pos
  field_simp

theorem prob_t (k : ℝ) (hk : 0 < k) : IsProb (density (.t k)) := by
  rw [student_std k hk]
  refine IsProb.locScale ⟨student_nonneg k hk, ?_, student_one k hk⟩ 0 _ (Real.sqrt_pos.2 hk)
  simpa using (student_moment k 0 (by simpa using hk)).const_mul (Real.Gamma ((k + 1) / 2) / (Real.sqrt Real.pi * Real.Gamma (k / 2)))

theorem dens_t (k : ℝ) (hk : 4 < k) : IsDensity (density (.t k)) := by
  have hk0 : 0 < k := by linarith
  rw [student_std k hk0]
  refine IsDensity.locScale ⟨student_nonneg k hk0, student_one k hk0, fun j hj => ?_⟩ 0 _ (Real.sqrt_pos.2 hk0)
  have hj' : (j : ℝ) ≤ 4 := by exact_mod_cast hj
  refine ((student_moment k j (by linarith)).const_mul (Real.Gamma ((k + 1) / 2) / (Real.sqrt Real.pi * Real.Gamma (k / 2)))).congr (Eventually.of_forall fun y => ?_)
  simp only
  ring

end EQ.DistLemmas
