import Verif.Dist.MomentProps
import Mathlib.Analysis.Complex.ExponentialBounds

/-!
# Kurtosis conventions (C109) and the truncated Gaussian (C107)
-/

namespace EQ.Dist
open EQ.DistSpec EQ.DistLemmas EQ.Basis MeasureTheory Set

/-- Evaluates the tables of raw moments. -/
local macro "pick" : tactic => `(tactic| simp only [show (1 : ℕ) ≠ 0 by decide, show (2 : ℕ) ≠ 0 by decide, show (3 : ℕ) ≠ 0 by decide,
  show (2 : ℕ) ≠ 1 by decide, show (3 : ℕ) ≠ 1 by decide, show (3 : ℕ) ≠ 2 by decide, show (4 : ℕ) ≠ 0 by decide,
  show (4 : ℕ) ≠ 1 by decide, show (4 : ℕ) ≠ 2 by decide, show (4 : ℕ) ≠ 3 by decide, if_true, if_false])

theorem kurtosis_norm (m s : ℝ) (hs : 0 < s) : kurtosis (density (.norm m s)) = 3 := by
  obtain ⟨-, -, h3, -, h5⟩ := locScale_moments raw_phi (by simp) m s hs
  simp only [density, kurtosis]
  rw [h3, h5]
  norm_num
  field_simp

theorem kurtosis_gamma (a s : ℝ) (ha : 0 < a) (hs : 0 < s) : kurtosis (density (.gamma a s)) = 6 / a + 3 := by
  obtain ⟨-, -, h3, -, h5⟩ := locScale_moments (raw_gamma a ha) (by simp) 0 s hs
  simp only [density, kurtosis]
  rw [h3, h5]
  pick
  rw [show s ^ 2 * (a * (a + 1) - a ^ 2) = s ^ 2 * a by ring]
  field_simp
  ring

theorem kurtosis_expon (s : ℝ) (hs : 0 < s) : kurtosis (density (.expon s)) = 9 := by
  obtain ⟨-, -, h3, -, h5⟩ := locScale_moments raw_expon (by simp) 0 s hs
  simp only [density, kurtosis]
  rw [h3, h5]
  pick
  rw [show s ^ 2 * ((2 : ℝ) - 1 ^ 2) = s ^ 2 by ring]
  field_simp
  norm_num

theorem kurtosis_beta (a b : ℝ) (ha : 0 < a) (hb : 0 < b) : kurtosis (density (.beta a b)) =
    6 * ((a - b) ^ 2 * (a + b + 1) - a * b * (a + b + 2)) / (a * b * (a + b + 2) * (a + b + 3)) + 3 := by
  obtain ⟨-, -, h3, -, h5⟩ := std_moments (raw_beta_closed a b ha hb) (by simp)
  simp only [kurtosis]
  rw [h3, h5]
  pick
  rw [show a * (a + 1) / ((a + b) * (a + b + 1)) - (a / (a + b)) ^ 2 = a * b / ((a + b) ^ 2 * (a + b + 1)) by field_simp; ring]
  field_simp
  ring

theorem kurtosis_rayleigh (s : ℝ) (hs : 0 < s) :
    kurtosis (density (.rayleigh s)) = (32 - 3 * Real.pi ^ 2) / (4 - Real.pi) ^ 2 := by
  obtain ⟨-, -, h3, -, h5⟩ := locScale_moments raw_rayleigh (by simp) 0 s hs
  have h4 : 4 - Real.pi ≠ 0 := by linarith [Real.pi_lt_four]
  have hsq : Real.sqrt (Real.pi / 2) ^ 2 = Real.pi / 2 := Real.sq_sqrt (by positivity)
  simp only [density, kurtosis]
  rw [h3, h5]
  pick
  rw [show s ^ 4 * (8 - 4 * Real.sqrt (Real.pi / 2) * (3 * Real.sqrt (Real.pi / 2)) + 6 * Real.sqrt (Real.pi / 2) ^ 2 * 2 -
      3 * Real.sqrt (Real.pi / 2) ^ 4) = s ^ 4 * (8 - 12 * Real.sqrt (Real.pi / 2) ^ 2 + 12 * Real.sqrt (Real.pi / 2) ^ 2 -
      3 * (Real.sqrt (Real.pi / 2) ^ 2) ^ 2) by ring, hsq, show s ^ 2 * (2 - Real.pi / 2) = s ^ 2 * ((4 - Real.pi) / 2) by ring]
  field_simp
  ring

/-- **C109, what the reported kurtosis means.** The Gaussian, gamma and exponential distributions report the excess kurtosis of
their law; the beta and chi-squared distributions report the plain kurtosis. Missing: one convention for all of them, see
`c109_convention_violated`. -/
theorem c109_kurtosis_partial (w : World) (name : Name) (args : Args) (e : Option Endpoints) (d : Attrs)
    (hv : Valid name args) (h : mkParameter w name args e = .ok d) :
    (name = .gaussian ∨ name = .gamma ∨ name = .exponential →
      ∃ L, d.law = some L ∧ d.kurtosis = .num (kurtosis (density L) - 3)) ∧
    (name = .beta ∨ name = .chiSquared → ∃ L, d.law = some L ∧ d.kurtosis = .num (kurtosis (density L))) := by
  have h := mkParameter_ok h
  obtain ⟨A, B, lo, up⟩ := args
  refine ⟨fun hn => ?_, fun hn => ?_⟩
  · rcases hn with rfl | rfl | rfl
    · obtain ⟨m, v, ⟨⟩, ⟨⟩, hv⟩ := hv
      simp only [construct, gaussian, Except.ok.injEq] at h
      subst h
      refine ⟨_, rfl, ?_⟩
      rw [kurtosis_norm m _ (Real.sqrt_pos.2 hv)]
      norm_num
    · obtain ⟨a, s, ⟨⟩, ⟨⟩, ha, hs⟩ := hv
      simp only [construct, gamma, if_pos ha, Except.ok.injEq] at h
      subst h
      refine ⟨_, rfl, ?_⟩
      rw [kurtosis_gamma a s ha hs]
      norm_num
    · obtain ⟨r, ⟨⟩, hr⟩ := hv
      simp only [construct, exponential, if_pos hr, Except.ok.injEq] at h
      subst h
      refine ⟨_, rfl, ?_⟩
      rw [kurtosis_expon _ (by positivity)]
      norm_num
  · rcases hn with rfl | rfl
    · obtain ⟨a, b, ⟨⟩, ⟨⟩, ha, hb⟩ := hv
      simp only [construct, beta, if_pos (And.intro ha hb), Except.ok.injEq] at h
      subst h
      refine ⟨_, rfl, ?_⟩
      rw [kurtosis_beta a b (by linarith) (by linarith)]
    · obtain ⟨k, ⟨⟩, hk⟩ := hv
      simp only [construct, chisquared, if_pos hk, Except.ok.injEq] at h
      subst h
      refine ⟨_, rfl, ?_⟩
      have hk0 : 0 < k := by linarith
      rw [chi2_eq_gamma k hk0, kurtosis_gamma (k / 2) 2 (by positivity) two_pos]
      simp only [Val.num.injEq]
      field_simp
      norm_num

example : Valid .chiSquared ⟨some 4, none, none, none⟩ := ⟨4, rfl, by norm_num⟩

/-- **C109 fails: no common convention.** A chi-squared parameter and the gamma parameter with the same density report different
kurtoses. A Rayleigh parameter reports neither the kurtosis nor the excess kurtosis of its law. A uniform parameter has no
kurtosis at all. -/
theorem c109_convention_violated (w : World) :
    (∃ a b d d' L L', Valid .chiSquared a ∧ Valid .gamma b ∧ mkParameter w .chiSquared a none = .ok d ∧
      mkParameter w .gamma b none = .ok d' ∧ d.law = some L ∧ d'.law = some L' ∧ density L = density L' ∧
      d.kurtosis ≠ d'.kurtosis) ∧
    (∀ s : ℝ, 0 < s → ∃ d L, mkParameter w .rayleigh ⟨some s, none, none, none⟩ none = .ok d ∧ d.law = some L ∧
      d.kurtosis ≠ .num (kurtosis (density L)) ∧ d.kurtosis ≠ .num (kurtosis (density L) - 3)) ∧
    (∀ l u : ℝ, ∃ d, mkParameter w .uniform ⟨none, none, some l, some u⟩ none = .ok d ∧ d.kurtosis = .unset) := by
  refine ⟨⟨⟨some 4, none, none, none⟩, ⟨some 2, some 2, none, none⟩, chisquared (some 4), gamma (some 2) (some 2), .chi2 4,
    .gamma 2 2, ⟨4, rfl, by norm_num⟩, ⟨2, 2, rfl, rfl, by norm_num, by norm_num⟩, ?_, ?_, ?_, ?_, ?_, ?_⟩, fun s hs => ?_,
    fun l u => ⟨_, rfl, rfl⟩⟩
  · simp [mkParameter, construct, chisquared, show (1 : ℝ) ≤ 4 by norm_num]
  · simp [mkParameter, construct, gamma]
  · simp [chisquared, show (1 : ℝ) ≤ 4 by norm_num]
  · simp [gamma]
  · rw [chi2_eq_gamma 4 (by norm_num)]; norm_num
  · simp only [chisquared, gamma, if_pos (show (1 : ℝ) ≤ 4 by norm_num), if_pos (show (0 : ℝ) < 2 by norm_num)]
    intro h
    have := Val.num.inj h
    norm_num at this
  · refine ⟨rayleigh (some s), .rayleigh s, ?_, ?_, ?_⟩
    · simp [mkParameter, construct, rayleigh, if_pos hs]
    · simp [rayleigh, if_pos hs]
    rw [kurtosis_rayleigh s hs]
    simp only [rayleigh, if_pos hs]
    have p1 := Real.pi_gt_d2
    have p2 := Real.pi_lt_d2
    have h4 : 0 < 4 - Real.pi := by linarith
    have h41 : 4 - Real.pi < 1 := by linarith
    set t := (4 - Real.pi) ^ (3/2 : ℝ) with ht
    have ht0 : 0 < t := Real.rpow_pos_of_pos h4 _
    have ht2 : (4 - Real.pi) ^ 2 < t := by
      rw [ht, ← Real.rpow_natCast]
      exact Real.rpow_lt_rpow_of_exponent_gt h4 h41 (by norm_num)
    have hQ : 0 < -(6 * Real.pi ^ 2 - 24 * Real.pi + 16) := by nlinarith
    have hpos : 0 < (4 - Real.pi) ^ 2 := by positivity
    constructor
    · intro h
      have h := Val.num.inj h
      have e : (32 - 3 * Real.pi ^ 2) / (4 - Real.pi) ^ 2 = -(6 * Real.pi ^ 2 - 24 * Real.pi + 16) / (4 - Real.pi) ^ 2 + 3 := by
        field_simp
        ring
      rw [e] at h
      have h5 : -(6 * Real.pi ^ 2 - 24 * Real.pi + 16) / t < -(6 * Real.pi ^ 2 - 24 * Real.pi + 16) / (4 - Real.pi) ^ 2 :=
        div_lt_div_of_pos_left hQ hpos ht2
      linarith
    · intro h
      have h := Val.num.inj h
      have h6 : 0 < -(6 * Real.pi ^ 2 - 24 * Real.pi + 16) / t := div_pos hQ ht0
      have h7 : (32 - 3 * Real.pi ^ 2) / (4 - Real.pi) ^ 2 - 3 < 3 := by
        rw [sub_lt_iff_lt_add, div_lt_iff₀ hpos]
        nlinarith
      linarith

/-! ### Truncated Gaussian -/

/-- Moments of the normal weight on `[0, 3]`. -/
noncomputable def halfMoment (k : ℕ) : ℝ := ∫ x in (0 : ℝ)..3, x ^ k * Real.exp (-x ^ 2 / 2)

theorem halfMoment_pos : 0 < halfMoment 0 := by
  unfold halfMoment
  refine intervalIntegral.intervalIntegral_pos_of_pos_on (Continuous.intervalIntegrable (by fun_prop) _ _) (fun x _ => ?_)
    (by norm_num)
  simp only [pow_zero, one_mul]
  exact Real.exp_pos _

theorem raw_half : HasRaw (density (.truncnorm 0 3 0 1)) fun k => halfMoment k / halfMoment 0 := by
  have hc : 0 < Real.sqrt (2 * Real.pi) := Real.sqrt_pos.2 (by positivity)
  have hZ : ∫ t in (0 : ℝ)..3, phi t = halfMoment 0 / Real.sqrt (2 * Real.pi) := by
    simp only [phi, halfMoment, pow_zero, one_mul]
    rw [intervalIntegral.integral_div]
  have h0 := halfMoment_pos
  have e : ∀ k : ℕ, (fun x => x ^ k * density (.truncnorm 0 3 0 1) x) =
      indicator (Icc 0 3) fun x => x ^ k * Real.exp (-x ^ 2 / 2) / halfMoment 0 := by
    intro k
    funext x
    simp only [density, locScale, sub_zero, div_one, hZ]
    by_cases hx : 0 ≤ x ∧ x ≤ 3
    · rw [if_pos hx, indicator_of_mem (mem_Icc.2 hx)]
      unfold phi
      field_simp
    · rw [if_neg hx, indicator_of_notMem (by simpa using hx), mul_zero]
  refine ⟨fun x => ?_, fun k _ => ⟨?_, ?_⟩⟩
  · have := congrFun (e 0) x
    simp only [pow_zero, one_mul] at this
    rw [this]
    exact indicator_nonneg (fun y _ => div_nonneg (Real.exp_pos _).le h0.le) x
  · rw [e k, integrable_indicator_iff measurableSet_Icc]
    exact Continuous.integrableOn_Icc (by fun_prop)
  · rw [e k, integral_indicator measurableSet_Icc, integral_Icc_eq_integral_Ioc,
      ← intervalIntegral.integral_of_le (by norm_num), intervalIntegral.integral_div]
    rfl

theorem half_rec (k : ℕ) : halfMoment (k + 2) = (k + 1) * halfMoment k - 3 ^ (k + 1) * Real.exp (-9 / 2) := by
  have hd : ∀ x ∈ uIcc (0 : ℝ) 3, HasDerivAt (fun x : ℝ => x ^ (k + 1) * Real.exp (-x ^ 2 / 2))
      ((k + 1) * x ^ k * Real.exp (-x ^ 2 / 2) - x ^ (k + 2) * Real.exp (-x ^ 2 / 2)) x := by
    intro x _
    have h1 : HasDerivAt (fun x : ℝ => x ^ (k + 1)) ((k + 1 : ℕ) * x ^ k) x := by simpa using hasDerivAt_pow (k + 1) x
    have h2 : HasDerivAt (fun x : ℝ => Real.exp (-x ^ 2 / 2)) (Real.exp (-x ^ 2 / 2) * (-x)) x := by
      refine HasDerivAt.exp ?_
      have := ((hasDerivAt_pow 2 x).neg).div_const 2
      refine this.congr_deriv ?_
      push_cast
      ring
    refine (h1.mul h2).congr_deriv ?_
    push_cast
    ring
  have h := intervalIntegral.integral_eq_sub_of_hasDerivAt hd (Continuous.intervalIntegrable (by fun_prop) _ _)
  rw [intervalIntegral.integral_sub (Continuous.intervalIntegrable (by fun_prop) _ _)
    (Continuous.intervalIntegrable (by fun_prop) _ _)] at h
  simp only [mul_assoc, intervalIntegral.integral_const_mul] at h
  have e1 : halfMoment k = ∫ x in (0 : ℝ)..3, x ^ k * Real.exp (-x ^ 2 / 2) := rfl
  have e2 : halfMoment (k + 2) = ∫ x in (0 : ℝ)..3, x ^ (k + 2) * Real.exp (-x ^ 2 / 2) := rfl
  rw [← e1, ← e2] at h
  rw [show (0 : ℝ) ^ (k + 1) = 0 from zero_pow (by omega), zero_mul, sub_zero, show -(3 : ℝ) ^ 2 / 2 = -9 / 2 by norm_num] at h
  linarith

theorem half_one : halfMoment 1 = 1 - Real.exp (-9 / 2) := by
  have hd : ∀ x ∈ uIcc (0 : ℝ) 3, HasDerivAt (fun x : ℝ => -Real.exp (-x ^ 2 / 2)) (x ^ 1 * Real.exp (-x ^ 2 / 2)) x := by
    intro x _
    have h2 : HasDerivAt (fun x : ℝ => Real.exp (-x ^ 2 / 2)) (Real.exp (-x ^ 2 / 2) * (-x)) x := by
      refine HasDerivAt.exp ?_
      have := ((hasDerivAt_pow 2 x).neg).div_const 2
      refine this.congr_deriv ?_
      push_cast
      ring
    refine h2.neg.congr_deriv ?_
    ring
  have h := intervalIntegral.integral_eq_sub_of_hasDerivAt hd (Continuous.intervalIntegrable (by fun_prop) _ _)
  unfold halfMoment
  rw [h]
  norm_num
  ring

theorem half_zero_le : halfMoment 0 ^ 2 ≤ Real.pi / 2 := by
  have h1 : halfMoment 0 ≤ Real.sqrt (Real.pi / (1/2)) / 2 := by
    rw [← integral_gaussian_Ioi (1/2)]
    unfold halfMoment
    rw [intervalIntegral.integral_of_le (by norm_num)]
    have e : ∀ x : ℝ, x ^ 0 * Real.exp (-x ^ 2 / 2) = Real.exp (-(1/2) * x ^ 2) := by
      intro x
      rw [pow_zero, one_mul]
      congr 1
      ring
    simp only [e]
    refine setIntegral_mono_set (integrable_exp_neg_mul_sq (by norm_num)).integrableOn
      (Filter.Eventually.of_forall fun x => (Real.exp_pos _).le) (Filter.Eventually.of_forall fun x hx => ?_)
    exact hx.1
  have h2 : (Real.sqrt (Real.pi / (1/2)) / 2) ^ 2 = Real.pi / 2 := by
    rw [div_pow, Real.sq_sqrt (by positivity)]
    ring
  rw [← h2]
  exact pow_le_pow_left₀ halfMoment_pos.le h1 2

theorem exp_small : Real.exp (-9 / 2) < 1 / 50 := by
  have h1 : (50 : ℝ) < Real.exp 4 := by
    have := Real.exp_one_gt_d9
    have h4 : Real.exp 4 = Real.exp 1 ^ 4 := by rw [← Real.exp_nat_mul]; norm_num
    rw [h4]
    have : (2.7 : ℝ) ^ 4 < Real.exp 1 ^ 4 := pow_lt_pow_left₀ (by linarith) (by norm_num) (by norm_num)
    norm_num at this
    linarith
  have h2 : Real.exp (-9 / 2) ≤ Real.exp (-4) := Real.exp_le_exp.2 (by norm_num)
  rw [Real.exp_neg] at h2
  have h3 : (Real.exp 4)⁻¹ < 1 / 50 := by
    rw [inv_eq_one_div]
    exact div_lt_div_of_pos_left one_pos (by norm_num) h1
  linarith

theorem half_variance_pos : 0 < variance (density (.truncnorm 0 3 0 1)) := by
  obtain ⟨hd, -⟩ := std_moments raw_half (div_self halfMoment_pos.ne')
  set f := density (.truncnorm 0 3 0 1) with hf
  have hpos : ∀ x, 0 ≤ x → x ≤ 3 → 0 < f x := by
    intro x h0 h3
    simp only [hf, density, locScale, sub_zero, div_one]
    rw [if_pos ⟨h0, h3⟩]
    have : 0 < ∫ t in (0 : ℝ)..3, phi t :=
      intervalIntegral.intervalIntegral_pos_of_pos_on (Continuous.intervalIntegrable (by unfold phi; fun_prop) _ _)
        (fun x _ => by unfold phi; positivity) (by norm_num)
    refine div_pos ?_ this
    unfold phi
    positivity
  unfold variance central
  set μ := mean f
  have hint : Integrable fun x => (x - μ) ^ 2 * f x := by
    have := (raw_poly raw_half (μ ^ 2) (-2 * μ) 1 0 0).1
    refine this.congr (Filter.Eventually.of_forall fun x => ?_)
    simp only [← hf]
    ring
  rw [integral_pos_iff_support_of_nonneg (fun x => mul_nonneg (sq_nonneg _) (hd.1 x)) hint]
  have hsub : Ioo (0 : ℝ) 3 \ {μ} ⊆ Function.support fun x => (x - μ) ^ 2 * f x := by
    intro x hx
    have hne : x - μ ≠ 0 := sub_ne_zero.2 hx.2
    exact mul_ne_zero (pow_ne_zero 2 hne) (hpos x hx.1.1.le hx.1.2.le).ne'
  refine lt_of_lt_of_le ?_ (measure_mono hsub)
  rw [measure_sdiff_null (measure_singleton μ), Real.volume_Ioo]
  norm_num

/-- **C107 fails for the truncated Gaussian.** Whatever scipy reports, the standard normal law truncated to `[0, 3]` is given
skewness 0, although it is skewed to the right. -/
theorem c107_truncated_violated (w : World) (hw : ScipyMoments w) : ∃ args d L, Valid .truncatedGaussian args ∧
    mkParameter w .truncatedGaussian args none = .ok d ∧ d.law = some L ∧ IsDensity (density L) ∧ d.skewness = .num 0 ∧
      0 < skewness (density L) ∧ ¬ Truthful d := by
  refine ⟨⟨some 0, some 1, some 0, some 3⟩, truncatedGaussian w.stats (some 0) (some 1) (some 0) (some 3), .truncnorm 0 3 0 1,
    ⟨0, 1, 0, 3, rfl, rfl, rfl, rfl, by norm_num, by norm_num⟩, ?_⟩
  have hw := hw _ (std_moments raw_half (div_self halfMoment_pos.ne')).1
  have hlaw : (truncatedGaussian w.stats (some 0) (some 1) (some 0) (some 3)).law = some (.truncnorm 0 3 0 1) := by
    simp [truncatedGaussian]
  have hsk : 0 < skewness (density (.truncnorm 0 3 0 1)) := by
    obtain ⟨-, -, -, h4, -⟩ := std_moments raw_half (div_self halfMoment_pos.ne')
    unfold skewness
    have hv := half_variance_pos
    refine div_pos ?_ (pow_pos (Real.sqrt_pos.2 hv) 3)
    rw [h4]
    have hZ := halfMoment_pos
    have e2 := half_rec 0
    have e3 := half_rec 1
    have e1 := half_one
    have hZ2 := half_zero_le
    have hp := Real.pi_lt_d2
    have he := exp_small
    have he0 := Real.exp_pos (-9 / 2)
    simp only [Nat.cast_zero, zero_add, pow_one, Nat.cast_one, one_mul] at e2 e3
    have e2 : halfMoment 2 = halfMoment 0 - 3 * Real.exp (-9 / 2) := e2
    have e3 : halfMoment 3 = 2 * halfMoment 1 - 9 * Real.exp (-9 / 2) := by
      have h : halfMoment 3 = (1 + 1) * halfMoment 1 - 3 ^ (1 + 1) * Real.exp (-9 / 2) := e3
      rw [h]; norm_num
    set Z := halfMoment 0
    generalize Real.exp (-9 / 2) = ε at *
    rw [e1] at e3
    rw [e1, e2, e3]
    have hF : 0 < (2 * (1 - ε) - 9 * ε) * Z ^ 2 - 3 * (1 - ε) * (Z - 3 * ε) * Z + 2 * (1 - ε) ^ 3 := by
      have a1 : 0 ≤ ε * (1 - ε) * Z := by
        have : 0 ≤ 1 - ε := by linarith
        positivity
      have a2 : ε * Z ^ 2 ≤ 1 / 50 * 1.575 := by
        refine mul_le_mul he.le (by linarith) (by positivity) (by norm_num)
      have a3 : (1 - ε) ^ 3 ≥ 1 - 3 * ε := by
        have : 0 ≤ ε ^ 2 * (3 - ε) := mul_nonneg (sq_nonneg _) (by linarith)
        nlinarith
      nlinarith
    have key : (2 * (1 - ε) - 9 * ε) / Z - 3 * ((1 - ε) / Z) * ((Z - 3 * ε) / Z) + 2 * ((1 - ε) / Z) ^ 3 =
        ((2 * (1 - ε) - 9 * ε) * Z ^ 2 - 3 * (1 - ε) * (Z - 3 * ε) * Z + 2 * (1 - ε) ^ 3) / Z ^ 3 := by
      field_simp
    rw [key]
    positivity
  refine ⟨?_, hlaw, (std_moments raw_half (div_self halfMoment_pos.ne')).1, ?_, hsk, ?_⟩
  · simp [mkParameter, construct, truncatedGaussian, hw]
  · simp [truncatedGaussian]
  · rintro ⟨L, hL, -, -, -, h⟩
    rw [hlaw] at hL
    rw [← Option.some.inj hL] at h
    simp only [truncatedGaussian, Val.num.injEq] at h
    linarith

end EQ.Dist
