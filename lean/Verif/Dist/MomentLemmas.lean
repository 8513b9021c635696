import Verif.Dist.Spec
import Mathlib.MeasureTheory.Integral.Gamma
import Mathlib.MeasureTheory.Group.Integral
import Mathlib.MeasureTheory.Measure.Lebesgue.Integral
import Mathlib.MeasureTheory.Measure.Haar.NormedSpace
import Mathlib.Analysis.SpecialFunctions.Gaussian.GaussianIntegral
import Mathlib.Analysis.SpecialFunctions.Integrals.Basic
import Mathlib.Probability.Distributions.Beta
import Mathlib.Analysis.Real.Pi.Bounds
import Mathlib.Tactic.FieldSimp
import Mathlib.Tactic.Linarith

/-!
# Moments of the laws: helper lemmas
-/

namespace EQ.DistLemmas
open EQ.Dist EQ.DistSpec MeasureTheory Set

/-- Non-negative, with raw moments `m k` up to the fourth. -/
def HasRaw (f : ℝ → ℝ) (m : ℕ → ℝ) : Prop :=
  (∀ x, 0 ≤ f x) ∧ ∀ k ≤ 4, Integrable (fun x => x ^ k * f x) ∧ ∫ x, x ^ k * f x = m k

theorem integral_locScale (f G : ℝ → ℝ) (loc s : ℝ) (hs : 0 < s) :
    ∫ x, G x * locScale f loc s x = ∫ y, G (loc + s * y) * f y := by
  have h1 : ∀ x, G x * locScale f loc s x = (fun z => (fun y => G (loc + s * y) * f y / s) (z / s)) (x - loc) := by
    intro x
    simp only [locScale]
    rw [mul_div_cancel₀ _ hs.ne', add_sub_cancel, mul_div_assoc]
  rw [integral_congr_ae (Filter.Eventually.of_forall h1),
    integral_sub_right_eq_self (fun z => (fun y => G (loc + s * y) * f y / s) (z / s)) loc,
    Measure.integral_comp_div (fun y => G (loc + s * y) * f y / s) s, integral_div, smul_eq_mul, abs_of_pos hs,
    mul_div_cancel₀ _ hs.ne']

theorem integrable_locScale (f G : ℝ → ℝ) (loc s : ℝ) (hs : 0 < s) (h : Integrable fun y => G (loc + s * y) * f y) :
    Integrable fun x => G x * locScale f loc s x := by
  have h1 : (fun x => G x * locScale f loc s x) = fun x => (fun y => G (loc + s * y) * f y / s) ((x - loc) / s) := by
    funext x
    simp only [locScale]
    rw [mul_div_cancel₀ _ hs.ne', add_sub_cancel, mul_div_assoc]
  rw [h1]
  exact ((h.div_const s).comp_div hs.ne').comp_sub_right loc

theorem raw_poly {f : ℝ → ℝ} {m : ℕ → ℝ} (h : HasRaw f m) (c0 c1 c2 c3 c4 : ℝ) :
    Integrable (fun y => (c0 + c1 * y + c2 * y ^ 2 + c3 * y ^ 3 + c4 * y ^ 4) * f y) ∧
    ∫ y, (c0 + c1 * y + c2 * y ^ 2 + c3 * y ^ 3 + c4 * y ^ 4) * f y =
      c0 * m 0 + c1 * m 1 + c2 * m 2 + c3 * m 3 + c4 * m 4 := by
  obtain ⟨-, h⟩ := h
  have e : (fun y => (c0 + c1 * y + c2 * y ^ 2 + c3 * y ^ 3 + c4 * y ^ 4) * f y) =
      fun y => c0 * (y ^ 0 * f y) + c1 * (y ^ 1 * f y) + c2 * (y ^ 2 * f y) + c3 * (y ^ 3 * f y) + c4 * (y ^ 4 * f y) := by
    funext y; ring
  have i0 := (h 0 (by omega)).1.const_mul c0
  have i1 := (h 1 (by omega)).1.const_mul c1
  have i2 := (h 2 (by omega)).1.const_mul c2
  have i3 := (h 3 (by omega)).1.const_mul c3
  have i4 := (h 4 (by omega)).1.const_mul c4
  rw [e]
  have j1 : Integrable fun y => c0 * (y ^ 0 * f y) + c1 * (y ^ 1 * f y) := i0.add i1
  have j2 : Integrable fun y => c0 * (y ^ 0 * f y) + c1 * (y ^ 1 * f y) + c2 * (y ^ 2 * f y) := j1.add i2
  have j3 : Integrable fun y => c0 * (y ^ 0 * f y) + c1 * (y ^ 1 * f y) + c2 * (y ^ 2 * f y) + c3 * (y ^ 3 * f y) :=
    j2.add i3
  refine ⟨j3.add i4, ?_⟩
  rw [integral_add j3 i4, integral_add j2 i3, integral_add j1 i2, integral_add i0 i1]
  simp only [integral_const_mul]
  rw [(h 0 (by omega)).2, (h 1 (by omega)).2, (h 2 (by omega)).2, (h 3 (by omega)).2, (h 4 (by omega)).2]

/-- The moments of a law with location and scale from the raw moments of the standard law. -/
theorem locScale_moments {f : ℝ → ℝ} {m : ℕ → ℝ} (h : HasRaw f m) (h0 : m 0 = 1) (loc s : ℝ) (hs : 0 < s) :
    IsDensity (locScale f loc s) ∧ mean (locScale f loc s) = loc + s * m 1 ∧
    variance (locScale f loc s) = s ^ 2 * (m 2 - m 1 ^ 2) ∧
    central (locScale f loc s) 3 = s ^ 3 * (m 3 - 3 * m 1 * m 2 + 2 * m 1 ^ 3) ∧
    central (locScale f loc s) 4 = s ^ 4 * (m 4 - 4 * m 1 * m 3 + 6 * m 1 ^ 2 * m 2 - 3 * m 1 ^ 4) := by
  have hm : mean (locScale f loc s) = loc + s * m 1 := by
    unfold mean
    rw [integral_locScale f (fun x => x) loc s hs]
    have := (raw_poly h loc s 0 0 0).2
    rw [h0] at this
    rw [show (fun y => (loc + s * y) * f y) = fun y => (loc + s * y + 0 * y ^ 2 + 0 * y ^ 3 + 0 * y ^ 4) * f y by
      funext y; ring, this]
    ring
  have hc : ∀ k c0 c1 c2 c3 c4, (∀ y, (s * (y - m 1)) ^ k = c0 + c1 * y + c2 * y ^ 2 + c3 * y ^ 3 + c4 * y ^ 4) →
      central (locScale f loc s) k = c0 + c1 * m 1 + c2 * m 2 + c3 * m 3 + c4 * m 4 := by
    intro k c0 c1 c2 c3 c4 hk
    unfold central
    rw [hm, integral_locScale f (fun x => (x - (loc + s * m 1)) ^ k) loc s hs]
    have := (raw_poly h c0 c1 c2 c3 c4).2
    rw [h0, mul_one] at this
    rw [← this]
    refine integral_congr_ae (Filter.Eventually.of_forall fun y => ?_)
    simp only
    rw [← hk y]
    congr 2
    ring
  refine ⟨⟨fun x => div_nonneg (h.1 _) hs.le, ?_, fun k hk => ?_⟩, hm, ?_, ?_, ?_⟩
  · have := integral_locScale f (fun _ => 1) loc s hs
    simp only [one_mul] at this
    rw [this, ← h0, ← (h.2 0 (by omega)).2]
    simp
  · refine integrable_locScale f (fun x => x ^ k) loc s hs ?_
    interval_cases k
    · have := (raw_poly h 1 0 0 0 0).1
      refine this.congr (Filter.Eventually.of_forall fun y => ?_)
      simp only
      ring
    · have := (raw_poly h loc s 0 0 0).1
      refine this.congr (Filter.Eventually.of_forall fun y => ?_)
      simp only
      ring
    · have := (raw_poly h (loc ^ 2) (2 * loc * s) (s ^ 2) 0 0).1
      refine this.congr (Filter.Eventually.of_forall fun y => ?_)
      simp only
      ring
    · have := (raw_poly h (loc ^ 3) (3 * loc ^ 2 * s) (3 * loc * s ^ 2) (s ^ 3) 0).1
      refine this.congr (Filter.Eventually.of_forall fun y => ?_)
      simp only
      ring
    · have := (raw_poly h (loc ^ 4) (4 * loc ^ 3 * s) (6 * loc ^ 2 * s ^ 2) (4 * loc * s ^ 3) (s ^ 4)).1
      refine this.congr (Filter.Eventually.of_forall fun y => ?_)
      simp only
      ring
  · unfold variance
    rw [hc 2 (s ^ 2 * m 1 ^ 2) (-2 * s ^ 2 * m 1) (s ^ 2) 0 0 (fun y => by ring)]
    ring
  · rw [hc 3 (-(s ^ 3 * m 1 ^ 3)) (3 * s ^ 3 * m 1 ^ 2) (-3 * s ^ 3 * m 1) (s ^ 3) 0 (fun y => by ring)]
    ring
  · rw [hc 4 (s ^ 4 * m 1 ^ 4) (-4 * s ^ 4 * m 1 ^ 3) (6 * s ^ 4 * m 1 ^ 2) (-4 * s ^ 4 * m 1) (s ^ 4) (fun y => by ring)]
    ring

/-- Without location and scale. -/
theorem std_moments {f : ℝ → ℝ} {m : ℕ → ℝ} (h : HasRaw f m) (h0 : m 0 = 1) :
    IsDensity f ∧ mean f = m 1 ∧ variance f = m 2 - m 1 ^ 2 ∧ central f 3 = m 3 - 3 * m 1 * m 2 + 2 * m 1 ^ 3 ∧
    central f 4 = m 4 - 4 * m 1 * m 3 + 6 * m 1 ^ 2 * m 2 - 3 * m 1 ^ 4 := by
  have e : locScale f 0 1 = f := by funext x; simp [locScale]
  have := locScale_moments h h0 0 1 one_pos
  rw [e] at this
  simpa using this

/-- Laws on the positive half-line with density `C x^q exp(-b x^p)`. -/
theorem raw_gg (C p q b : ℝ) (hC : 0 ≤ C) (hp : 0 < p) (hq : -1 < q) (hb : 0 < b) (f : ℝ → ℝ)
    (hf : ∀ x, 0 < x → f x = C * x ^ q * Real.exp (-b * x ^ p)) (hf0 : ∀ x ≤ 0, f x = 0) :
    HasRaw f fun k => C * (b ^ (-(q + k + 1) / p) * (1 / p) * Real.Gamma ((q + k + 1) / p)) := by
  have hind : ∀ k : ℕ, (fun x => x ^ k * f x) = indicator (Ioi 0) fun x => C * (x ^ (q + k) * Real.exp (-b * x ^ p)) := by
    intro k
    funext x
    by_cases hx : 0 < x
    · rw [indicator_of_mem (mem_Ioi.2 hx), hf x hx, Real.rpow_add hx, Real.rpow_natCast]
      ring
    · rw [indicator_of_notMem (by simpa using hx), hf0 x (not_lt.1 hx), mul_zero]
  refine ⟨fun x => ?_, fun k _ => ⟨?_, ?_⟩⟩
  · by_cases hx : 0 < x
    · rw [hf x hx]; have := Real.rpow_pos_of_pos hx q; positivity
    · rw [hf0 x (not_lt.1 hx)]
  · rw [hind k, integrable_indicator_iff measurableSet_Ioi]
    have hq' : -1 < q + k := by have : (0 : ℝ) ≤ k := Nat.cast_nonneg k; linarith
    exact (integrableOn_rpow_mul_exp_neg_mul_rpow hq' hp hb).const_mul C
  · rw [hind k, integral_indicator measurableSet_Ioi, integral_const_mul,
      integral_rpow_mul_exp_neg_mul_rpow hp (by have : (0 : ℝ) ≤ k := Nat.cast_nonneg k; linarith) hb]

theorem gamma_succ_nat (a : ℝ) (ha : 0 < a) :
    Real.Gamma (a + 1) = a * Real.Gamma a ∧ Real.Gamma (a + 2) = (a + 1) * a * Real.Gamma a ∧
    Real.Gamma (a + 3) = (a + 2) * (a + 1) * a * Real.Gamma a ∧
    Real.Gamma (a + 4) = (a + 3) * (a + 2) * (a + 1) * a * Real.Gamma a := by
  have h1 := Real.Gamma_add_one ha.ne'
  have h2 := Real.Gamma_add_one (s := a + 1) (by positivity)
  have h3 := Real.Gamma_add_one (s := a + 2) (by positivity)
  have h4 := Real.Gamma_add_one (s := a + 3) (by positivity)
  rw [show a + 1 + 1 = a + 2 by ring] at h2
  rw [show a + 2 + 1 = a + 3 by ring] at h3
  rw [show a + 3 + 1 = a + 4 by ring] at h4
  refine ⟨h1, by rw [h2, h1]; ring, by rw [h3, h2, h1]; ring, by rw [h4, h3, h2, h1]; ring⟩

/-- The standard normal law. -/
theorem raw_phi : HasRaw phi fun k => if k = 0 then 1 else if k = 2 then 1 else if k = 4 then 3 else 0 := by
  have hpos : 0 < Real.sqrt (2 * Real.pi) := Real.sqrt_pos.2 (by positivity)
  have hint : ∀ k : ℕ, Integrable fun x => x ^ k * phi x := by
    intro k
    have := integrable_rpow_mul_exp_neg_mul_sq (b := 1/2) (by norm_num) (s := k) (by have : (0 : ℝ) ≤ k := Nat.cast_nonneg k; linarith)
    refine (this.div_const (Real.sqrt (2 * Real.pi))).congr (Filter.Eventually.of_forall fun x => ?_)
    simp only [phi, Real.rpow_natCast]
    rw [mul_div_assoc]
    congr 3
    ring
  have heven : ∀ j : ℕ, ∫ x, x ^ (2 * j) * phi x =
      2 / Real.sqrt (2 * Real.pi) * ((2 : ℝ) ^ ((2 * j + 1) / 2 : ℝ) * (1 / 2) * Real.Gamma ((2 * j + 1) / 2)) := by
    intro j
    have h1 : (fun x : ℝ => x ^ (2 * j) * phi x) = fun x => (fun y => y ^ (2 * j) * phi y) |x| := by
      funext x
      simp only [phi, sq_abs, pow_mul]
    rw [h1, integral_comp_abs (f := fun y => y ^ (2 * j) * phi y)]
    have h2 : ∫ y in Ioi (0 : ℝ), y ^ (2 * j) * phi y =
        ∫ y in Ioi (0 : ℝ), 1 / Real.sqrt (2 * Real.pi) * (y ^ (2 * j : ℝ) * Real.exp (-(1/2) * y ^ (2 : ℝ))) := by
      refine setIntegral_congr_fun measurableSet_Ioi fun y hy => ?_
      simp only [phi]
      rw [show (2 * j : ℝ) = ((2 * j : ℕ) : ℝ) by push_cast; ring, Real.rpow_natCast, Real.rpow_two]
      rw [show -(1/2 : ℝ) * y ^ 2 = -y ^ 2 / 2 by ring]
      ring
    rw [h2, integral_const_mul, integral_rpow_mul_exp_neg_mul_rpow (by norm_num)
      (by have : (0 : ℝ) ≤ j := Nat.cast_nonneg j; linarith) (by norm_num)]
    rw [show ((1/2 : ℝ)) ^ (-(2 * (j : ℝ) + 1) / 2) = 2 ^ ((2 * (j : ℝ) + 1) / 2) by
      rw [one_div, Real.inv_rpow (by norm_num), neg_div, Real.rpow_neg (by norm_num), inv_inv]]
    ring
  have hodd : ∀ j : ℕ, ∫ x, x ^ (2 * j + 1) * phi x = 0 := by
    intro j
    have h1 := integral_neg_eq_self (fun x : ℝ => x ^ (2 * j + 1) * phi x) volume
    have h2 : ∀ x : ℝ, (-x) ^ (2 * j + 1) * phi (-x) = -(x ^ (2 * j + 1) * phi x) := by
      intro x
      simp only [phi, neg_sq]
      rw [Odd.neg_pow ⟨j, rfl⟩]
      ring
    simp only [h2] at h1
    rw [integral_neg] at h1
    linarith
  have g1 : Real.Gamma (1/2) = Real.sqrt Real.pi := Real.Gamma_one_half_eq
  have hs : Real.sqrt (2 * Real.pi) = Real.sqrt 2 * Real.sqrt Real.pi := Real.sqrt_mul (by norm_num) _
  have hsp : Real.sqrt Real.pi ≠ 0 := (Real.sqrt_pos.2 Real.pi_pos).ne'
  have hs2 : Real.sqrt 2 ≠ 0 := by positivity
  refine ⟨fun x => by unfold phi; positivity, fun k hk => ⟨hint k, ?_⟩⟩
  have hhalf : (2 : ℝ) ^ (1/2 : ℝ) = Real.sqrt 2 := (Real.sqrt_eq_rpow 2).symm
  interval_cases k
  · have := heven 0
    simp only [mul_zero, Nat.cast_zero, zero_add] at this
    rw [this, g1, hhalf, hs]
    simp only [if_true]
    field_simp
  · have := hodd 0; simpa using this
  · have := heven 1
    rw [show (2 * 1 : ℕ) = 2 from rfl] at this
    rw [this, show ((2 * (1 : ℕ) + 1) / 2 : ℝ) = 1/2 + 1 by norm_num, Real.Gamma_add_one (by norm_num), g1,
      Real.rpow_add_one (by norm_num), hhalf, hs]
    norm_num
    field_simp
  · have := hodd 1; simpa using this
  · have := heven 2
    rw [show (2 * 2 : ℕ) = 4 from rfl] at this
    rw [this, show ((2 * (2 : ℕ) + 1) / 2 : ℝ) = 1/2 + 1 + 1 by norm_num, Real.Gamma_add_one (by norm_num),
      Real.Gamma_add_one (by norm_num), g1, Real.rpow_add_one (by norm_num), Real.rpow_add_one (by norm_num), hhalf, hs]
    norm_num
    field_simp

/-- The uniform law on the unit interval. -/
theorem raw_uniform : HasRaw (fun x => open Classical in if 0 ≤ x ∧ x ≤ 1 then 1 else 0) fun k => 1 / ((k : ℝ) + 1) := by
  have hind : ∀ k : ℕ, (fun x : ℝ => x ^ k * (open Classical in if 0 ≤ x ∧ x ≤ 1 then (1 : ℝ) else 0)) =
      indicator (Icc 0 1) fun x => x ^ k := by
    intro k
    funext x
    by_cases hx : 0 ≤ x ∧ x ≤ 1
    · rw [if_pos hx, indicator_of_mem (mem_Icc.2 hx), mul_one]
    · rw [if_neg hx, indicator_of_notMem (by simpa using hx), mul_zero]
  refine ⟨fun x => by simp only; split_ifs <;> norm_num, fun k _ => ⟨?_, ?_⟩⟩
  · rw [hind k, integrable_indicator_iff measurableSet_Icc]
    exact (continuous_pow k).integrableOn_Icc
  · rw [hind k, integral_indicator measurableSet_Icc, integral_Icc_eq_integral_Ioc,
      ← intervalIntegral.integral_of_le zero_le_one, integral_pow]
    norm_num

theorem betaPDFReal_nonneg {a b : ℝ} (ha : 0 < a) (hb : 0 < b) (x : ℝ) : 0 ≤ ProbabilityTheory.betaPDFReal a b x := by
  unfold ProbabilityTheory.betaPDFReal
  split_ifs with h
  · have h1 : 0 < 1 - x := by linarith [h.2]
    have h2 := ProbabilityTheory.beta_pos ha hb
    have h3 := Real.rpow_pos_of_pos h.1 (a - 1)
    have h4 := Real.rpow_pos_of_pos h1 (b - 1)
    positivity
  · exact le_refl 0

/-- Beta laws: raw moments are quotients of beta functions. -/
theorem raw_beta (a b : ℝ) (ha : 0 < a) (hb : 0 < b) :
    HasRaw (density (.beta a b)) fun k => ProbabilityTheory.beta (a + k) b / ProbabilityTheory.beta a b := by
  have hB : ∀ a b : ℝ, 0 < a → 0 < b → 0 < ProbabilityTheory.beta a b := fun a b ha hb => ProbabilityTheory.beta_pos ha hb
  have key : ∀ a : ℝ, 0 < a → Integrable (ProbabilityTheory.betaPDFReal a b) ∧ ∫ x, ProbabilityTheory.betaPDFReal a b x = 1 := by
    intro a ha
    have h1 := ProbabilityTheory.lintegral_betaPDF_eq_one ha hb
    have hn : ∀ x, 0 ≤ ProbabilityTheory.betaPDFReal a b x := fun x => betaPDFReal_nonneg ha hb x
    have hm : AEStronglyMeasurable (ProbabilityTheory.betaPDFReal a b) volume :=
      (ProbabilityTheory.measurable_betaPDFReal a b).aestronglyMeasurable
    have h2 : ∫⁻ x, ENNReal.ofReal (ProbabilityTheory.betaPDFReal a b x) = 1 := h1
    constructor
    · refine ⟨hm, ?_⟩
      rw [hasFiniteIntegral_iff_ofReal (Filter.Eventually.of_forall hn), h2]
      exact ENNReal.one_lt_top
    · rw [integral_eq_lintegral_of_nonneg_ae (Filter.Eventually.of_forall hn) hm, h2]
      rfl
  have e : ∀ k : ℕ, (fun x => x ^ k * density (.beta a b) x) = fun x =>
      ProbabilityTheory.beta (a + k) b / ProbabilityTheory.beta a b * ProbabilityTheory.betaPDFReal (a + k) b x := by
    intro k
    funext x
    have hk : 0 < a + k := by positivity
    simp only [density, ProbabilityTheory.betaPDFReal]
    by_cases hx : 0 < x ∧ x < 1
    · rw [if_pos hx, if_pos hx, show a + (k : ℝ) - 1 = (a - 1) + k by ring, Real.rpow_add hx.1, Real.rpow_natCast]
      have h1 := (hB a b ha hb).ne'
      have h2 := (hB (a + k) b hk hb).ne'
      have h3 : ProbabilityTheory.beta a b = Real.Gamma a * Real.Gamma b / Real.Gamma (a + b) := rfl
      have g1 := (Real.Gamma_pos_of_pos ha).ne'
      have g2 := (Real.Gamma_pos_of_pos hb).ne'
      have g3 := (Real.Gamma_pos_of_pos (add_pos ha hb)).ne'
      field_simp
      rw [h3]
      field_simp
    · rw [if_neg hx, if_neg hx, mul_zero, mul_zero]
  refine ⟨fun x => ?_, fun k _ => ⟨?_, ?_⟩⟩
  · have := congrFun (e 0) x
    simp only [pow_zero, one_mul, Nat.cast_zero, add_zero] at this
    rw [this, div_self (hB a b ha hb).ne', one_mul]
    exact betaPDFReal_nonneg ha hb x
  · rw [e k]
    exact (key (a + k) (by positivity)).1.const_mul _
  · rw [e k, integral_const_mul, (key (a + k) (by positivity)).2, mul_one]

theorem raw_beta_closed (a b : ℝ) (ha : 0 < a) (hb : 0 < b) :
    HasRaw (density (.beta a b)) fun k => if k = 0 then 1 else if k = 1 then a / (a + b)
      else if k = 2 then a * (a + 1) / ((a + b) * (a + b + 1))
      else if k = 3 then a * (a + 1) * (a + 2) / ((a + b) * (a + b + 1) * (a + b + 2))
      else a * (a + 1) * (a + 2) * (a + 3) / ((a + b) * (a + b + 1) * (a + b + 2) * (a + b + 3)) := by
  obtain ⟨h1, h2⟩ := raw_beta a b ha hb
  refine ⟨h1, fun k hk => ⟨(h2 k hk).1, ?_⟩⟩
  rw [(h2 k hk).2]
  obtain ⟨p1, p2, p3, p4⟩ := gamma_succ_nat a ha
  obtain ⟨q1, q2, q3, q4⟩ := gamma_succ_nat (a + b) (add_pos ha hb)
  have g1 := (Real.Gamma_pos_of_pos ha).ne'
  have g2 := (Real.Gamma_pos_of_pos hb).ne'
  have g3 := (Real.Gamma_pos_of_pos (add_pos ha hb)).ne'
  have hab : 0 < a + b := add_pos ha hb
  simp only [ProbabilityTheory.beta]
  interval_cases k
  · simp only [Nat.cast_zero, add_zero, if_true]
    field_simp
  · simp only [Nat.cast_one, if_true, one_ne_zero, if_false]
    rw [show a + 1 + b = a + b + 1 by ring, p1, q1]
    field_simp
  · simp only [Nat.cast_ofNat, OfNat.ofNat_ne_zero, if_false, show ¬ (2 = 1) by omega, if_true]
    rw [show a + 2 + b = a + b + 2 by ring, p2, q2]
    field_simp
  · simp only [Nat.cast_ofNat, OfNat.ofNat_ne_zero, if_false, show ¬ (3 = 1) by omega, show ¬ (3 = 2) by omega, if_true]
    rw [show a + 3 + b = a + b + 3 by ring, p3, q3]
    field_simp
  · simp only [Nat.cast_ofNat, OfNat.ofNat_ne_zero, if_false, show ¬ (4 = 1) by omega, show ¬ (4 = 2) by omega,
      show ¬ (4 = 3) by omega]
    rw [show a + 4 + b = a + b + 4 by ring, p4, q4]
    field_simp

/-- The arcsine law is the beta law with both parameters one half. -/
theorem arcsine_eq_beta : density .arcsine = density (.beta (1/2) (1/2)) := by
  funext x
  simp only [density]
  by_cases hx : 0 < x ∧ x < 1
  · rw [if_pos hx, if_pos hx]
    have h1 : 0 < 1 - x := by linarith [hx.2]
    rw [show (1/2 : ℝ) + 1/2 = 1 by norm_num, Real.Gamma_one, Real.Gamma_one_half_eq, Real.mul_self_sqrt Real.pi_pos.le,
      show (1/2 : ℝ) - 1 = -(1/2) by norm_num, Real.rpow_neg hx.1.le, Real.rpow_neg h1.le, ← Real.sqrt_eq_rpow,
      ← Real.sqrt_eq_rpow, Real.sqrt_mul hx.1.le]
    have := (Real.sqrt_pos.2 hx.1).ne'
    have := (Real.sqrt_pos.2 h1).ne'
    have := Real.pi_pos.ne'
    field_simp
  · rw [if_neg hx, if_neg hx]

/-- The standard gamma law. -/
theorem raw_gamma (a : ℝ) (ha : 0 < a) :
    HasRaw (fun x => open Classical in if 0 < x then x ^ (a - 1) * Real.exp (-x) / Real.Gamma a else 0) fun k =>
      if k = 0 then 1 else if k = 1 then a else if k = 2 then a * (a + 1)
      else if k = 3 then a * (a + 1) * (a + 2) else a * (a + 1) * (a + 2) * (a + 3) := by
  have g := Real.Gamma_pos_of_pos ha
  obtain ⟨h1, h2⟩ := raw_gg (1 / Real.Gamma a) 1 (a - 1) 1 (by positivity) one_pos (by linarith) one_pos
    (fun x => open Classical in if 0 < x then x ^ (a - 1) * Real.exp (-x) / Real.Gamma a else 0)
    (fun x hx => by simp only [if_pos hx, Real.rpow_one, neg_one_mul]; ring)
    (fun x hx => by simp only [if_neg (not_lt.2 hx)])
  refine ⟨h1, fun k hk => ⟨(h2 k hk).1, ?_⟩⟩
  rw [(h2 k hk).2]
  obtain ⟨p1, p2, p3, p4⟩ := gamma_succ_nat a ha
  simp only [Real.one_rpow, div_one, one_mul]
  interval_cases k
  · rw [show a - 1 + ((0 : ℕ) : ℝ) + 1 = a by push_cast; ring]
    simp only [if_true]; field_simp
  · rw [show a - 1 + ((1 : ℕ) : ℝ) + 1 = a + 1 by push_cast; ring, p1]
    norm_num; field_simp
  · rw [show a - 1 + ((2 : ℕ) : ℝ) + 1 = a + 2 by push_cast; ring, p2]
    norm_num; field_simp
  · rw [show a - 1 + ((3 : ℕ) : ℝ) + 1 = a + 3 by push_cast; ring, p3]
    norm_num; field_simp
  · rw [show a - 1 + ((4 : ℕ) : ℝ) + 1 = a + 4 by push_cast; ring, p4]
    norm_num; field_simp

/-- The standard Weibull law. -/
theorem raw_weibull (c : ℝ) (hc : 0 < c) :
    HasRaw (fun x => open Classical in if 0 < x then c * x ^ (c - 1) * Real.exp (-x ^ c) else 0) fun k =>
      Real.Gamma (1 + k / c) := by
  obtain ⟨h1, h2⟩ := raw_gg c c (c - 1) 1 hc.le hc (by linarith) one_pos
    (fun x => open Classical in if 0 < x then c * x ^ (c - 1) * Real.exp (-x ^ c) else 0)
    (fun x hx => by simp only [if_pos hx, neg_one_mul])
    (fun x hx => by simp only [if_neg (not_lt.2 hx)])
  refine ⟨h1, fun k hk => ⟨(h2 k hk).1, ?_⟩⟩
  rw [(h2 k hk).2]
  simp only
  rw [show (c - 1 + (k : ℝ) + 1) / c = 1 + k / c by field_simp; ring, Real.one_rpow]
  field_simp

/-- The standard Rayleigh law. -/
theorem raw_rayleigh :
    HasRaw (fun x => open Classical in if 0 ≤ x then x * Real.exp (-x ^ 2 / 2) else 0) fun k =>
      if k = 0 then 1 else if k = 1 then Real.sqrt (Real.pi / 2) else if k = 2 then 2
      else if k = 3 then 3 * Real.sqrt (Real.pi / 2) else 8 := by
  obtain ⟨h1, h2⟩ := raw_gg 1 2 1 (1/2) zero_le_one two_pos (by norm_num) (by norm_num)
    (fun x => open Classical in if 0 ≤ x then x * Real.exp (-x ^ 2 / 2) else 0)
    (fun x hx => by
      simp only [if_pos hx.le, Real.rpow_one, one_mul, Real.rpow_two]
      rw [show -(1/2 : ℝ) * x ^ 2 = -x ^ 2 / 2 by ring])
    (fun x hx => by
      rcases hx.lt_or_eq with h | h
      · simp only [if_neg (not_le.2 h)]
      · simp [h])
  refine ⟨h1, fun k hk => ⟨(h2 k hk).1, ?_⟩⟩
  rw [(h2 k hk).2]
  have hb : ((1/2 : ℝ)) ^ (-(1 + (k : ℝ) + 1) / 2) = 2 ^ ((1 + (k : ℝ) + 1) / 2) := by
    rw [one_div, Real.inv_rpow (by norm_num), neg_div, Real.rpow_neg (by norm_num), inv_inv]
  simp only
  rw [hb]
  have g1 : Real.Gamma (1/2) = Real.sqrt Real.pi := Real.Gamma_one_half_eq
  have hhalf : (2 : ℝ) ^ (1/2 : ℝ) = Real.sqrt 2 := (Real.sqrt_eq_rpow 2).symm
  have hs : Real.sqrt (Real.pi / 2) = Real.sqrt Real.pi / Real.sqrt 2 := Real.sqrt_div Real.pi_pos.le 2
  have hs2 : Real.sqrt 2 ≠ 0 := by positivity
  have hs22 : Real.sqrt 2 ^ 2 = 2 := Real.sq_sqrt (by norm_num)
  interval_cases k
  · rw [show (1 + ((0 : ℕ) : ℝ) + 1) / 2 = 1 by norm_num, Real.rpow_one, Real.Gamma_one]
    norm_num
  · rw [show (1 + ((1 : ℕ) : ℝ) + 1) / 2 = 1/2 + 1 by norm_num, Real.rpow_add_one (by norm_num),
      Real.Gamma_add_one (by norm_num), g1, hhalf, hs]
    norm_num
    field_simp
    rw [hs22]
  · rw [show (1 + ((2 : ℕ) : ℝ) + 1) / 2 = 1 + 1 by norm_num, Real.rpow_add_one (by norm_num),
      Real.Gamma_add_one (by norm_num), Real.Gamma_one]
    norm_num
  · rw [show (1 + ((3 : ℕ) : ℝ) + 1) / 2 = 1/2 + 1 + 1 by norm_num, Real.rpow_add_one (by norm_num),
      Real.rpow_add_one (by norm_num), Real.Gamma_add_one (by norm_num), Real.Gamma_add_one (by norm_num), g1, hhalf, hs]
    norm_num
    field_simp
    rw [hs22]
  · rw [show (1 + ((4 : ℕ) : ℝ) + 1) / 2 = 1 + 1 + 1 by norm_num, Real.rpow_add_one (by norm_num),
      Real.rpow_add_one (by norm_num), Real.Gamma_add_one (by norm_num), Real.Gamma_add_one (by norm_num), Real.Gamma_one]
    norm_num

/-- The chi-squared law is a gamma law. -/
theorem chi2_eq_gamma (k : ℝ) (hk : 0 < k) : density (.chi2 k) = density (.gamma (k / 2) 2) := by
  funext x
  simp only [density, locScale, sub_zero]
  by_cases hx : 0 < x
  · rw [if_pos hx, if_pos (by positivity)]
    have g := (Real.Gamma_pos_of_pos (half_pos hk)).ne'
    rw [show -(x / 2) = -x / 2 by ring]
    field_simp
  · rw [if_neg hx, if_neg (by intro h; apply hx; linarith), zero_div]

end EQ.DistLemmas
