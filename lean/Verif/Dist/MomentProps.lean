import Verif.Dist.MomentLemmas

/-!
# Reported moments (C107, C109)
-/

namespace EQ.Dist
open EQ.DistSpec EQ.DistLemmas EQ.Basis

/-- A parameter that is built is what the constructor of its distribution returned. -/
theorem mkParameter_ok {w : World} {name : Name} {args : Args} {e : Option Endpoints} {d : Attrs}
    (h : mkParameter w name args e = .ok d) : construct w name args = .ok d := by
  unfold mkParameter at h
  cases hc : construct w name args with
  | error x => rw [hc] at h; exact absurd h (by simp)
  | ok d' =>
    rw [hc] at h
    simp only at h
    split at h <;> try exact absurd h (by simp)
    split at h
    · split at h
      · exact absurd h (by simp)
      · exact h
    · split at h
      · exact absurd h (by simp)
      · exact h
    · split at h
      · exact absurd h (by simp)
      · exact h
    · exact h

theorem truthful_of_locScale {f : ℝ → ℝ} {m : ℕ → ℝ} (h : HasRaw f m) (h0 : m 0 = 1) (loc s : ℝ) (hs : 0 < s) (L : Law)
    (hL : density L = locScale f loc s) (d : Attrs) (hd : d.law = some L) (hm : d.mean = .num (loc + s * m 1))
    (hv : d.variance = .num (s ^ 2 * (m 2 - m 1 ^ 2)))
    (hk : d.skewness = .num (s ^ 3 * (m 3 - 3 * m 1 * m 2 + 2 * m 1 ^ 3) / Real.sqrt (s ^ 2 * (m 2 - m 1 ^ 2)) ^ 3)) :
    Truthful d := by
  obtain ⟨h1, h2, h3, h4, -⟩ := locScale_moments h h0 loc s hs
  refine ⟨L, hd, ?_, ?_, ?_, ?_⟩
  · rw [hL]; exact h1
  · rw [hL, h2, hm]
  · rw [hL, h3, hv]
  · rw [hL, hk, skewness, h3, h4]

theorem truthful_of_std {m : ℕ → ℝ} (L : Law) (h : HasRaw (density L) m) (h0 : m 0 = 1) (d : Attrs) (hd : d.law = some L)
    (hm : d.mean = .num (m 1)) (hv : d.variance = .num (m 2 - m 1 ^ 2))
    (hk : d.skewness = .num ((m 3 - 3 * m 1 * m 2 + 2 * m 1 ^ 3) / Real.sqrt (m 2 - m 1 ^ 2) ^ 3)) :
    Truthful d := by
  obtain ⟨h1, h2, h3, h4, -⟩ := std_moments h h0
  refine ⟨L, hd, h1, ?_, ?_, ?_⟩
  · rw [h2, hm]
  · rw [h3, hv]
  · rw [hk, skewness, h3, h4]

/-- Evaluates the tables of raw moments. -/
local macro "pick" : tactic => `(tactic| simp only [show (1 : ℕ) ≠ 0 by decide, show (2 : ℕ) ≠ 0 by decide, show (3 : ℕ) ≠ 0 by decide,
  show (2 : ℕ) ≠ 1 by decide, show (3 : ℕ) ≠ 1 by decide, show (3 : ℕ) ≠ 2 by decide, show (4 : ℕ) ≠ 0 by decide,
  show (4 : ℕ) ≠ 1 by decide, show (4 : ℕ) ≠ 2 by decide, show (4 : ℕ) ≠ 3 by decide, if_true, if_false])

theorem gaussian_truthful (m v : ℝ) (hv : 0 < v) (d : Attrs) (h : gaussian (some m) (some v) = .ok d) : Truthful d := by
  simp only [gaussian, Except.ok.injEq] at h
  subst h
  have hs : Real.sqrt v ^ 2 = v := Real.sq_sqrt hv.le
  refine truthful_of_locScale raw_phi (by simp) m (Real.sqrt v) (Real.sqrt_pos.2 hv) _ rfl _ rfl ?_ ?_ ?_
  · simp [optVal]
  · simp [optVal, hs]
  · simp

theorem uniform_truthful (l u : ℝ) (h : l < u) : Truthful (uniform (some l) (some u)) := by
  refine truthful_of_locScale raw_uniform (by simp) l (u - l) (sub_pos.2 h) _ rfl _ rfl ?_ ?_ ?_
  · simp only [uniform, Val.num.injEq]; norm_num; ring
  · simp only [uniform, Val.num.injEq]; norm_num; ring
  · simp only [uniform, Val.num.injEq]; norm_num

theorem beta_skew (a b : ℝ) (ha : 0 < a) (hb : 0 < b) :
    2 * (b - a) * Real.sqrt (a + b + 1) / ((a + b + 2) * Real.sqrt (a * b)) =
      2 * a * b * (b - a) / ((a + b) ^ 3 * (a + b + 1) * (a + b + 2)) /
        Real.sqrt (a * b / ((a + b) ^ 2 * (a + b + 1))) ^ 3 := by
  have hab : 0 < a + b := add_pos ha hb
  have hr : 0 < Real.sqrt (a * b) := Real.sqrt_pos.2 (mul_pos ha hb)
  have ht : 0 < Real.sqrt (a + b + 1) := Real.sqrt_pos.2 (by linarith)
  have hr2 : Real.sqrt (a * b) ^ 2 = a * b := Real.sq_sqrt (mul_pos ha hb).le
  have ht2 : Real.sqrt (a + b + 1) ^ 2 = a + b + 1 := Real.sq_sqrt (by linarith)
  have hq : Real.sqrt (a * b / ((a + b) ^ 2 * (a + b + 1))) = Real.sqrt (a * b) / ((a + b) * Real.sqrt (a + b + 1)) := by
    rw [Real.sqrt_div (mul_pos ha hb).le, Real.sqrt_mul (x := (a + b) ^ 2) (by positivity), Real.sqrt_sq hab.le]
  rw [hq]
  generalize Real.sqrt (a * b) = r at *
  generalize Real.sqrt (a + b + 1) = t at *
  have hab1 : a + b + 1 ≠ 0 := by positivity
  have hab2 : a + b + 2 ≠ 0 := by positivity
  rw [div_pow, mul_pow, div_div_eq_mul_div, div_eq_div_iff (by positivity) (by positivity)]
  have e1 : r ^ 3 = a * b * r := by rw [← hr2]; ring
  have e2 : t ^ 3 = (a + b + 1) * t := by rw [← ht2]; ring
  rw [e1, e2]
  field_simp

theorem beta_truthful (lo up : Option ℝ) (a b : ℝ) (ha : 1 ≤ a) (hb : 1 ≤ b) : Truthful (beta lo up (some a) (some b)) := by
  have ha' : 0 < a := by linarith
  have hb' : 0 < b := by linarith
  have hvar : a * (a + 1) / ((a + b) * (a + b + 1)) - (a / (a + b)) ^ 2 = a * b / ((a + b) ^ 2 * (a + b + 1)) := by
    field_simp
    ring
  simp only [beta, if_pos (And.intro ha hb)]
  refine truthful_of_std (.beta a b) (raw_beta_closed a b ha' hb') (by simp) _ rfl ?_ ?_ ?_
  · simp
  · simp only [Val.num.injEq]
    norm_num
    rw [← hvar]
  · simp only [Val.num.injEq]
    norm_num
    rw [beta_skew a b ha' hb', hvar]
    congr 1
    field_simp
    ring

theorem chebyshev_truthful (lo up : Option ℝ) : Truthful (chebyshev lo up) := by
  have := raw_beta_closed (1/2) (1/2) (by norm_num) (by norm_num)
  rw [← arcsine_eq_beta] at this
  refine truthful_of_std .arcsine this (by simp) _ rfl ?_ ?_ ?_
  · simp only [chebyshev]; norm_num
  · simp only [chebyshev]; norm_num
  · simp only [chebyshev]; norm_num

theorem gamma_truthful (a s : ℝ) (ha : 0 < a) (hs : 0 < s) : Truthful (gamma (some a) (some s)) := by
  have hr : 0 < Real.sqrt a := Real.sqrt_pos.2 ha
  simp only [gamma, if_pos ha]
  refine truthful_of_locScale (raw_gamma a ha) (by simp) 0 s hs (.gamma a s) rfl _ rfl ?_ ?_ ?_
  · simp only [Val.num.injEq]; norm_num; ring
  · simp only [Val.num.injEq]; norm_num; ring
  · simp only [Val.num.injEq]
    norm_num
    rw [show s ^ 2 * (a * (a + 1) - a ^ 2) = s ^ 2 * a by ring, Real.sqrt_mul (by positivity), Real.sqrt_sq hs.le]
    have : Real.sqrt a ^ 2 = a := Real.sq_sqrt ha.le
    rw [mul_pow, mul_div_mul_left _ _ (by positivity), show a * (a + 1) * (a + 2) - 3 * a * (a * (a + 1)) + 2 * a ^ 3 = 2 * a by ring,
      show Real.sqrt a ^ 3 = a * Real.sqrt a by rw [pow_succ, this]]
    field_simp

theorem weibull_truthful (s c : ℝ) (hs : 0 < s) (hc : 0 < c) : Truthful (weibull (some s) (some c)) := by
  simp only [weibull, if_pos (And.intro hc hs)]
  refine truthful_of_locScale (raw_weibull c hc) (by simp [Real.Gamma_one]) 0 s hs (.weibullMin c s) rfl _ rfl ?_ ?_ ?_
  · simp
  · simp
  · simp only [Val.num.injEq, Nat.cast_one, Nat.cast_ofNat]
    congr 1
    ring

theorem rayleigh_truthful (s : ℝ) (hs : 0 < s) : Truthful (rayleigh (some s)) := by
  have h4 : 0 < 4 - Real.pi := by linarith [Real.pi_lt_four]
  have hsq : Real.sqrt (Real.pi / 2) ^ 2 = Real.pi / 2 := Real.sq_sqrt (by positivity)
  simp only [rayleigh, if_pos hs]
  refine truthful_of_locScale raw_rayleigh (by simp) 0 s hs (.rayleigh s) rfl _ rfl ?_ ?_ ?_
  · simp
  · simp only [Val.num.injEq]
    pick
    rw [hsq]
    ring
  · simp only [Val.num.injEq]
    pick
    have hv : s ^ 2 * (2 - Real.sqrt (Real.pi / 2) ^ 2) = s ^ 2 * ((4 - Real.pi) / 2) := by rw [hsq]; ring
    have hp : (4 - Real.pi) ^ (3 / 2 : ℝ) = (4 - Real.pi) * Real.sqrt (4 - Real.pi) := by
      rw [show (3 / 2 : ℝ) = 1 + 1/2 by norm_num, Real.rpow_add h4, Real.rpow_one, ← Real.sqrt_eq_rpow]
    rw [hv, Real.sqrt_mul (by positivity), Real.sqrt_sq hs.le, mul_pow, mul_div_mul_left _ _ (by positivity), hp,
      show 3 * Real.sqrt (Real.pi / 2) - 3 * Real.sqrt (Real.pi / 2) * 2 + 2 * Real.sqrt (Real.pi / 2) ^ 3 =
        Real.sqrt (Real.pi / 2) * (Real.pi - 3) by
          rw [show Real.sqrt (Real.pi / 2) ^ 3 = Real.sqrt (Real.pi / 2) ^ 2 * Real.sqrt (Real.pi / 2) by ring, hsq]; ring,
      Real.sqrt_div Real.pi_pos.le, Real.sqrt_div h4.le]
    have ht : 0 < Real.sqrt (4 - Real.pi) := Real.sqrt_pos.2 h4
    have ht2 : Real.sqrt (4 - Real.pi) ^ 2 = 4 - Real.pi := Real.sq_sqrt h4.le
    have h2 : Real.sqrt 2 ^ 2 = 2 := Real.sq_sqrt (by norm_num)
    have h2' : 0 < Real.sqrt 2 := by positivity
    rw [div_pow, show Real.sqrt (4 - Real.pi) ^ 3 = (4 - Real.pi) * Real.sqrt (4 - Real.pi) by rw [pow_succ, ht2],
      show Real.sqrt 2 ^ 3 = 2 * Real.sqrt 2 by rw [pow_succ, h2]]
    field_simp

theorem chisquared_truthful (k : ℝ) (hk : 1 ≤ k) : Truthful (chisquared (some k)) := by
  have hk' : 0 < k := by linarith
  simp only [chisquared, if_pos hk]
  refine truthful_of_locScale (raw_gamma (k / 2) (half_pos hk')) (by simp) 0 2 two_pos (.chi2 k) (chi2_eq_gamma k hk') _ rfl ?_ ?_ ?_
  · simp only [Val.num.injEq]; norm_num; ring
  · simp only [Val.num.injEq]; norm_num; ring
  · simp only [Val.num.injEq]
    pick
    rw [show (2 : ℝ) ^ 2 * (k / 2 * (k / 2 + 1) - (k / 2) ^ 2) = 2 * k by ring,
      show (2 : ℝ) ^ 3 * (k / 2 * (k / 2 + 1) * (k / 2 + 2) - 3 * (k / 2) * (k / 2 * (k / 2 + 1)) + 2 * (k / 2) ^ 3) = 8 * k by ring]
    have h2k : Real.sqrt (2 * k) ^ 2 = 2 * k := Real.sq_sqrt (by positivity)
    have hp : 0 < Real.sqrt (2 * k) := Real.sqrt_pos.2 (by positivity)
    rw [show (8 : ℝ) / k = 16 / (2 * k) by field_simp; norm_num, Real.sqrt_div (by norm_num), show Real.sqrt 16 = 4 by
      rw [show (16 : ℝ) = 4 ^ 2 by norm_num, Real.sqrt_sq (by norm_num)], pow_succ, h2k]
    field_simp
    norm_num

/-- **C107, distributions with formulas of their own.** A Gaussian, uniform, beta, gamma, Weibull, arcsine, Rayleigh or
chi-squared parameter that is built from admissible arguments reports the mean, the variance and the skewness of the law its
densities and samples come from. Missing: the other distributions (see `c107_scipy_partial`, `c107_cauchy_violated`,
`c107_truncated_violated`). -/
theorem c107_own_partial (w : World) (name : Name) (args : Args) (e : Option Endpoints) (d : Attrs) (hn : OwnFormulas name)
    (hv : Valid name args) (h : mkParameter w name args e = .ok d) : Truthful d := by
  have h := mkParameter_ok h
  obtain ⟨A, B, lo, up⟩ := args
  cases name <;> simp only [OwnFormulas] at hn <;> simp only [Valid] at hv <;> simp only [construct] at h
  · obtain ⟨m, v, rfl, rfl, hv⟩ := hv
    exact gaussian_truthful m v hv d h
  · rw [← Except.ok.inj h]
    have h01 : Truthful (uniform (some 0) (some 1)) := uniform_truthful 0 1 one_pos
    cases lo with
    | none => exact h01
    | some l =>
      cases up with
      | none => exact h01
      | some u => exact uniform_truthful l u (hv l u rfl rfl)
  · obtain ⟨a, b, rfl, rfl, ha, hb⟩ := hv
    rw [← Except.ok.inj h]
    exact beta_truthful lo up a b ha hb
  · obtain ⟨a, s, rfl, rfl, ha, hs⟩ := hv
    rw [← Except.ok.inj h]
    exact gamma_truthful a s ha hs
  · obtain ⟨s, c, rfl, rfl, hs, hc⟩ := hv
    rw [← Except.ok.inj h]
    exact weibull_truthful s c hs hc
  · rw [← Except.ok.inj h]
    exact chebyshev_truthful lo up
  · obtain ⟨s, rfl, hs⟩ := hv
    rw [← Except.ok.inj h]
    exact rayleigh_truthful s hs
  · obtain ⟨k, rfl, hk⟩ := hv
    rw [← Except.ok.inj h]
    exact chisquared_truthful k hk

/-- A Gaussian with mean 3 and variance 4 reports these numbers; so does a beta with shapes 2 and 5. -/
example (w : World) : ∃ d, mkParameter w .gaussian ⟨some 3, some 4, none, none⟩ none = .ok d ∧ d.mean = .num 3 ∧
    d.variance = .num 4 ∧ Truthful d := by
  refine ⟨_, rfl, rfl, rfl, ?_⟩
  exact c107_own_partial w .gaussian ⟨some 3, some 4, none, none⟩ none _ trivial ⟨3, 4, rfl, rfl, by norm_num⟩ rfl

example (w : World) : Valid .beta ⟨some 2, some 5, some (-1), some 1⟩ ∧
    ∃ d, mkParameter w .beta ⟨some 2, some 5, some (-1), some 1⟩ none = .ok d := by
  refine ⟨⟨2, 5, rfl, rfl, by norm_num, by norm_num⟩, ?_⟩
  simp [mkParameter, construct, beta, show (1 : ℝ) ≤ 2 by norm_num, show (1 : ℝ) ≤ 5 by norm_num]

/-- What scipy reports for a law with four finite moments. -/
def ScipyMoments (w : World) : Prop := ∀ L, IsDensity (density L) →
  w.stats L = ⟨.num (mean (density L)), .num (variance (density L)), .num (skewness (density L)), .num (kurtosis (density L) - 3)⟩

/-- The contract of scipy can be met. -/
example : ∃ w : World, ScipyMoments w :=
  ⟨⟨fun L => ⟨.num (mean (density L)), .num (variance (density L)), .num (skewness (density L)),
    .num (kurtosis (density L) - 3)⟩, (0, 0)⟩, fun _ _ => rfl⟩

theorem raw_expon : HasRaw (fun x => open Classical in if 0 ≤ x then Real.exp (-x) else 0) fun k =>
    if k = 0 then 1 else if k = 1 then 1 else if k = 2 then 2 else if k = 3 then 6 else 24 := by
  obtain ⟨h1, h2⟩ := raw_gamma 1 one_pos
  have hae : ∀ k : ℕ, (fun x : ℝ => x ^ k * (open Classical in if 0 ≤ x then Real.exp (-x) else 0)) =ᵐ[MeasureTheory.volume]
      fun x => x ^ k * (open Classical in if 0 < x then x ^ ((1 : ℝ) - 1) * Real.exp (-x) / Real.Gamma 1 else 0) := by
    intro k
    filter_upwards [MeasureTheory.Measure.ae_ne MeasureTheory.volume (0 : ℝ)] with x hx
    simp only [sub_self, Real.rpow_zero, one_mul, Real.Gamma_one, div_one]
    by_cases h : 0 < x
    · rw [if_pos h, if_pos h.le]
    · rw [if_neg h, if_neg fun h0 => h (lt_of_le_of_ne h0 (Ne.symm hx))]
  refine ⟨fun x => ?_, fun k hk => ⟨(h2 k hk).1.congr (hae k).symm, ?_⟩⟩
  · simp only
    split_ifs
    · exact (Real.exp_pos _).le
    · exact le_refl 0
  · rw [MeasureTheory.integral_congr_ae (hae k), (h2 k hk).2]
    interval_cases k <;> norm_num

/-- **C107, exponential.** With scipy's moments, an exponential parameter reports the mean, variance and skewness of its law. -/
theorem c107_exponential (w : World) (hw : ScipyMoments w) (args : Args) (e : Option Endpoints) (d : Attrs)
    (hv : Valid .exponential args) (h : mkParameter w .exponential args e = .ok d) : Truthful d := by
  have h := mkParameter_ok h
  obtain ⟨r, hr, hr0⟩ := hv
  simp only [construct, hr, exponential, if_pos hr0, Except.ok.injEq] at h
  subst h
  have hs : 0 < 1 / r := by positivity
  obtain ⟨h1, h2, h3, h4, -⟩ := locScale_moments raw_expon (by simp) 0 (1 / r) hs
  have hd : IsDensity (density (.expon (1 / r))) := h1
  refine ⟨.expon (1 / r), rfl, hd, by rw [hw _ hd], by rw [hw _ hd], ?_⟩
  simp only [Val.num.injEq, skewness, density]
  rw [h3, h4]
  pick
  rw [show (1 / r) ^ 2 * (2 - 1 ^ 2) = (1 / r) ^ 2 by ring, Real.sqrt_sq hs.le]
  field_simp
  norm_num

example (w : World) : Valid .exponential ⟨some 3, none, none, none⟩ := ⟨3, rfl, by norm_num⟩

/-- The distributions whose four moments are taken over from scipy. -/
def ScipyOnly : Name → Prop
  | .chi | .pareto | .gumbel | .logistic | .studentsT | .lognormal => True
  | _ => False

/-- **C107, moments taken over from scipy.** For the chi, Pareto, Gumbel, logistic, Student and lognormal distributions the four
moments are those scipy reports for the law behind densities and samples. Missing: that these laws have four moments at all
(a Pareto law with shape up to 4 has not, scipy then reports `inf` or `nan`). -/
theorem c107_scipy_partial (w : World) (hw : ScipyMoments w) (name : Name) (args : Args) (e : Option Endpoints) (d : Attrs)
    (hn : ScipyOnly name) (hv : Valid name args) (h : mkParameter w name args e = .ok d) :
    ∃ L, d.law = some L ∧ (IsDensity (density L) → Truthful d ∧ d.kurtosis = .num (kurtosis (density L) - 3)) := by
  have h := mkParameter_ok h
  have key : ∀ L : Law, d.law = some L → d.mean = (w.stats L).mean → d.variance = (w.stats L).variance →
      d.skewness = (w.stats L).skewness → d.kurtosis = (w.stats L).kurtosis →
      ∃ L, d.law = some L ∧ (IsDensity (density L) → Truthful d ∧ d.kurtosis = .num (kurtosis (density L) - 3)) := by
    intro L h0 h1 h2 h3 h4
    refine ⟨L, h0, fun hd => ?_⟩
    rw [hw L hd] at h1 h2 h3 h4
    exact ⟨⟨L, h0, hd, h1, h2, h3⟩, h4⟩
  obtain ⟨A, B, lo, up⟩ := args
  cases name <;> simp only [ScipyOnly] at hn <;> simp only [Valid] at hv <;> simp only [construct] at h
  · obtain ⟨k, rfl, hk⟩ := hv
    simp only [chi, if_pos hk, Except.ok.injEq] at h
    subst h
    exact key (.chi k) rfl rfl rfl rfl rfl
  · obtain ⟨k, rfl, hk⟩ := hv
    simp only [pareto, if_pos hk, Except.ok.injEq] at h
    subst h
    exact key (.pareto k) rfl rfl rfl rfl rfl
  · obtain ⟨m, s, rfl, rfl, hk⟩ := hv
    simp only [gumbel, if_pos hk, Except.ok.injEq] at h
    subst h
    exact key (.gumbelR m s) rfl rfl rfl rfl rfl
  · obtain ⟨m, s, rfl, rfl, hk⟩ := hv
    simp only [logistic, if_pos hk, Except.ok.injEq] at h
    subst h
    exact key (.logistic m s) rfl rfl rfl rfl rfl
  · obtain ⟨k, rfl, hk⟩ := hv
    simp only [studentst, if_pos hk, Except.ok.injEq] at h
    subst h
    exact key (.t k) rfl rfl rfl rfl rfl
  · obtain ⟨k, rfl, hk⟩ := hv
    simp only [lognormal, if_pos hk, Except.ok.injEq] at h
    subst h
    exact key (.lognorm k) rfl rfl rfl rfl rfl

example : Valid .logistic ⟨some 1, some 2, none, none⟩ := ⟨1, 2, rfl, rfl, by norm_num⟩

open MeasureTheory Set in
/-- **C107 fails for the Cauchy distribution.** The law has no mean, yet the parameter reports a number as its mean: the average
of a random sample, different from one construction to the next. -/
theorem c107_cauchy_violated :
    ∃ args, Valid .cauchy args ∧
      (∀ w, ∃ d L, mkParameter w .cauchy args none = .ok d ∧ d.law = some L ∧ d.mean = .num w.draw.1 ∧
        ¬ Integrable fun x => x * density L x) ∧
      ∃ w w' d d', mkParameter w .cauchy args none = .ok d ∧ mkParameter w' .cauchy args none = .ok d' ∧
        d.mean ≠ d'.mean := by
  refine ⟨⟨some 0, some 1, none, none⟩, ⟨0, 1, rfl, rfl, one_pos⟩, fun w => ⟨_, .cauchy 0 1, rfl, rfl, rfl, ?_⟩, ?_⟩
  · intro h
    refine not_integrableOn_Ioi_inv (a := 1) ?_
    have h1 : IntegrableOn (fun x => 2 * Real.pi * (x * density (.cauchy 0 1) x)) (Ioi 1) :=
      (h.const_mul (2 * Real.pi)).integrableOn
    refine Integrable.mono' h1 (by fun_prop) ?_
    filter_upwards [ae_restrict_mem measurableSet_Ioi] with x hx
    have hx : 1 < x := hx
    have hx0 : 0 < x := by linarith
    rw [Real.norm_of_nonneg (inv_pos.2 hx0).le]
    simp only [density, locScale, sub_zero, div_one]
    rw [show 2 * Real.pi * (x * (1 / (Real.pi * (1 + x ^ 2)))) = 2 * x / (1 + x ^ 2) by field_simp]
    rw [inv_eq_one_div, div_le_div_iff₀ hx0 (by positivity)]
    nlinarith
  · refine ⟨⟨fun _ => ⟨.nan, .nan, .nan, .nan⟩, (0, 0)⟩, ⟨fun _ => ⟨.nan, .nan, .nan, .nan⟩, (1, 0)⟩, _, _, rfl, rfl, ?_⟩
    simp [cauchy]

end EQ.Dist
