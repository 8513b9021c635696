import Verif.Dist.KurtosisProps
import Mathlib.Analysis.SpecialFunctions.Integrals.Basic

/-!
# The law behind densities and samples (C108)
-/

namespace EQ.Dist
open EQ.DistSpec EQ.DistLemmas EQ.Basis

theorem density_norm (m v : ℝ) (hv : 0 < v) : density (.norm m (Real.sqrt v)) = asked .gaussian m v 0 0 := by
  funext x
  have hs : 0 < Real.sqrt v := Real.sqrt_pos.2 hv
  simp only [density, locScale, phi, asked]
  rw [div_pow, Real.sq_sqrt hv.le, Real.sqrt_mul (by positivity : (0 : ℝ) ≤ 2 * Real.pi)]
  have h2 : 0 < Real.sqrt (2 * Real.pi) := Real.sqrt_pos.2 (by positivity)
  rw [show -((x - m) ^ 2 / v) / 2 = -(x - m) ^ 2 / (2 * v) by field_simp]
  field_simp

theorem density_uniform (l u : ℝ) (h : l < u) (A B : ℝ) : density (.uniform l (u - l)) = asked .uniform A B l u := by
  funext x
  have hs : 0 < u - l := sub_pos.2 h
  simp only [density, locScale, asked]
  have : (0 ≤ (x - l) / (u - l) ∧ (x - l) / (u - l) ≤ 1) ↔ (l ≤ x ∧ x ≤ u) := by
    rw [le_div_iff₀ hs, div_le_iff₀ hs, zero_mul, one_mul]
    constructor <;> rintro ⟨h1, h2⟩ <;> constructor <;> linarith
  by_cases hc : l ≤ x ∧ x ≤ u
  · rw [if_pos hc, if_pos (this.2 hc)]
  · rw [if_neg hc, if_neg (fun h => hc (this.1 h)), zero_div]

theorem density_truncnorm (m v l u : ℝ) (hv : 0 < v) :
    density (.truncnorm ((l - m) / Real.sqrt v) ((u - m) / Real.sqrt v) m (Real.sqrt v)) = asked .truncatedGaussian m v l u := by
  funext x
  have hs : 0 < Real.sqrt v := Real.sqrt_pos.2 hv
  have h2 : 0 < Real.sqrt (2 * Real.pi) := Real.sqrt_pos.2 (by positivity)
  have he : ∀ t, phi ((t - m) / Real.sqrt v) = Real.exp (-(t - m) ^ 2 / (2 * v)) / Real.sqrt (2 * Real.pi) := by
    intro t
    unfold phi
    rw [div_pow, Real.sq_sqrt hv.le, show -((t - m) ^ 2 / v) / 2 = -(t - m) ^ 2 / (2 * v) by field_simp]
  have hI : ∫ t in l..u, Real.exp (-(t - m) ^ 2 / (2 * v)) =
      Real.sqrt (2 * Real.pi) * (Real.sqrt v * ∫ t in (l - m) / Real.sqrt v..(u - m) / Real.sqrt v, phi t) := by
    have h3 := intervalIntegral.integral_comp_sub_div phi hs.ne' (m / Real.sqrt v) (a := l) (b := u)
    have h4 : ∀ t : ℝ, t / Real.sqrt v - m / Real.sqrt v = (t - m) / Real.sqrt v := fun t => (sub_div t m _).symm
    have h5 := intervalIntegral.integral_comp_div_sub phi hs.ne' (m / Real.sqrt v) (a := l) (b := u)
    simp only [h4, he, smul_eq_mul] at h5
    rw [intervalIntegral.integral_div] at h5
    rw [← h5]
    field_simp
  simp only [density, locScale, asked]
  have hiff : ((l - m) / Real.sqrt v ≤ (x - m) / Real.sqrt v ∧ (x - m) / Real.sqrt v ≤ (u - m) / Real.sqrt v) ↔ (l ≤ x ∧ x ≤ u) := by
    rw [div_le_div_iff_of_pos_right hs, div_le_div_iff_of_pos_right hs]
    constructor <;> rintro ⟨h1, h2⟩ <;> constructor <;> linarith
  by_cases hc : l ≤ x ∧ x ≤ u
  · rw [if_pos hc, if_pos (hiff.2 hc), he, hI]
    rw [div_div, div_div]
    congr 1
    ring
  · rw [if_neg hc, if_neg (fun h => hc (hiff.1 h)), zero_div]

theorem density_cauchy (m s : ℝ) (hs : 0 < s) (l u : ℝ) : density (.cauchy m s) = asked .cauchy m s l u := by
  funext x
  simp only [density, locScale, asked]
  have : 0 < s ^ 2 + (x - m) ^ 2 := by positivity
  field_simp

theorem density_expon (r : ℝ) (hr : 0 < r) (B l u : ℝ) : density (.expon (1 / r)) = asked .exponential r B l u := by
  funext x
  simp only [density, locScale, asked, sub_zero]
  have e : x / (1 / r) = r * x := by field_simp
  rw [e]
  by_cases hx : 0 ≤ x
  · rw [if_pos hx, if_pos (by positivity)]
    field_simp
  · rw [if_neg hx, if_neg (fun h => hx (by rcases (mul_nonneg_iff_of_pos_left hr).1 h with h; exact h)), zero_div]

theorem density_gamma (a s : ℝ) (ha : 0 < a) (hs : 0 < s) (l u : ℝ) : density (.gamma a s) = asked .gamma a s l u := by
  funext x
  have g := (Real.Gamma_pos_of_pos ha).ne'
  simp only [density, locScale, asked, sub_zero]
  by_cases hx : 0 < x
  · rw [if_pos hx, if_pos (div_pos hx hs), Real.div_rpow hx.le hs.le, Real.rpow_sub_one hs.ne']
    have := (Real.rpow_pos_of_pos hs a).ne'
    field_simp
  · rw [if_neg hx, if_neg (fun h => hx (by have := (div_pos_iff_of_pos_right hs).1 h; exact this)), zero_div]

theorem density_weibull (s c : ℝ) (hs : 0 < s) (l u : ℝ) : density (.weibullMin c s) = asked .weibull s c l u := by
  funext x
  simp only [density, locScale, asked, sub_zero]
  by_cases hx : 0 < x
  · rw [if_pos hx, if_pos (div_pos hx hs)]
    ring
  · rw [if_neg hx, if_neg (fun h => hx (by have := (div_pos_iff_of_pos_right hs).1 h; exact this)), zero_div]

theorem density_rayleigh (s : ℝ) (hs : 0 < s) (B l u : ℝ) : density (.rayleigh s) = asked .rayleigh s B l u := by
  funext x
  simp only [density, locScale, asked, sub_zero]
  by_cases hx : 0 ≤ x
  · rw [if_pos hx, if_pos (div_nonneg hx hs.le), show -(x / s) ^ 2 / 2 = -x ^ 2 / (2 * s ^ 2) by field_simp]
    field_simp
  · rw [if_neg hx, if_neg (fun h => hx (by have := mul_nonneg h hs.le; rwa [div_mul_cancel₀ _ hs.ne'] at this)), zero_div]

theorem density_chi2 (k : ℝ) (hk : 0 < k) (B l u : ℝ) : density (.chi2 k) = asked .chiSquared k B l u := by
  funext x
  simp only [density, asked]
  by_cases hx : 0 < x
  · rw [if_pos hx, if_pos hx, Real.div_rpow hx.le (by norm_num), Real.rpow_sub_one (x := 2) (by norm_num)]
    have g := (Real.Gamma_pos_of_pos (half_pos hk)).ne'
    have := (Real.rpow_pos_of_pos (two_pos : (0 : ℝ) < 2) (k / 2)).ne'
    field_simp
  · rw [if_neg hx, if_neg hx]

theorem density_logistic (m s : ℝ) (hs : 0 < s) (l u : ℝ) : density (.logistic m s) = asked .logistic m s l u := by
  funext x
  simp only [density, locScale, asked]
  rw [show -((x - m) / s) = -(x - m) / s by ring, div_div, mul_comm s]

theorem density_gumbel (m s l u : ℝ) : density (.gumbelR m s) = asked .gumbel m s l u := by
  funext x
  simp only [density, locScale, asked]
  ring

theorem density_chi (k B l u : ℝ) : density (.chi k) = asked .chi k B l u := by
  funext x
  simp only [density, asked]
  by_cases hx : 0 < x
  · rw [if_pos hx, if_pos hx]; ring
  · rw [if_neg hx, if_neg hx]

theorem density_lognorm (s B l u : ℝ) : density (.lognorm s) = asked .lognormal s B l u := by
  funext x
  simp only [density, asked]
  by_cases hx : 0 < x
  · rw [if_pos hx, if_pos hx, mul_comm s x]
  · rw [if_neg hx, if_neg hx]

/-- The number given, or a default. -/
def given (x : Option ℝ) (d : ℝ) : ℝ := x.getD d

/-- **C108, laws other than beta and arcsine.** Densities, distribution functions and samples of a parameter come from the law
the user asked for: the two shape parameters and the bounds enter where the documentation says. If one of the bounds of a
uniform parameter is missing, the law is that on `[0, 1]`. Missing: the beta and arcsine laws on their interval
(`c108_unit_partial`, `c108_support_violated`). -/
theorem c108_law_partial (w : World) (name : Name) (args : Args) (e : Option Endpoints) (d : Attrs) (hb : name ≠ .beta)
    (ha : name ≠ .arcsine) (hv : Valid name args) (hu : name = .uniform → args.lower.isSome ∧ args.upper.isSome)
    (h : mkParameter w name args e = .ok d) :
    ∃ L, d.law = some L ∧ density L = asked name (given args.A 0) (given args.B 0) (given args.lower 0) (given args.upper 0) := by
  have h := mkParameter_ok h
  obtain ⟨A, B, lo, up⟩ := args
  cases name <;> simp only [Valid] at hv <;> simp only [construct] at h
  · obtain ⟨m, v, rfl, rfl, hv⟩ := hv
    simp only [gaussian, Except.ok.injEq] at h
    subst h
    exact ⟨_, rfl, density_norm m v hv⟩
  · obtain ⟨h1, h2⟩ := hu rfl
    obtain ⟨l, rfl⟩ := Option.isSome_iff_exists.1 h1
    obtain ⟨u, rfl⟩ := Option.isSome_iff_exists.1 h2
    rw [← Except.ok.inj h]
    exact ⟨_, rfl, density_uniform l u (hv l u rfl rfl) _ _⟩
  · exact absurd rfl hb
  · obtain ⟨m, v, l, u, rfl, rfl, rfl, rfl, hv, hlu⟩ := hv
    rw [← Except.ok.inj h]
    exact ⟨_, rfl, density_truncnorm m v l u hv⟩
  · obtain ⟨m, s, rfl, rfl, hs⟩ := hv
    simp only [cauchy, Except.ok.injEq] at h
    subst h
    exact ⟨_, rfl, density_cauchy m s hs _ _⟩
  · obtain ⟨r, rfl, hr⟩ := hv
    simp only [exponential, if_pos hr, Except.ok.injEq] at h
    subst h
    exact ⟨_, rfl, density_expon r hr _ _ _⟩
  · obtain ⟨a, s, rfl, rfl, ha, hs⟩ := hv
    simp only [gamma, if_pos ha, Except.ok.injEq] at h
    subst h
    exact ⟨_, rfl, density_gamma a s ha hs _ _⟩
  · obtain ⟨s, c, rfl, rfl, hs, hc⟩ := hv
    simp only [weibull, if_pos (And.intro hc hs), Except.ok.injEq] at h
    subst h
    exact ⟨_, rfl, density_weibull s c hs _ _⟩
  · exact absurd rfl ha
  · obtain ⟨s, rfl, hs⟩ := hv
    simp only [rayleigh, if_pos hs, Except.ok.injEq] at h
    subst h
    exact ⟨_, rfl, density_rayleigh s hs _ _ _⟩
  · obtain ⟨k, rfl, hk⟩ := hv
    simp only [chisquared, if_pos hk, Except.ok.injEq] at h
    subst h
    exact ⟨_, rfl, density_chi2 k (by linarith) _ _ _⟩
  · obtain ⟨k, rfl, hk⟩ := hv
    simp only [chi, if_pos hk, Except.ok.injEq] at h
    subst h
    exact ⟨_, rfl, density_chi k _ _ _⟩
  · obtain ⟨b, rfl, hb⟩ := hv
    simp only [pareto, if_pos hb, Except.ok.injEq] at h
    subst h
    exact ⟨_, rfl, rfl⟩
  · obtain ⟨m, s, rfl, rfl, hs⟩ := hv
    simp only [gumbel, if_pos hs, Except.ok.injEq] at h
    subst h
    exact ⟨_, rfl, density_gumbel m s _ _⟩
  · obtain ⟨m, s, rfl, rfl, hs⟩ := hv
    simp only [logistic, if_pos hs, Except.ok.injEq] at h
    subst h
    exact ⟨_, rfl, density_logistic m s hs _ _⟩
  · obtain ⟨k, rfl, hk⟩ := hv
    simp only [studentst, if_pos hk, Except.ok.injEq] at h
    subst h
    exact ⟨_, rfl, rfl⟩
  · obtain ⟨s, rfl, hs⟩ := hv
    simp only [lognormal, if_pos hs, Except.ok.injEq] at h
    subst h
    exact ⟨_, rfl, density_lognorm s _ _ _⟩

/-- A Weibull parameter with scale 2 and shape 3. -/
example (w : World) : Valid .weibull ⟨some 2, some 3, none, none⟩ ∧
    ∃ d, mkParameter w .weibull ⟨some 2, some 3, none, none⟩ none = .ok d := by
  refine ⟨⟨2, 3, rfl, rfl, by norm_num, by norm_num⟩, ?_⟩
  simp [mkParameter, construct, weibull, show (0 : ℝ) < 3 by norm_num]

/-- **C108, beta and arcsine on the unit interval.** With bounds 0 and 1 these laws are the ones asked for. -/
theorem c108_unit_partial (w : World) (name : Name) (args : Args) (e : Option Endpoints) (d : Attrs)
    (hn : name = .beta ∨ name = .arcsine) (hv : Valid name args) (hl : args.lower = some 0) (hu : args.upper = some 1)
    (h : mkParameter w name args e = .ok d) :
    ∃ L, d.law = some L ∧ density L = asked name (given args.A 0) (given args.B 0) 0 1 := by
  have h := mkParameter_ok h
  obtain ⟨A, B, lo, up⟩ := args
  rcases hn with rfl | rfl
  · obtain ⟨a, b, ⟨⟩, ⟨⟩, ha, hb⟩ := hv
    simp only [construct, beta, if_pos (And.intro ha hb), Except.ok.injEq] at h
    subst h
    refine ⟨_, rfl, ?_⟩
    funext x
    simp [density, asked, given]
  · simp only [construct, Except.ok.injEq] at h
    subst h
    refine ⟨_, rfl, ?_⟩
    funext x
    simp [density, asked]

/-- **C108 fails for the beta and arcsine laws.** For whatever bounds other than 0 and 1 are given, the densities of the parameter
are not those on the interval asked for: they are those on `[0, 1]`. -/
theorem c108_support_violated (w : World) (l u : ℝ) (hlu : l < u) (hne : l ≠ 0 ∨ u ≠ 1) :
    (∀ a b, 1 ≤ a → 1 ≤ b → ∃ d L, mkParameter w .beta ⟨some a, some b, some l, some u⟩ none = .ok d ∧ d.law = some L ∧
      density L ≠ asked .beta a b l u) ∧
    (∃ d L, mkParameter w .arcsine ⟨none, none, some l, some u⟩ none = .ok d ∧ d.law = some L ∧
      density L ≠ asked .arcsine 0 0 l u) := by
  -- a point inside exactly one of the two intervals
  have hp : ∃ x, (0 < x ∧ x < 1 ∧ ¬ (l < x ∧ x < u)) ∨ (l < x ∧ x < u ∧ ¬ (0 < x ∧ x < 1)) := by
    by_cases h1 : l < 0
    · refine ⟨(l + min 0 u) / 2, Or.inr ⟨?_, ?_, fun h => ?_⟩⟩
      · rcases le_total 0 u with h | h <;> simp only [h, min_eq_left, min_eq_right] <;> linarith
      · rcases le_total 0 u with h | h <;> simp only [h, min_eq_left, min_eq_right] <;> linarith
      · have := min_le_left 0 u; linarith [h.1]
    by_cases h2 : 1 < u
    · refine ⟨(u + max 1 l) / 2, Or.inr ⟨?_, ?_, fun h => ?_⟩⟩
      · rcases le_total 1 l with h | h <;> simp only [h, max_eq_left, max_eq_right] <;> linarith
      · rcases le_total 1 l with h | h <;> simp only [h, max_eq_left, max_eq_right] <;> linarith
      · have := le_max_left 1 l; linarith [h.2]
    by_cases h3 : l = 0
    · have h4 : u < 1 := by
        rcases hne with h | h
        · exact absurd h3 h
        · exact lt_of_le_of_ne (not_lt.1 h2) h
      exact ⟨(u + 1) / 2, Or.inl ⟨by linarith, by linarith, fun h => by linarith [h.2]⟩⟩
    · have h5 : 0 < l := lt_of_le_of_ne (not_lt.1 h1) (Ne.symm h3)
      have h6 : u ≤ 1 := not_lt.1 h2
      exact ⟨l / 2, Or.inl ⟨by linarith, by linarith, fun h => by linarith [h.1]⟩⟩
  obtain ⟨x, hx⟩ := hp
  refine ⟨fun a b ha hb => ⟨beta (some l) (some u) (some a) (some b), .beta a b, ?_, ?_, fun h => ?_⟩,
    ⟨chebyshev (some l) (some u), .arcsine, rfl, rfl, fun h => ?_⟩⟩
  · simp [mkParameter, construct, beta, ha, hb]
  · simp [beta, ha, hb]
  · have h := congrFun h x
    have ga := Real.Gamma_pos_of_pos (show 0 < a by linarith)
    have gb := Real.Gamma_pos_of_pos (show 0 < b by linarith)
    have gab := Real.Gamma_pos_of_pos (show 0 < a + b by linarith)
    simp only [density, asked] at h
    rcases hx with ⟨h0, h1, hn⟩ | ⟨h0, h1, hn⟩
    · rw [if_pos ⟨h0, h1⟩, if_neg hn] at h
      have p1 := Real.rpow_pos_of_pos h0 (a - 1)
      have p2 := Real.rpow_pos_of_pos (show 0 < 1 - x by linarith) (b - 1)
      have : 0 < Real.Gamma (a + b) * x ^ (a - 1) * (1 - x) ^ (b - 1) / (Real.Gamma a * Real.Gamma b) := by positivity
      linarith
    · rw [if_neg hn, if_pos ⟨h0, h1⟩] at h
      have p1 := Real.rpow_pos_of_pos (show 0 < x - l by linarith) (a - 1)
      have p2 := Real.rpow_pos_of_pos (show 0 < u - x by linarith) (b - 1)
      have p3 := Real.rpow_pos_of_pos (show 0 < u - l by linarith) (a + b - 1)
      have : 0 < Real.Gamma (a + b) * (x - l) ^ (a - 1) * (u - x) ^ (b - 1) /
          (Real.Gamma a * Real.Gamma b * (u - l) ^ (a + b - 1)) := by positivity
      linarith
  · have h := congrFun h x
    simp only [density, asked] at h
    rcases hx with ⟨h0, h1, hn⟩ | ⟨h0, h1, hn⟩
    · rw [if_pos ⟨h0, h1⟩, if_neg hn] at h
      have p1 := Real.sqrt_pos.2 (mul_pos h0 (show 0 < 1 - x by linarith))
      have : 0 < 1 / (Real.pi * Real.sqrt (x * (1 - x))) := by positivity
      linarith
    · rw [if_neg hn, if_pos ⟨h0, h1⟩] at h
      have p1 := Real.sqrt_pos.2 (mul_pos (show 0 < x - l by linarith) (show 0 < u - x by linarith))
      have : 0 < 1 / (Real.pi * Real.sqrt ((x - l) * (u - x))) := by positivity
      linarith

/-- The interval of the example in the documentation, `[-2, 15]`, is concerned. -/
example : (-2 : ℝ) < 15 ∧ ((-2 : ℝ) ≠ 0 ∨ (15 : ℝ) ≠ 1) := by norm_num

end EQ.Dist
