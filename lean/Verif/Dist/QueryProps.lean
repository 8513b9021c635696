import Verif.Dist.ProbLemmas
import Verif.Dist.DensityProps
import Mathlib.MeasureTheory.Integral.DominatedConvergence

/-!
# Densities, distribution functions, quantiles and samples of a parameter (C185); moments taken over from scipy (C107)
-/

namespace EQ.Dist
open EQ.DistSpec EQ.DistLemmas EQ.Basis MeasureTheory Set Filter Topology

/-! ## Model -/

/-- The methods of the frozen scipy distributions that are called. -/
structure Scipy where
  pdf : Law → ℝ → ℝ
  cdf : Law → ℝ → ℝ
  ppf : Law → ℝ → ℝ
  rvs : Law → ℕ → List ℝ

/-- What a query returns: values, or points with values. -/
inductive Answer
  | values (v : List ℝ)
  | onPoints (x v : List ℝ)

/-- A query at given points, or on the range of the distribution: an attribute that was never set raises `AttributeError`. -/
noncomputable def query (d : Attrs) (f : Law → ℝ → ℝ) (points : Option (List ℝ)) : Except Err Answer :=
  match points with
  | none =>
    match d.range, d.law with
    | some r, some L => .ok (.onPoints (linspace r) ((linspace r).map (f L)))
    | _, _ => .error .attributeError
  | some x =>
    match d.law with
    | some L => .ok (.values (x.map (f L)))
    | none => .error .attributeError

/-- `Parameter.get_pdf` (`parameter.py:149-161`) with `get_pdf` of the distributions (`gaussian.py:59-70`, `uniform.py:62-79`,
`beta.py:53-65`, `truncated_gaussian.py:52-68`, `cauchy.py:41-57`, `exponential.py:38-54`, `gamma.py:38-54`, `weibull.py:42-56`,
`chebyshev.py:38-54`, `rayleigh.py:49-60`, `chisquared.py:39-55`, `chi.py:41-57`, `pareto.py:37-53`, `gumbel.py:38-54`,
`logistic.py:38-54`, `studentst.py:38-54`, `lognormal.py:37-53`): the method of the scipy distribution, applied to every point. -/
noncomputable def getPdf (s : Scipy) (d : Attrs) (points : Option (List ℝ)) : Except Err Answer := query d s.pdf points

/-- `Parameter.get_cdf` (`parameter.py:163-176`) with `get_cdf` of the distributions, as `getPdf`
(`gaussian.py:71-82`, `uniform.py:44-61`, `beta.py:67-81`, `truncated_gaussian.py:94-110`, `cauchy.py:58-74`, `exponential.py:67-83`,
`gamma.py:56-72`, `weibull.py:70-88`, `chebyshev.py:55-71`, `rayleigh.py:63-74`, `chisquared.py:56-72`, `chi.py:58-74`,
`pareto.py:54-70`, `gumbel.py:55-71`, `logistic.py:55-71`, `studentst.py:55-71`, `lognormal.py:54-70`). -/
noncomputable def getCdf (s : Scipy) (d : Attrs) (points : Option (List ℝ)) : Except Err Answer := query d s.cdf points

/-- `Parameter.get_icdf` (`parameter.py:177-186`) with `get_icdf` of the distributions (`gaussian.py:83-94`,
`uniform.py:93-104`, `beta.py:97-108`, `truncated_gaussian.py:69-78`, `cauchy.py:75-86`, `exponential.py:55-66`, `gamma.py:73-84`,
`weibull.py:57-69`, `chebyshev.py:85-96`, `rayleigh.py:24-35`, `chisquared.py:73-84`, `chi.py:75-86`, `pareto.py:71-82`,
`gumbel.py:72-83`, `logistic.py:72-83`, `studentst.py:72-83`, `lognormal.py:71-82`). -/
noncomputable def getIcdf (s : Scipy) (d : Attrs) (values : List ℝ) : Except Err (List ℝ) :=
  match d.law with
  | some L => .ok (values.map (s.ppf L))
  | none => .error .attributeError

/-- `Parameter.get_samples` (`parameter.py:187-196`). Only the Weibull distribution keeps the method of the template
(`template.py:76-93`), which draws uniform numbers (here `u`) and applies `get_icdf`; the others call `rvs`
(for instance `gaussian.py:43-57`). `None` stands for 500000 samples (`template.py:7,88`, `gaussian.py:56`). Simplification: the
arrays of shape `(m, 1)` and `(m,)` are both lists. -/
noncomputable def getSamples (s : Scipy) (u : ℕ → ℝ) (d : Attrs) (m : Option ℕ) : Except Err (List ℝ) :=
  let n := match m with
    | some n => n
    | none => 500000
  match d.law with
  | some (.weibullMin _ _) => getIcdf s d ((List.range n).map u)
  | some L => .ok (s.rvs L n)
  | none => .error .attributeError

/-! ## Specification -/

/-- The mass a density puts on the numbers up to `x`. -/
noncomputable def mass (f : ℝ → ℝ) (x : ℝ) : ℝ := ∫ t in Iic x, f t

/-- The contract of scipy for laws that have a density: the density of the documentation, the mass up to a point, the least point
with at least a given mass, and the number of samples asked for. -/
structure ScipyContract (s : Scipy) : Prop where
  pdf : ∀ L x, s.pdf L x = density L x
  cdf : ∀ L, IsProb (density L) → ∀ x, s.cdf L x = mass (density L) x
  ppf : ∀ L, IsProb (density L) → ∀ q, 0 < q → q < 1 → IsLeast {x | q ≤ mass (density L) x} (s.ppf L q)
  rvs : ∀ L n, (s.rvs L n).length = n

/-! ## Proofs -/

theorem mass_mono {f : ℝ → ℝ} (h : IsProb f) : Monotone (mass f) := fun _ _ hxy =>
  setIntegral_mono_set h.2.1.integrableOn (ae_of_all _ h.1) (Iic_subset_Iic.2 hxy).eventuallyLE

theorem mass_nonneg {f : ℝ → ℝ} (h : IsProb f) (x : ℝ) : 0 ≤ mass f x := integral_nonneg h.1

theorem mass_le_one {f : ℝ → ℝ} (h : IsProb f) (x : ℝ) : mass f x ≤ 1 := by
  rw [← h.2.2]
  exact setIntegral_le_integral h.2.1 (ae_of_all _ h.1)

theorem mass_top {f : ℝ → ℝ} (h : IsProb f) : Tendsto (mass f) atTop (𝓝 1) := by
  rw [← h.2.2]
  exact (aecover_Iic tendsto_id).integral_tendsto_of_countably_generated h.2.1

theorem mass_sub {f : ℝ → ℝ} (h : IsProb f) (a b : ℝ) (hab : a ≤ b) : mass f b - mass f a = ∫ t in Ioc a b, f t := by
  have := intervalIntegral.integral_Iic_sub_Iic (a := a) (b := b) h.2.1.integrableOn h.2.1.integrableOn
  rw [intervalIntegral.integral_of_le hab] at this
  exact this

theorem mass_bot {f : ℝ → ℝ} (h : IsProb f) : Tendsto (mass f) atBot (𝓝 0) := by
  have h1 : Tendsto (fun x => ∫ t in Ioi x, f t) atBot (𝓝 1) := by
    rw [← h.2.2]
    exact (aecover_Ioi tendsto_id).integral_tendsto_of_countably_generated h.2.1
  have e : mass f = fun x => 1 - ∫ t in Ioi x, f t := by
    funext x
    have := integral_add_compl (measurableSet_Iic (a := x)) h.2.1
    rw [compl_Iic, h.2.2] at this
    rw [mass]
    linarith
  rw [e]
  simpa using h1.const_sub 1

theorem mass_cont {f : ℝ → ℝ} (h : IsProb f) : Continuous (mass f) := by
  have e : mass f = fun x => mass f 0 + ∫ t in (0 : ℝ)..x, f t := by
    funext x
    have := intervalIntegral.integral_Iic_sub_Iic (a := 0) (b := x) h.2.1.integrableOn h.2.1.integrableOn
    rw [← this, mass, mass]
    ring
  rw [e]
  exact continuous_const.add (intervalIntegral.continuous_primitive (fun a b => h.2.1.intervalIntegrable) 0)

theorem quantile_exists {f : ℝ → ℝ} (h : IsProb f) (q : ℝ) (h0 : 0 < q) (h1 : q < 1) : ∃ x, IsLeast {x | q ≤ mass f x} x := by
  have hne : {x | q ≤ mass f x}.Nonempty := by
    obtain ⟨x, hx⟩ := ((mass_top h).eventually (lt_mem_nhds h1)).exists
    exact ⟨x, hx.le⟩
  have hbd : BddBelow {x | q ≤ mass f x} := by
    obtain ⟨a, ha⟩ := ((mass_bot h).eventually (gt_mem_nhds h0)).exists
    refine ⟨a, fun x hx => ?_⟩
    by_contra hlt
    have := mass_mono h (not_le.1 hlt).le
    have hx : q ≤ mass f x := hx
    linarith
  have hcl : IsClosed {x | q ≤ mass f x} := isClosed_le continuous_const (mass_cont h)
  exact ⟨_, hcl.csInf_mem hne hbd, fun x hx => csInf_le hbd hx⟩

theorem quantile_mass {f : ℝ → ℝ} (h : IsProb f) {q x : ℝ} (h0 : 0 < q) (hx : IsLeast {x | q ≤ mass f x} x) : mass f x = q := by
  refine le_antisymm ?_ hx.1
  by_contra hlt
  have hlt := not_le.1 hlt
  obtain ⟨a, ha⟩ := ((mass_bot h).eventually (gt_mem_nhds h0)).exists
  have hax : a ≤ x := by
    by_contra hc
    have := mass_mono h (not_le.1 hc).le
    linarith
  obtain ⟨y, hy, hyq⟩ := intermediate_value_Icc hax (mass_cont h).continuousOn ⟨ha.le, hlt.le⟩
  have h2 : x ≤ y := hx.2 (show q ≤ mass f y from hyq.ge)
  have : mass f x ≤ mass f y := mass_mono h h2
  linarith

theorem quantile_le {f : ℝ → ℝ} (h : IsProb f) {q x : ℝ} (hx : IsLeast {x | q ≤ mass f x} x) (z : ℝ) : x ≤ z ↔ q ≤ mass f z :=
  ⟨fun hz => le_trans hx.1 (mass_mono h hz), fun hz => hx.2 hz⟩

/-- Every parameter that is built from admissible arguments stands on a law with a density. -/
theorem law_prob (w : World) (name : Name) (args : Args) (e : Option Endpoints) (d : Attrs) (hv : Valid name args)
    (h : mkParameter w name args e = .ok d) : ∃ L, d.law = some L ∧ IsProb (density L) := by
  have own : OwnFormulas name → ∃ L, d.law = some L ∧ IsProb (density L) := fun hn => by
    obtain ⟨L, h1, h2, -⟩ := c107_own_partial w name args e d hn hv h
    exact ⟨L, h1, IsDensity.prob h2⟩
  have h := mkParameter_ok h
  obtain ⟨A, B, lo, up⟩ := args
  cases name
  case gaussian | uniform | beta | gamma | weibull | arcsine | rayleigh | chiSquared => exact own trivial
  all_goals simp only [Valid] at hv
  all_goals simp only [construct] at h
  · obtain ⟨m, v, l, u, rfl, rfl, rfl, rfl, hv, hlu⟩ := hv
    have hs := Real.sqrt_pos.2 hv
    simp only [truncatedGaussian, Except.ok.injEq] at h
    subst h
    exact ⟨_, rfl, (IsDensity.prob (dens_truncnorm _ _ (by gcongr))).locScale m _ hs⟩
  · obtain ⟨m, s, rfl, rfl, hs⟩ := hv
    simp only [cauchy, Except.ok.injEq] at h
    subst h
    exact ⟨_, rfl, prob_cauchy.locScale m s hs⟩
  · obtain ⟨r, rfl, hr⟩ := hv
    simp only [exponential, if_pos hr, Except.ok.injEq] at h
    subst h
    exact ⟨_, rfl, IsDensity.prob (locScale_moments raw_expon (by simp) 0 (1 / r) (by positivity)).1⟩
  · obtain ⟨k, rfl, hk⟩ := hv
    simp only [chi, if_pos hk, Except.ok.injEq] at h
    subst h
    exact ⟨_, rfl, IsDensity.prob (dens_chi k (by linarith))⟩
  · obtain ⟨b, rfl, hk⟩ := hv
    simp only [pareto, if_pos hk, Except.ok.injEq] at h
    subst h
    exact ⟨_, rfl, prob_pareto b hk⟩
  · obtain ⟨m, s, rfl, rfl, hk⟩ := hv
    simp only [gumbel, if_pos hk, Except.ok.injEq] at h
    subst h
    exact ⟨_, rfl, (IsDensity.prob dens_gumbel).locScale m s hk⟩
  · obtain ⟨m, s, rfl, rfl, hk⟩ := hv
    simp only [logistic, if_pos hk, Except.ok.injEq] at h
    subst h
    exact ⟨_, rfl, (IsDensity.prob dens_logistic).locScale m s hk⟩
  · obtain ⟨k, rfl, hk⟩ := hv
    simp only [studentst, if_pos hk, Except.ok.injEq] at h
    subst h
    exact ⟨_, rfl, prob_t k hk⟩
  · obtain ⟨s, rfl, hk⟩ := hv
    simp only [lognormal, if_pos hk, Except.ok.injEq] at h
    subst h
    exact ⟨_, rfl, IsDensity.prob (dens_lognorm s hk)⟩

/-- The contract of scipy can be met. -/
example : ∃ s, ScipyContract s := by
  classical
  refine ⟨⟨fun L => density L, fun L => mass (density L), fun L q => sInf {x | q ≤ mass (density L) x},
    fun _ n => List.replicate n 0⟩, fun _ _ => rfl, fun _ _ _ => rfl, fun L h q h0 h1 => ?_, fun _ _ => by simp⟩
  obtain ⟨x, hx⟩ := quantile_exists h q h0 h1
  show IsLeast _ (sInf {x | q ≤ mass (density L) x})
  rw [hx.csInf_eq]
  exact hx

/-- **C185, densities and distribution functions.** For a parameter built from admissible arguments, of any of the seventeen named
distributions, `get_pdf` evaluates one probability density `f` (non-negative with integral 1) and `get_cdf` evaluates one function
`F` that is the mass of this density: continuous, increasing, between 0 and 1, with limits 0 and 1, and `F(b) - F(a)` is the mass
of `f` between `a` and `b`. Without points, both evaluate on the range of the parameter and return its points as well. -/
theorem c185_density (s : Scipy) (hs : ScipyContract s) (w : World) (name : Name) (args : Args) (e : Option Endpoints) (d : Attrs)
    (hv : Valid name args) (h : mkParameter w name args e = .ok d) :
    ∃ f F : ℝ → ℝ,
      (∀ pts, getPdf s d (some pts) = .ok (.values (pts.map f)) ∧ getCdf s d (some pts) = .ok (.values (pts.map F))) ∧
      (∀ r, d.range = some r → getPdf s d none = .ok (.onPoints (linspace r) ((linspace r).map f)) ∧
        getCdf s d none = .ok (.onPoints (linspace r) ((linspace r).map F))) ∧
      (∀ x, 0 ≤ f x) ∧ Integrable f ∧ ∫ x, f x = 1 ∧
      Continuous F ∧ Monotone F ∧ (∀ x, 0 ≤ F x ∧ F x ≤ 1) ∧ Tendsto F atBot (𝓝 0) ∧ Tendsto F atTop (𝓝 1) ∧
      ∀ a b, a ≤ b → F b - F a = ∫ t in a..b, f t := by
  obtain ⟨L, hL, hp⟩ := law_prob w name args e d hv h
  have e1 : s.pdf L = density L := funext fun x => hs.pdf L x
  have e2 : s.cdf L = mass (density L) := funext fun x => hs.cdf L hp x
  refine ⟨density L, mass (density L), fun pts => ?_, fun r hr => ?_, hp.1, hp.2.1, hp.2.2, mass_cont hp, mass_mono hp,
    fun x => ⟨mass_nonneg hp x, mass_le_one hp x⟩, mass_bot hp, mass_top hp, fun a b hab => ?_⟩
  · simp only [getPdf, getCdf, query, hL, e1, e2, and_self]
  · simp only [getPdf, getCdf, query, hL, hr, e1, e2, and_self]
  · rw [mass_sub hp a b hab, intervalIntegral.integral_of_le hab]

/-- **C185, quantiles and samples.** With the function `F` that `get_cdf` evaluates, `get_icdf` evaluates one function `Q` that
inverts it on `(0, 1)`: `F(Q(q)) = q`, and `Q(q)` is at most `x` exactly if `q` is at most `F(x)`. Hence uniform numbers put through
`Q` (this is how Weibull samples are made) are at most `x` with probability `F(x)`. Any number of samples asked for is returned. -/
theorem c185_quantiles (s : Scipy) (hs : ScipyContract s) (w : World) (name : Name) (args : Args) (e : Option Endpoints) (d : Attrs)
    (hv : Valid name args) (h : mkParameter w name args e = .ok d) :
    ∃ F Q : ℝ → ℝ,
      (∀ pts, getCdf s d (some pts) = .ok (.values (pts.map F))) ∧
      (∀ qs, getIcdf s d qs = .ok (qs.map Q)) ∧
      (∀ q, 0 < q → q < 1 → F (Q q) = q) ∧
      (∀ q x, 0 < q → q < 1 → (Q q ≤ x ↔ q ≤ F x)) ∧
      (∀ x, volume {u : ℝ | 0 < u ∧ u < 1 ∧ Q u ≤ x} = ENNReal.ofReal (F x)) ∧
      (∀ u n, ∃ l, getSamples s u d (some n) = .ok l ∧ l.length = n ∧ (name = .weibull → l = (List.range n).map fun i => Q (u i))) ∧
      ∀ u, ∃ l, getSamples s u d none = .ok l ∧ l.length = 500000 := by
  obtain ⟨L, hL, hp⟩ := law_prob w name args e d hv h
  have e2 : s.cdf L = mass (density L) := funext fun x => hs.cdf L hp x
  have hQ := hs.ppf L hp
  have samples : ∀ u n, ∃ l, getSamples s u d (some n) = .ok l ∧ l.length = n ∧
      (name = .weibull → l = (List.range n).map fun i => s.ppf L (u i)) := by
    intro u n
    have hw : name = .weibull → ∃ c sc, L = .weibullMin c sc := by
      rintro rfl
      obtain ⟨A, B, lo, up⟩ := args
      obtain ⟨sc, c, h1, h2, h3, h4⟩ := hv
      have h := mkParameter_ok h
      simp only at h1 h2
      subst h1 h2
      simp only [construct, weibull, if_pos (And.intro h4 h3), Except.ok.injEq] at h
      subst h
      exact ⟨c, sc, (Option.some.inj hL).symm⟩
    cases L
    case weibullMin c sc =>
      simp only [getSamples, hL, getIcdf]
      exact ⟨_, rfl, by simp, fun _ => by simp⟩
    all_goals
      simp only [getSamples, hL]
      refine ⟨_, rfl, hs.rvs _ n, fun hn => ?_⟩
      obtain ⟨c, sc, hc⟩ := hw hn
      cases hc
  refine ⟨mass (density L), s.ppf L, fun pts => ?_, fun qs => ?_, fun q h0 h1 => quantile_mass hp h0 (hQ q h0 h1),
    fun q x h0 h1 => quantile_le hp (hQ q h0 h1) x, fun x => ?_, samples, fun u => ?_⟩
  · simp only [getCdf, query, hL, e2]
  · simp only [getIcdf, hL]
  · have hset : {u : ℝ | 0 < u ∧ u < 1 ∧ s.ppf L u ≤ x} =ᵐ[volume] Ioc 0 (mass (density L) x) := by
      have h1 := Measure.ae_ne volume (1 : ℝ)
      filter_upwards [h1] with u hu
      refine propext ⟨fun ⟨a, b, c⟩ => ⟨a, (quantile_le hp (hQ u a b) x).1 c⟩, fun ⟨a, b⟩ => ?_⟩
      have hlt : u < 1 := lt_of_le_of_ne (b.trans (mass_le_one hp x)) hu
      exact ⟨a, hlt, (quantile_le hp (hQ u a hlt) x).2 b⟩
    rw [measure_congr hset, Real.volume_Ioc, sub_zero]
  · obtain ⟨l, h1, h2, -⟩ := samples u 500000
    exact ⟨l, h1, h2⟩

/-- A Weibull parameter with scale 2 and shape 3. -/
example (w : World) : Valid .weibull ⟨some 2, some 3, none, none⟩ ∧ ∃ d, mkParameter w .weibull ⟨some 2, some 3, none, none⟩ none = .ok d := by
  refine ⟨⟨2, 3, rfl, rfl, by norm_num, by norm_num⟩, ?_⟩
  simp [mkParameter, construct, weibull]

/-- Laws with four moments among those whose moments are taken over from scipy: a Pareto law has moments below its shape, a Student
law below its degrees of freedom, the others all. -/
def FourMoments : Name → Args → Prop
  | .pareto, a => ∃ b, a.A = some b ∧ 4 < b
  | .studentsT, a => ∃ k, a.A = some k ∧ 4 < k
  | _, _ => True

/-- **C107, moments taken over from scipy.** A chi, Gumbel, logistic or lognormal parameter built from admissible arguments, a
Pareto parameter with shape above 4 and a Student parameter with more than 4 degrees of freedom report mean, variance and skewness
of their law, and the excess of its kurtosis. -/
theorem c107_scipy (w : World) (hw : ScipyMoments w) (name : Name) (args : Args) (e : Option Endpoints) (d : Attrs)
    (hn : ScipyOnly name) (hv : Valid name args) (hm : FourMoments name args) (h : mkParameter w name args e = .ok d) :
    Truthful d ∧ ∃ L, d.law = some L ∧ d.kurtosis = .num (kurtosis (density L) - 3) := by
  obtain ⟨L, hL, hk⟩ := c107_scipy_partial w hw name args e d hn hv h
  have hd : IsDensity (density L) := by
    have h := mkParameter_ok h
    obtain ⟨A, B, lo, up⟩ := args
    cases name <;> simp only [ScipyOnly] at hn <;> simp only [Valid] at hv <;> simp only [FourMoments] at hm <;>
      simp only [construct] at h
    · obtain ⟨k, rfl, hk⟩ := hv
      simp only [chi, if_pos hk, Except.ok.injEq] at h
      subst h
      obtain rfl := Option.some.inj hL
      exact dens_chi k (by linarith)
    · obtain ⟨b, rfl, hk⟩ := hv
      obtain ⟨b', hb, h4⟩ := hm
      obtain rfl := Option.some.inj hb
      simp only [pareto, if_pos hk, Except.ok.injEq] at h
      subst h
      obtain rfl := Option.some.inj hL
      exact dens_pareto b h4
    · obtain ⟨m, s, rfl, rfl, hs⟩ := hv
      simp only [gumbel, if_pos hs, Except.ok.injEq] at h
      subst h
      obtain rfl := Option.some.inj hL
      exact IsDensity.locScale dens_gumbel m s hs
    · obtain ⟨m, s, rfl, rfl, hs⟩ := hv
      simp only [logistic, if_pos hs, Except.ok.injEq] at h
      subst h
      obtain rfl := Option.some.inj hL
      exact IsDensity.locScale dens_logistic m s hs
    · obtain ⟨k, rfl, hk⟩ := hv
      obtain ⟨k', hk', h4⟩ := hm
      obtain rfl := Option.some.inj hk'
      simp only [studentst, if_pos hk, Except.ok.injEq] at h
      subst h
      obtain rfl := Option.some.inj hL
      exact dens_t k h4
    · obtain ⟨s, rfl, hs⟩ := hv
      simp only [lognormal, if_pos hs, Except.ok.injEq] at h
      subst h
      obtain rfl := Option.some.inj hL
      exact dens_lognorm s hs
  exact ⟨(hk hd).1, L, hL, (hk hd).2⟩

example : ScipyOnly .pareto ∧ Valid .pareto ⟨some 5, none, none, none⟩ ∧ FourMoments .pareto ⟨some 5, none, none, none⟩ :=
  ⟨trivial, ⟨5, rfl, by norm_num⟩, 5, rfl, by norm_num⟩

/-- **C107, truncated Gaussian.** Mean and variance of a truncated Gaussian parameter are those of its law. Missing: its skewness,
see `c107_truncated_violated`. -/
theorem c107_truncated_partial (w : World) (hw : ScipyMoments w) (args : Args) (e : Option Endpoints) (d : Attrs)
    (hv : Valid .truncatedGaussian args) (h : mkParameter w .truncatedGaussian args e = .ok d) :
    ∃ L, d.law = some L ∧ IsDensity (density L) ∧ d.mean = .num (mean (density L)) ∧ d.variance = .num (variance (density L)) := by
  have h := mkParameter_ok h
  obtain ⟨A, B, lo, up⟩ := args
  simp only [Valid] at hv
  obtain ⟨m, v, l, u, rfl, rfl, rfl, rfl, hv, hlu⟩ := hv
  have hs := Real.sqrt_pos.2 hv
  simp only [construct, truncatedGaussian, Except.ok.injEq] at h
  subst h
  have hd : IsDensity (density (.truncnorm ((l - m) / Real.sqrt v) ((u - m) / Real.sqrt v) m (Real.sqrt v))) :=
    IsDensity.locScale (dens_truncnorm _ _ (by gcongr)) m _ hs
  exact ⟨_, rfl, hd, by simp only [hw _ hd], by simp only [hw _ hd]⟩

example : Valid .truncatedGaussian ⟨some 1, some 4, some (-1), some 7⟩ :=
  ⟨1, 4, -1, 7, rfl, rfl, rfl, rfl, by norm_num, by norm_num⟩

end EQ.Dist
