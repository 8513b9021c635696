import Verif.Basis.Model
import Verif.Param.Model
import Mathlib.Data.EReal.Basic
import Mathlib.Analysis.Real.Sqrt
import Mathlib.Analysis.SpecialFunctions.Gamma.Basic

/-!
# Model of `/repo/equadratures/distributions/*.py` and of the constructor of `Parameter`

Every constructor is modelled as a function from its arguments to the attributes it sets. The scipy distribution behind the
densities and samples is a value of type `Law`; what its density is, is part of the specification (`Verif/Dist/Spec.lean`),
taken from the documentation of scipy.
-/

namespace EQ.Dist

open EQ.Basis

/-- The scipy distributions used, with the arguments passed on (`loc = 0` and `scale = 1` where not given). -/
inductive Law
  | norm (loc scale : ℝ)
  | uniform (loc scale : ℝ)
  | beta (a b : ℝ)
  | arcsine
  | truncnorm (a b loc scale : ℝ)
  | cauchy (loc scale : ℝ)
  | expon (scale : ℝ)
  | gamma (a scale : ℝ)
  | weibullMin (c scale : ℝ)
  | rayleigh (scale : ℝ)
  | chi2 (df : ℝ)
  | chi (df : ℝ)
  | pareto (b : ℝ)
  | gumbelR (loc scale : ℝ)
  | logistic (loc scale : ℝ)
  | t (df : ℝ)
  | lognorm (s : ℝ)

/-- The content of an attribute of a Python object; `unset` if the constructor never assigns it. -/
inductive Val
  | unset
  | none
  | nan
  | inf
  | num (x : ℝ)

/-- The attributes of a distribution object. `range` holds the ends of `x_range_for_pdf` and its number of points. -/
structure Attrs where
  law : Option Law := none
  mean : Val := .unset
  variance : Val := .unset
  skewness : Val := .unset
  kurtosis : Val := .unset
  bounds : Option (EReal × EReal) := none
  range : Option (ℝ × ℝ × ℕ) := none

/-- The four moments scipy reports for a law (`stats(moments='mvsk')`, `mean()`, `var()`). -/
structure Stats where
  mean : Val
  variance : Val
  skewness : Val
  kurtosis : Val

/-- An optional number as an attribute. -/
def optVal : Option ℝ → Val
  | some x => .num x
  | none => .none

/-- `Gaussian.__init__` (`gaussian.py:19-29`). A variance without a mean fails in line 25 (`+ None`). Simplification: for a negative variance, where numpy yields `nan`, the standard
deviation is Lean's square root. -/
noncomputable def gaussian (mean variance : Option ℝ) : Except Err Attrs :=
  let base : Attrs := { mean := optVal mean, variance := optVal variance, skewness := .num 0, kurtosis := .num 0,
                        bounds := some (⊥, ⊤) }
  match mean, variance with
  | some m, some v =>
    .ok { base with law := some (.norm m (Real.sqrt v)), range := some (-15 * Real.sqrt v + m, 15 * Real.sqrt v + m, 8000) }
  | none, some _ => .error .typeError
  | _, none => .ok base

/-- `Uniform.__init__` (`uniform.py:17-32`): one missing bound replaces both. -/
noncomputable def uniform (lower upper : Option ℝ) : Attrs :=
  let (l, u) := match lower, upper with
    | some l, some u => (l, u)
    | _, _ => ((0 : ℝ), (1 : ℝ))
  { law := some (.uniform l (u - l)), mean := .num (1/2 * (u + l)), variance := .num (1/12 * (u - l) ^ 2), skewness := .num 0,
    bounds := some (((-1 : ℝ) : EReal), ((1 : ℝ) : EReal)), range := some (l, u, 8000) }

/-- `Beta.__init__` (`beta.py:24-40`). -/
noncomputable def beta (lower upper A B : Option ℝ) : Attrs :=
  let range := match lower, upper with
    | some l, some u => some (l, u, 8000)
    | _, _ => none
  match A, B with
  | some a, some b =>
    if 1 ≤ a ∧ 1 ≤ b then
      { law := some (.beta a b)
        mean := .num (a / (a + b))
        variance := .num (a * b / ((a + b) ^ 2 * (a + b + 1)))
        skewness := .num (2 * (b - a) * Real.sqrt (a + b + 1) / ((a + b + 2) * Real.sqrt (a * b)))
        kurtosis := .num (6 * ((a - b) ^ 2 * (a + b + 1) - a * b * (a + b + 2)) / (a * b * (a + b + 2) * (a + b + 3)) + 3)
        bounds := some (((0 : ℝ) : EReal), ((1 : ℝ) : EReal))
        range := range }
    else { range := range }
  | _, _ => { range := range }

/-- `Chebyshev.__init__` (`chebyshev.py:16-26`); the density is that of `scipy.stats.arcsine` (`chebyshev.py:52,69,96,111`). -/
noncomputable def chebyshev (lower upper : Option ℝ) : Attrs :=
  { law := some .arcsine, mean := .num (1/2), variance := .num (1/8), skewness := .num 0,
    bounds := some (((0 : ℝ) : EReal), ((1 : ℝ) : EReal)),
    range := match lower, upper with
      | some l, some u => some (l, u, 8000)
      | _, _ => none }

/-- `TruncatedGaussian.__init__` (`truncated_gaussian.py:21-39`). -/
noncomputable def truncatedGaussian (stats : Law → Stats) (mean variance lower upper : Option ℝ) : Attrs :=
  match mean, variance, lower, upper with
  | some m, some v, some l, some u =>
    let law := Law.truncnorm ((l - m) / Real.sqrt v) ((u - m) / Real.sqrt v) m (Real.sqrt v)
    { law := some law, mean := (stats law).mean, variance := (stats law).variance, skewness := .num 0, kurtosis := .num 0,
      bounds := some (⊥, ⊤), range := some (l, u, 8000) }
  | _, _, _, _ => {}

/-- `Cauchy.__init__` (`cauchy.py:17-28`); `draw` holds the mean and the variance of the two random samples of 1000 points. A
scale without a location fails when the samples are drawn (`+ None` in scipy). -/
noncomputable def cauchy (draw : ℝ × ℝ) (location scale : Option ℝ) : Except Err Attrs :=
  let base : Attrs := { mean := .nan, skewness := .nan, kurtosis := .nan, bounds := some (⊥, ⊤) }
  match location, scale with
  | _, none => .ok base
  | none, some _ => .error .typeError
  | some l, some s =>
    .ok { base with law := some (.cauchy l s), mean := .num draw.1, variance := .num draw.2,
                    range := some (-15 * s, 15 * s, 8000) }

/-- `Exponential.__init__` (`exponential.py:15-26`). -/
noncomputable def exponential (stats : Law → Stats) (rate : Option ℝ) : Attrs :=
  match rate with
  | some r =>
    if 0 < r then
      { law := some (.expon (1 / r)), mean := (stats (.expon (1 / r))).mean, variance := (stats (.expon (1 / r))).variance,
        skewness := .num 2, kurtosis := .num 6, bounds := some (((0 : ℝ) : EReal), ⊤), range := some (0, 20 * r, 8000) }
    else {}
  | none => {}

/-- `Gamma.__init__` (`gamma.py:16-26`); the sign of the scale is not tested. -/
noncomputable def gamma (shape scale : Option ℝ) : Attrs :=
  match shape, scale with
  | some a, some s =>
    if 0 < a then
      { law := some (.gamma a s), mean := .num (a * s), variance := .num (a * s ^ 2), skewness := .num (2 / Real.sqrt a),
        kurtosis := .num (6 / a), bounds := some (((0 : ℝ) : EReal), ⊤), range := some (0, a * s * 10, 8000) }
    else { bounds := some (((0 : ℝ) : EReal), ⊤) }
  | _, _ => { bounds := some (((0 : ℝ) : EReal), ⊤) }

/-- `Weibull.__init__` (`weibull.py:18-28`). -/
noncomputable def weibull (scale shape : Option ℝ) : Attrs :=
  match scale, shape with
  | some s, some c =>
    if 0 < c ∧ 0 < s then
      let m := s * Real.Gamma (1 + 1 / c)
      let v := s ^ 2 * (Real.Gamma (1 + 2 / c) - Real.Gamma (1 + 1 / c) ^ 2)
      { law := some (.weibullMin c s), mean := .num m, variance := .num v,
        skewness := .num ((Real.Gamma (1 + 3 / c) * s ^ 3 - 3 * m * v - m ^ 3) / Real.sqrt v ^ 3),
        bounds := some (((0 : ℝ) : EReal), ⊤), range := some (1 / 10 ^ 15, 30, 8000) }
    else {}
  | _, _ => {}

/-- `Rayleigh.__init__` (`rayleigh.py:13-22`). -/
noncomputable def rayleigh (scale : Option ℝ) : Attrs :=
  match scale with
  | some s =>
    if 0 < s then
      { law := some (.rayleigh s), mean := .num (s * Real.sqrt (Real.pi / 2)), variance := .num (s ^ 2 * (4 - Real.pi) / 2),
        skewness := .num (2 * Real.sqrt Real.pi * (Real.pi - 3) / (4 - Real.pi) ^ (3/2 : ℝ)),
        kurtosis := .num (-(6 * Real.pi ^ 2 - 24 * Real.pi + 16) / (4 - Real.pi) ^ (3/2 : ℝ) + 3),
        bounds := some (((0 : ℝ) : EReal), ⊤), range := some (0, 8 * s, 8000) }
    else { law := some (.rayleigh s), bounds := some (((0 : ℝ) : EReal), ⊤) }
  | none => { bounds := some (((0 : ℝ) : EReal), ⊤) }

/-- `Chisquared.__init__` (`chisquared.py:14-27`). -/
noncomputable def chisquared (dofs : Option ℝ) : Attrs :=
  match dofs with
  | some k =>
    let bounds : Option (EReal × EReal) := open Classical in
      some (if k = 1 then ((1 / 10 ^ 15 : ℝ) : EReal) else ((0 : ℝ) : EReal), ⊤)
    if 1 ≤ k then
      { law := some (.chi2 k), mean := .num k, variance := .num (2 * k), skewness := .num (Real.sqrt (8 / k)),
        kurtosis := .num (12 / k + 3), bounds := bounds, range := some (0, 10 * k, 50000) }
    else { bounds := bounds }
  | none => {}

/-- `Chi.__init__` (`chi.py:14-29`); `mean` is a number for every admissible `dofs`, so the range is only modelled then. -/
noncomputable def chi (stats : Law → Stats) (dofs : Option ℝ) : Attrs :=
  match dofs with
  | some k =>
    let bounds : Option (EReal × EReal) := open Classical in
      some (if k = 1 then ((1 / 10 ^ 15 : ℝ) : EReal) else ((0 : ℝ) : EReal), ⊤)
    if 1 ≤ k then
      { law := some (.chi k), mean := (stats (.chi k)).mean, variance := (stats (.chi k)).variance,
        skewness := (stats (.chi k)).skewness, kurtosis := (stats (.chi k)).kurtosis, bounds := bounds,
        range := match (stats (.chi k)).mean with
          | .num m => some (0, 10 * m, 8000)
          | _ => none }
    else { bounds := bounds }
  | none => {}

/-- The attributes taken over from scipy (`pareto.py:19-25`, `gumbel.py:20-26`, `logistic.py:20-26`, `studentst.py:19-26`,
`lognormal.py:19-25`). -/
def fromStats (stats : Law → Stats) (law : Law) (bounds : EReal × EReal) (range : ℝ × ℝ × ℕ) : Attrs :=
  { law := some law, mean := (stats law).mean, variance := (stats law).variance, skewness := (stats law).skewness,
    kurtosis := (stats law).kurtosis, bounds := some bounds, range := some range }

/-- `Pareto.__init__` (`pareto.py:14-25`). -/
noncomputable def pareto (stats : Law → Stats) (shape : Option ℝ) : Attrs :=
  match shape with
  | some b =>
    if 0 < b then fromStats stats (.pareto b) (((999 / 1000 : ℝ) : EReal), ⊤) (999 / 1000, 20 + b, 50000)
    else { bounds := some (((999 / 1000 : ℝ) : EReal), ⊤) }
  | none => {}

/-- `Gumbel.__init__` (`gumbel.py:14-26`); a missing location raises a `TypeError` in scipy. -/
noncomputable def gumbel (stats : Law → Stats) (location scale : Option ℝ) : Except Err Attrs :=
  match location, scale with
  | some l, some s =>
    if 0 < s then .ok (fromStats stats (.gumbelR l s) (⊥, ⊤) (l - 10, 20 + l, 50000)) else .ok { bounds := some (⊥, ⊤) }
  | none, some s => if 0 < s then .error .typeError else .ok { bounds := some (⊥, ⊤) }
  | _, none => .ok {}

/-- `Logistic.__init__` (`logistic.py:14-26`); as for `gumbel`. -/
noncomputable def logistic (stats : Law → Stats) (location scale : Option ℝ) : Except Err Attrs :=
  match location, scale with
  | some l, some s =>
    if 0 < s then .ok (fromStats stats (.logistic l s) (⊥, ⊤) (l - 10, 20 + l, 50000)) else .ok { bounds := some (⊥, ⊤) }
  | none, some s => if 0 < s then .error .typeError else .ok { bounds := some (⊥, ⊤) }
  | _, none => .ok {}

/-- `Studentst.__init__` (`studentst.py:14-26`). -/
noncomputable def studentst (stats : Law → Stats) (dofs : Option ℝ) : Attrs :=
  match dofs with
  | some k => if 0 < k then fromStats stats (.t k) (⊥, ⊤) (-5, 5, 50000) else {}
  | none => {}

/-- `Lognormal.__init__` (`lognormal.py:14-25`). -/
noncomputable def lognormal (stats : Law → Stats) (shape : Option ℝ) : Attrs :=
  match shape with
  | some s =>
    if 0 < s then fromStats stats (.lognorm s) (((0 : ℝ) : EReal), ⊤) (0, 20, 50000)
    else { bounds := some (((0 : ℝ) : EReal), ⊤) }
  | none => {}

/-- The distribution names of `Parameter`, after `lower()` and with synonyms identified (`parameter.py:92-129`). Not modelled:
`analytical`, see `Verif/Weight`. -/
inductive Name
  | gaussian | uniform | beta | truncatedGaussian | cauchy | exponential | gamma | weibull | arcsine | rayleigh | chiSquared
  | chi | pareto | gumbel | logistic | studentsT | lognormal
  deriving DecidableEq

/-- The arguments of `Parameter` that describe the distribution. -/
structure Args where
  A : Option ℝ := none
  B : Option ℝ := none
  lower : Option ℝ := none
  upper : Option ℝ := none

/-- What lies outside the package: the moments scipy reports, and the random draws of `Cauchy`. -/
structure World where
  stats : Law → Stats
  draw : ℝ × ℝ

/-- `Parameter._set_distribution` (`parameter.py:92-127`): which constructor is called with which arguments. -/
noncomputable def construct (w : World) : Name → Args → Except Err Attrs
  | .gaussian, a => gaussian a.A a.B
  | .uniform, a => .ok (uniform a.lower a.upper)
  | .beta, a => .ok (beta a.lower a.upper a.A a.B)
  | .truncatedGaussian, a => .ok (truncatedGaussian w.stats a.A a.B a.lower a.upper)
  | .cauchy, a => cauchy w.draw a.A a.B
  | .exponential, a => .ok (exponential w.stats a.A)
  | .gamma, a => .ok (gamma a.A a.B)
  | .weibull, a => .ok (weibull a.A a.B)
  | .arcsine, a => .ok (chebyshev a.lower a.upper)
  | .rayleigh, a => .ok (rayleigh a.A)
  | .chiSquared, a => .ok (chisquared a.A)
  | .chi, a => .ok (chi w.stats a.A)
  | .pareto, a => .ok (pareto w.stats a.A)
  | .gumbel, a => gumbel w.stats a.A a.B
  | .logistic, a => logistic w.stats a.A a.B
  | .studentsT, a => .ok (studentst w.stats a.A)
  | .lognormal, a => .ok (lognormal w.stats a.A)

/-- The values of `endpoints` (`parameter.py:78-84`); `other` is any other string. -/
inductive Endpoints | lower | upper | both | other

open Classical in
/-- `Parameter.__init__` (`parameter.py:65-84`, `130-131`, `148`): an attribute that was never set raises `AttributeError`; the
three `raise(ValueError, ...)` raise a tuple, hence `TypeError`. -/
noncomputable def mkParameter (w : World) (name : Name) (args : Args) (endpoints : Option Endpoints) : Except Err Attrs :=
  match construct w name args with
  | .error e => .error e
  | .ok d =>
    match d.mean, d.variance, d.bounds with
    | .unset, _, _ => .error .attributeError
    | _, .unset, _ => .error .attributeError
    | _, _, none => .error .attributeError
    | _, _, some (lo, hi) =>
      match endpoints with
      | some .both => if lo = ⊥ ∧ hi = ⊤ then .error .typeError else .ok d
      | some .lower => if lo = ⊥ then .error .typeError else .ok d
      | some .upper => if hi = ⊤ then .error .typeError else .ok d
      | _ => .ok d

/-- `x_range_for_pdf = np.linspace(lo, hi, n)` (for instance `gaussian.py:25`). -/
noncomputable def linspace (r : ℝ × ℝ × ℕ) : List ℝ :=
  (List.range r.2.2).map fun i : ℕ => r.1 + (r.2.1 - r.1) / ((r.2.2 : ℝ) - 1) * (i : ℝ)

/-- `Distribution.get_recurrence_coefficients` (`template.py:62-75`) for a density `f`: the custom routine on the grid. -/
noncomputable def gridCoeffs (f : ℝ → ℝ) (r : ℝ × ℝ × ℕ) (order : ℕ) : EQ.Param.Table :=
  EQ.Param.customCoeffs (linspace r) ((linspace r).map f) order

end EQ.Dist
