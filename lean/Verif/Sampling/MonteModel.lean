import Verif.Sampling.Model
import Verif.Dist.Model
import Mathlib.Algebra.Order.Floor.Semiring

/-!
# Model of `equadratures/sampling_methods/montecarlo.py` and of `get_samples`
-/

namespace EQ.Sampling
open EQ.Param EQ.Basis

/-- The shapes `get_samples` returns: `(m,)` or `(m, 1)`. -/
inductive Draw
  | flat (l : List ℝ)
  | column (l : List ℝ)

/-- `Parameter.get_samples` (parameter.py:187-196) for the random numbers `l`; the name is `none` for analytical weights. `Weibull`
(weibull.py:12-88) and `Analytical` (analytical.py:9-126) inherit `get_samples` from template.py:76-93, which asks for numbers of
shape `(m, 1)` (line 91) and passes them through `get_icdf`, keeping the shape; all others call `rvs(size=m)` of scipy
(gaussian.py:43-57, uniform.py:105-120, beta.py:110-124, chebyshev.py:97-111, truncated_gaussian.py:79-93, cauchy.py:87-101,
exponential.py:84-99, gamma.py:85-100, rayleigh.py:76-91, chisquared.py:85-100, chi.py:87-102, pareto.py:83-98, gumbel.py:84-99,
logistic.py:84-99, studentst.py:84-99, lognormal.py:83-98). -/
def getSamples (name : Option EQ.Dist.Name) (l : List ℝ) : Draw :=
  match name with
  | some .weibull | none => .column l
  | some _ => .flat l

/-- montecarlo.py:33 `self.points[:, i] = univariate_samples[:]`: numpy broadcasts a vector of length `N` or 1; of an array of
shape `(m, 1)` the leading dimension can only be dropped if it is 1. -/
def assignColumn (N : ℕ) : Draw → Except Err (List ℝ)
  | .flat l => if l.length = N then .ok l else if l.length = 1 then .ok (List.replicate N (l.getD 0 0)) else .error .valueError
  | .column l => if l.length = 1 then .ok (List.replicate N (l.getD 0 0)) else .error .valueError

/-- montecarlo.py:16: the number of points. `int` truncates; it is only modelled for non-negative ratios. -/
noncomputable def mcNumber (cardinality dims : ℕ) (oversampling : ℝ) : ℕ := ⌊cardinality * dims * oversampling⌋₊

/-- montecarlo.py:20-35 `_set_points`. `draws` holds the name of every parameter and the numbers scipy hands out for it; `corr` the
samples of the `Correlations` object, if there is one. -/
def mcPoints (N : ℕ) (draws : List (Option EQ.Dist.Name × List ℝ)) (corr : Option (List (List ℝ))) : Except Err (List (List ℝ)) :=
  match corr with
  | some pts => .ok pts
  | none =>
    match draws.mapM fun d => assignColumn N (getSamples d.1 d.2) with
    | .error e => .error e
    | .ok cols => .ok ((List.range N).map fun i => cols.map fun c => c.getD i 0)

/-- montecarlo.py:12-18 with sampling_template.py:10-20: points and weights of a Monte Carlo mesh. The random numbers depend on how
many are asked for. -/
noncomputable def monteCarlo (params : List MParam) (basis : List (List ℕ)) (oversampling : ℝ)
    (draws : ℕ → List (Option EQ.Dist.Name × List ℝ)) (corr : Option (ℕ → List (List ℝ))) :
    Except Err (List (List ℝ) × List ℝ) :=
  let N := mcNumber basis.length params.length oversampling
  match mcPoints N (draws N) (corr.map fun c => c N) with
  | .error e => .error e
  | .ok pts => .ok (pts, sampleWeights (multiPoly params basis params.length pts) pts.length)

/-- quadrature.py:53-60 and the sum `np.dot(weights, f(points))` a user forms with it; it is also the first coefficient of
`numerical-integration` on this mesh (poly.py:431-490, solver.py:82-84). -/
noncomputable def meshSum {d : ℕ} (f : (Fin d → ℝ) → ℝ) (mesh : List (List ℝ) × List ℝ) : ℝ :=
  ∑ i : Fin mesh.1.length, mesh.2.getD i 0 * f fun j => (mesh.1.getD i []).getD j 0

end EQ.Sampling
