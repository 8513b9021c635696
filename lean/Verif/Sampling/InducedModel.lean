import Verif.Param.Model
import Verif.Basis.Model
import Mathlib.Analysis.SpecialFunctions.Gamma.Basic
import Mathlib.Analysis.SpecialFunctions.Log.Basic

/-!
# Model of the univariate sampler of `equadratures/sampling_methods/induced.py`

Only uniform parameters are supported by the code (induced.py:187), with `alpha = beta = 0`, hence `A = 0` and no linear
modification. Parameters with the option `endpoints` are not modelled here.
-/

namespace EQ.Sampling
open EQ.Param EQ.Basis

/-- What the library calls outside: `scipy.linalg.eigh`, `numpy.argsort` (parameter.py:383, 389) and `scipy.optimize.brentq`
(induced.py:297-300, 317-320). The function given to `brentq` may raise. -/
structure Outside where
  eigh : (n : ℕ) → Matrix (Fin n) (Fin n) ℝ → (Fin n → ℝ) × Matrix (Fin n) (Fin n) ℝ
  argsort : (n : ℕ) → (Fin n → ℝ) → Equiv.Perm (Fin n)
  brentq : (ℝ → Except Err ℝ) → ℝ → ℝ → Except Err ℝ

/-- induced.py:585-599, the array `C` of `_christoffel_normalised_polynomials` (as a function of the position). -/
noncomputable def christoffel (ab : Table) (x : ℝ) : ℕ → ℝ
  | 0 => 1.0 / (1.0 * √(ab 0).2)
  | 1 => 1.0 / (1.0 * √(ab 1).2) * (x - (ab 0).1)
  | 2 =>
    let c1 := 1.0 / (1.0 * √(ab 1).2) * (x - (ab 0).1)
    1.0 / √(1.0 + c1 ^ 2) * ((x - (ab 1).1) * c1 - √(ab 1).2) / (1.0 * √(ab 2).2)
  | n + 3 =>
    1.0 / √(1.0 + christoffel ab x (n + 2) ^ 2) *
      ((x - (ab (n + 2)).1) * christoffel ab x (n + 2) -
        √(ab (n + 2)).2 * christoffel ab x (n + 1) / √(1.0 + christoffel ab x (n + 1) ^ 2)) / √(ab (n + 3)).2

/-- induced.py:485-488: the array `temp1` before its differences are taken. -/
noncomputable def quadTemp (ab : Table) (x : ℝ) (i : ℕ) : ℝ :=
  if i = 0 then √(ab 1).2 * christoffel ab x 1
  else √(ab (i + 1)).2 * christoffel ab x (i + 1) * christoffel ab x i * 1.0 / √(1.0 + christoffel ab x i ^ 2)

/-- induced.py:490-493: the array `bcorrect`. -/
noncomputable def quadCorrect (ab : Table) (x : ℝ) (i : ℕ) : ℝ :=
  if i = 0 then (1.0 + christoffel ab x 1 ^ 2) * 1.0 / christoffel ab x 0 ^ 2
  else 1.0 * (1 + christoffel ab x (i + 1) ^ 2) / (1.0 * (1 + christoffel ab x i ^ 2))

/-- induced.py:456-498 `_quadratic_modification`. The check at 573-575 fails for fewer than two rows; with two rows the
assignment at 493 is out of bounds. -/
noncomputable def quadMod (ab : List (ℝ × ℝ)) (x0 : ℝ) : Except Err (List (ℝ × ℝ)) :=
  if ab.length ≤ 1 then .error .valueError
  else if ab.length = 2 then .error .indexError
  else .ok ((List.range (ab.length - 2)).map fun i =>
    ((rows ab (i + 1)).1 + (quadTemp (rows ab) x0 (i + 1) - quadTemp (rows ab) x0 i),
      (rows ab (i + 1)).2 * quadCorrect (rows ab) x0 i))

/-- `ab[0, 1] = 1` (induced.py:241, 381). -/
def unitMass (ab : List (ℝ × ℝ)) : List (ℝ × ℝ) := ab.modify 0 fun p => (p.1, 1)

/-- induced.py:239-241: one modification per root. -/
noncomputable def modifyAll : List (ℝ × ℝ) → List ℝ → Except Err (List (ℝ × ℝ))
  | ab, [] => .ok ab
  | ab, r :: rs =>
    match quadMod ab r with
    | .error e => .error e
    | .ok t => modifyAll (unitMass t) rs

/-- parameter.py:360-400 `get_local_quadrature(order, ab)` for a given table and at least two points (`n + 2` points). -/
noncomputable def ruleOf (O : Outside) (ab : List (ℝ × ℝ)) (n : ℕ) : Except Err (Rule (n + 2)) :=
  if ab.length < n + 2 then .error .indexError
  else
    let DV := O.eigh (n + 2) (jacobiMatrix (rows ab) (n + 2))
    .ok (quadratureOfEigh (rows ab) DV.1 DV.2 (O.argsort (n + 2) DV.1))

/-- parameter.py:360-400 with `ab = None` for the copied parameter of induced.py:124-125: the coefficients are those of the law
on `[l, u]`, the bounds of the copy are `-1` and `1`. Points and weights by position, `n + 1` points. -/
noncomputable def copyRule (O : Outside) (l u : ℝ) : (n : ℕ) → Rule (n + 1)
  | 0 => { p := fun _ => (onePointRule (some (-1)) (some 1) ((l + u) / 2)).1
           w := fun _ => (onePointRule (some (-1)) (some 1) ((l + u) / 2)).2 }
  | n + 1 =>
    let DV := O.eigh (n + 2) (jacobiMatrix (rows (jacobiCoeffs 0 0 l u (n + 2))) (n + 2))
    quadratureOfEigh (rows (jacobiCoeffs 0 0 l u (n + 3))) DV.1 DV.2 (O.argsort (n + 2) DV.1)

/-- induced.py:233, 236, 246: the zeroes used for an order. -/
noncomputable def zeroesOf (O : Outside) (l u : ℝ) : ℕ → List ℝ
  | 0 => []
  | n + 1 => List.ofFn (copyRule O l u n).p

/-- induced.py:234, 247-253: `scaling_kn_factor`. -/
noncomputable def knFactor (l u : ℝ) (order : ℕ) : ℝ :=
  if order = 0 then 0
  else Real.exp (-1.0 / order * ((jacobiCoeffs 0 0 l u order).map fun p => Real.log p.2).sum)

/-- Python's `int` on floats. -/
noncomputable def pyInt (x : ℝ) : ℤ := if 0 ≤ x then ⌊x⌋ else ⌈x⌉

/-- induced.py:374-381: the loop over the zeroes; the table and `logfactor`. -/
noncomputable def evalLoop (k x : ℝ) : List (ℝ × ℝ) → ℝ → List ℝ → Except Err (List (ℝ × ℝ) × ℝ)
  | ab, lf, [] => .ok (ab, lf)
  | ab, lf, z :: zs =>
    match quadMod ab (2.0 / (x + 1.0) * (z + 1.0) - 1.0) with
    | .error e => .error e
    | .ok t => evalLoop k x (unitMass t) (lf + Real.log ((rows t 0).2 * ((x + 1.0) / 2.0) ^ 2 * k)) zs

/-- induced.py:395-401: from the table to the value (`M = 12`, `alpha = beta = A = 0`; the exponent `alpha - A` is zero;
`betaln(1, 1)` is the logarithm of the Beta function). -/
noncomputable def evalValue (O : Outside) (x : ℝ) (ab : List (ℝ × ℝ)) (lf : ℝ) : Except Err ℝ :=
  match ruleOf O ab 10 with
  | .error e => .error e
  | .ok R =>
    let integral := ∑ i, R.w i * (2.0 - 1.0 / 2.0 * (R.p i + 1.0) * (x + 1.0)) ^ (0 : ℕ)
    .ok (Real.exp (lf - 0 * Real.log 2.0 - Real.log (Real.Gamma 1 * Real.Gamma 1 / Real.Gamma 2) - Real.log (0 + 1.0) +
      (0 + 1) * Real.log ((x + 1.0) / 2.0)) * integral)

/-- induced.py:325-407 `induced_jacobi_evaluation`. The call of `np.asscalar` is that of the versions of numpy which have it. -/
noncomputable def inducedCdf (O : Outside) (order : ℕ) (zeroes : List ℝ) (ab : List (ℝ × ℝ)) (k x : ℝ) : Except Err ℝ :=
  if pyInt x = 1 then .ok 1
  else if pyInt x = -1 then .ok 0
  else
    let median : ℝ := if order > 0 then ((0 : ℝ) ^ 2 - 0 ^ 2) / (2 * order + 0 + 0) ^ 2 else 2.0 / (1.0 + (0 + 1.0) / (0 + 1.0)) - 1.0
    let complementary := decide (x > median)
    let x' := if complementary then -x else x
    match evalLoop k x' ab 0 (zeroes.take order) with
    | .error e => .error e
    | .ok (t, lf) =>
      match evalValue O x' t lf with
      | .error e => .error e
      | .ok F => .ok (if complementary then 1 - F else F)

/-- `np.cumsum`. -/
noncomputable def cumsum (w : List ℝ) : List ℝ := (List.range w.length).map fun k => (w.take (k + 1)).sum

/-- `bisect.bisect_left` on a sorted list: the number of leading entries below `v`. -/
noncomputable def bisectLeft (l : List ℝ) (v : ℝ) : ℕ :=
  open Classical in (l.takeWhile fun b => b < v).length

/-- induced.py:288-296, 308-316: the interval given to the root solver. -/
noncomputable def bracket (points : List ℝ) (i : ℕ) : ℝ × ℝ :=
  if 399 ≤ i then (points.getD (i - 1) 0, 1)
  else if i = 0 then (-1, points.getD (i + 1) 0)
  else (points.getD (i - 1) 0, points.getD (i + 1) 0)

/-- induced.py:230-243: the 400-point rule of the induced law. -/
noncomputable def inducedRule (O : Outside) (l u : ℝ) (order : ℕ) : Except Err (Rule 400) :=
  if order = 0 then .ok (copyRule O l u 399)
  else
    match modifyAll (jacobiCoeffs 0 0 l u (order * 2 + 400 - 1)) (zeroesOf O l u order) with
    | .error e => .error e
    | .ok ab => ruleOf O ab 398

/-- induced.py:206-323 `inverse_induced_jacobi` for one value `v` (the list of values is mapped over, 322 or 302-303). `l`, `u`
are the bounds of the law of the first parameter. -/
noncomputable def inverseInduced (O : Outside) (l u : ℝ) (maxOrder order : ℕ) (v : ℝ) : Except Err ℝ :=
  match inducedRule O l u order with
  | .error e => .error e
  | .ok R =>
    let points := -1 :: List.ofFn R.p
    let bounds := 0 :: cumsum (List.ofFn R.w)
    let ab := jacobiCoeffs 0 0 l u (2 * maxOrder + 0 + 12)
    let b := bracket points (bisectLeft bounds v)
    O.brentq (fun x => match inducedCdf O order (zeroesOf O l u order) ab (knFactor l u order) x with
      | .error e => .error e
      | .ok F => .ok (F - v)) b.1 b.2

/-- induced.py:168-199 `_univariate_sampling`: other names than `Uniform` and `uniform` print a message and return nothing. -/
noncomputable def univariateSampling (O : Outside) (name : String) (l u : ℝ) (maxOrder order : ℕ) (vs : List ℝ) :
    Except Err (Option (List ℝ)) :=
  if name = "Uniform" ∨ name = "uniform" then
    match vs.mapM (inverseInduced O l u maxOrder order) with
    | .error e => .error e
    | .ok r => .ok (some r)
  else .ok none

end EQ.Sampling
