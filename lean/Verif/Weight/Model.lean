import Verif.Basis.Model
import Mathlib.Data.EReal.Basic
import Mathlib.Data.Real.Basic

/-!
# Model of `/repo/equadratures/weight.py`

A number that may be `nan` is an `Option ℝ` with `none` for `nan`. Infinite intermediate values do not occur in the model.
-/

namespace EQ.Weight

open EQ.Basis

/-- The loop test `quadrature_error >= 1e-6` with `quadrature_error = |integral - integral_before|` (`weight.py:86,90`);
a comparison with `nan` is false. -/
noncomputable def unsettled : Option ℝ → Option ℝ → Prop
  | some a, some b => (1/10^6 : ℝ) ≤ |a - b|
  | _, _ => False

open Classical in
/-- The loop of `_iterative_quadrature_computation` (`weight.py:86-93`), entered with the order reached so far and the
previous value. `Q order` is the quadrature value of that order (`weight.py:88-89`). The loop raises a tuple instead of an
exception (`weight.py:93`), which Python 3 turns into a `TypeError`. The order grows by 80 and is bounded by 5000
(`weight.py:6,8`). -/
noncomputable def quadLoop (Q : ℕ → Option ℝ) (order : ℕ) (before : Option ℝ) : Except Err (Option ℝ × ℕ) :=
  if 5000 ≤ order + 80 then .error .typeError
  else if unsettled (Q (order + 80)) before then quadLoop Q (order + 80) (Q (order + 80))
  else .ok (Q (order + 80), order + 80)
termination_by 5000 - order
decreasing_by omega

/-- `_iterative_quadrature_computation` (`weight.py:81-97`): starts with order 0 and the value 10; the initial error 500
makes the first pass unconditional. -/
noncomputable def iterativeQuadrature (Q : ℕ → Option ℝ) : Except Err (Option ℝ × ℕ) := quadLoop Q 0 (some 10)

/-- `float(np.dot(wts, evaluate_model(pts, integrand)))` (`weight.py:89`): one `nan` makes the sum `nan`. `rule` holds the
pairs of points and weights. -/
noncomputable def quadValue (rule : List (ℝ × ℝ)) (f : ℝ → Option ℝ) : Option ℝ :=
  rule.foldr (fun pw acc => match f pw.1, acc with
    | some v, some s => some (pw.2 * v + s)
    | _, _ => none) (some 0)

/-- What the constructor stores (`weight.py:27-47`). -/
structure WeightObj where
  lower : ℝ
  upper : ℝ
  const : Option ℝ
  mean : Option ℝ
  variance : Option ℝ

open Classical in
/-- `_verify_probability_density` (`weight.py:62-67`) from the computed integral: `1.0/integral` of a Python float raises for
zero; the comparisons with `nan` are false. -/
noncomputable def normConstant (integral : Option ℝ) (pdf : Bool) : Except Err (Option ℝ) :=
  match integral with
  | none => if pdf then .ok (some 1) else .ok none
  | some I =>
    if (1/10^2 : ℝ) ≤ |I - 1| ∨ pdf = false then
      if I = 0 then .error .zeroDivisionError else .ok (some (1 / I))
    else .ok (some 1)

/-- Product with the constant, `nan` if one factor is (`weight.py:58,78,101`). -/
noncomputable def mulNan : Option ℝ → Option ℝ → Option ℝ
  | some a, some b => some (a * b)
  | _, _ => none

/-- `weight_function(x) * integration_constant`, one value of `get_pdf` (`weight.py:49-54`, `weight.py:56-60`). -/
noncomputable def pdfAt (w : ℝ → Option ℝ) (c : Option ℝ) (x : ℝ) : Option ℝ := mulNan (w x) c

/-- The integrand of `_set_mean` (`weight.py:78`). -/
noncomputable def meanIntegrand (w : ℝ → Option ℝ) (c : Option ℝ) (x : ℝ) : Option ℝ := mulNan (some x) (pdfAt w c x)

/-- The integrand of `_set_variance` (`weight.py:101`). -/
noncomputable def varianceIntegrand (w : ℝ → Option ℝ) (c m : Option ℝ) (x : ℝ) : Option ℝ :=
  mulNan (m.map fun m => (x - m) ^ 2) (pdfAt w c x)

/-- `_set_mean` and `_set_variance` (`weight.py:76-79,99-102`) when the user gave no value, otherwise that value
(`weight.py:44-47`). -/
noncomputable def momentOr (given : Option ℝ) (Q : ℕ → Option ℝ) : Except Err (Option ℝ) :=
  match given with
  | some v => .ok (some v)
  | none => match iterativeQuadrature Q with
    | .error e => .error e
    | .ok r => .ok r.1

open Classical in
/-- The constructor of `Weight` (`weight.py:27-47`). `rule l u order` is the Gauss-Legendre rule with `order + 1` points on
`[l, u]` and weights of sum `u - l` (`weight.py:69-74`). The three `raise(ValueError, ...)` raise a tuple, hence `TypeError`.
Simplification: the stored table of 50000 density values (`weight.py:40,43`) is left out. -/
noncomputable def mkWeight (rule : ℝ → ℝ → ℕ → List (ℝ × ℝ)) (w : ℝ → Option ℝ) (lower upper : EReal) (pdf : Bool)
    (mean variance : Option ℝ) : Except Err WeightObj :=
  if upper ≤ lower then .error .typeError
  else if lower = ⊥ then .error .typeError
  else if upper = ⊤ then .error .typeError
  else
    let r := rule lower.toReal upper.toReal
    match iterativeQuadrature fun o => quadValue (r o) w with
    | .error e => .error e
    | .ok (I, _) =>
      match normConstant I pdf with
      | .error e => .error e
      | .ok c =>
        match momentOr mean fun o => quadValue (r o) (meanIntegrand w c) with
        | .error e => .error e
        | .ok m =>
          match momentOr variance fun o => quadValue (r o) (varianceIntegrand w c m) with
          | .error e => .error e
          | .ok v => .ok ⟨lower.toReal, upper.toReal, c, m, v⟩

end EQ.Weight
