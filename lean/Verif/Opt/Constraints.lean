import Verif.Opt.Model
import Mathlib.Data.EReal.Basic
import Mathlib.Data.EReal.Operations
import Mathlib.Analysis.Calculus.FDeriv.Mul
import Mathlib.Analysis.Calculus.FDeriv.Add
import Mathlib.Analysis.Calculus.FDeriv.Linear

/-!
# Model of the constraints and of the calls of scipy's `minimize` in `equadratures/optimisation.py`

Bounds are extended reals, `±np.inf` included. A constraint is the object given to scipy; what scipy's
documentation says such an object means is `Con.Holds`. A custom constraint function is taken to be
real-valued.
-/

namespace EQ.Opt.Cons
open EQ.Basis

variable {n : ℕ}

/-- The values of `method` that the code distinguishes; `other` is any other string. -/
inductive Method
  | trustConstr | slsqp | cobyla | lbfgsb | tnc | cg | bfgs | newton | trustRegion | omorf | other
  deriving DecidableEq

/-- `np.dot(A, x)`. -/
def mulVec {M : ℕ} (A : Fin M → Fin n → ℝ) (x : Pt n) : Fin M → ℝ := fun i => ∑ j, A i j * x j

/-- The constraint objects handed to scipy: `LinearConstraint`, `NonlinearConstraint`, and dictionaries
of type `ineq` and `eq` (with `jac` if present). -/
inductive Con (n : ℕ)
  | linear (M : ℕ) (A : Fin M → Fin n → ℝ) (lo hi : Fin M → EReal)
  | nonlinear (g : Pt n → ℝ) (lo hi : EReal) (jac : Option (Pt n → Pt n))
  | ineq (M : ℕ) (g : Pt n → Fin M → ℝ) (jac : Option (Pt n → Fin M → Fin n → ℝ))
  | eq (M : ℕ) (g : Pt n → Fin M → ℝ) (jac : Option (Pt n → Fin M → Fin n → ℝ))

/-- What scipy documents: `lo ≤ A x ≤ hi`, `lo ≤ g x ≤ hi`, `g x ≥ 0`, `g x = 0`. -/
def Con.Holds : Con n → Pt n → Prop
  | .linear _ A lo hi, x => ∀ i, lo i ≤ (mulVec A x i : EReal) ∧ (mulVec A x i : EReal) ≤ hi i
  | .nonlinear g lo hi _, x => lo ≤ (g x : EReal) ∧ (g x : EReal) ≤ hi
  | .ineq _ g _, x => ∀ i, 0 ≤ g x i
  | .eq _ g _, x => ∀ i, g x i = 0

/-- The attributes of an `Optimisation` object (optimisation.py:20-31). -/
structure Prob (n : ℕ) where
  method : Method
  maximise : Bool
  fn : Option (Pt n → ℝ)
  grad : Option (Pt n → Pt n)
  hess : Option (Pt n → Fin n → Fin n → ℝ)
  bounds : Option ((Fin n → EReal) × (Fin n → EReal))
  cons : List (Con n)

/-- `np.isinf`. -/
def isInf (e : EReal) : Prop := e = ⊤ ∨ e = ⊥

open Classical in
/-- optimisation.py:71-96 `add_bounds` (the sizes of `lb` and `ub` agree). -/
noncomputable def addBounds (p : Prob n) (lb ub : Fin n → EReal) : Except Err (Prob n) :=
  if p.method ∈ [.lbfgsb, .tnc, .slsqp, .trustConstr, .cobyla, .trustRegion, .omorf] then
    if p.method ≠ .cobyla then .ok { p with bounds := some (lb, ub) }
    else .ok { p with cons := p.cons ++ (List.finRange n).flatMap fun i =>
      (if ¬ isInf (lb i) then [.ineq 1 (fun x _ => x i - (lb i).toReal) none] else []) ++
      (if ¬ isInf (ub i) then [.ineq 1 (fun x _ => (ub i).toReal - x i) none] else []) }
  else .error .assertionError

open Classical in
/-- optimisation.py:97-115 `add_linear_ineq_con`. -/
noncomputable def addLinearIneq {M : ℕ} (p : Prob n) (A : Fin M → Fin n → ℝ) (bl bu : Fin M → EReal) :
    Except Err (Prob n) :=
  if p.method ∈ [.slsqp, .trustConstr, .cobyla] then
    if p.method = .trustConstr then .ok { p with cons := p.cons ++ [.linear M A bl bu] }
    else
      .ok { p with cons := p.cons ++
        (if ¬ ∃ i, isInf (bl i) then
          [.ineq M (fun x i => mulVec A x i - (bl i).toReal) (some fun _ => A)] else []) ++
        (if ¬ ∃ i, isInf (bu i) then
          [.ineq M (fun x i => -mulVec A x i + (bu i).toReal) (some fun _ i j => -A i j)] else []) }
  else .error .assertionError

open Classical in
/-- optimisation.py:130-159 `add_nonlinear_ineq_con` with the argument `poly`: the polynomial is its
evaluation function and its gradient. -/
noncomputable def addPolyIneq (p : Prob n) (g : Pt n → ℝ) (jac : Pt n → Pt n) (lo hi : EReal) :
    Except Err (Prob n) :=
  if p.method ∈ [.slsqp, .trustConstr, .cobyla] then
    if p.method = .trustConstr then .ok { p with cons := p.cons ++ [.nonlinear g lo hi (some jac)] }
    else
      let j (s : ℝ) : Option (Pt n → Fin 1 → Fin n → ℝ) :=
        if p.method = .slsqp then some fun x _ j => s * jac x j else none
      .ok { p with cons := p.cons ++
        (if ¬ isInf lo then [.ineq 1 (fun x _ => g x - lo.toReal) (j 1)] else []) ++
        (if ¬ isInf hi then [.ineq 1 (fun x _ => -g x + hi.toReal) (j (-1))] else []) }
  else .error .assertionError

/-- optimisation.py:160-180 `add_nonlinear_ineq_con` with the argument `custom`. -/
noncomputable def addCustomIneq (p : Prob n) (g : Pt n → ℝ) (jac : Option (Pt n → Pt n)) : Except Err (Prob n) :=
  if p.method ∈ [.slsqp, .trustConstr, .cobyla] then
    if p.method = .trustConstr then .ok { p with cons := p.cons ++ [.nonlinear g 0 ⊤ jac] }
    else .ok { p with cons := p.cons ++ [.ineq 1 (fun x _ => g x)
      (if p.method = .slsqp then jac.map fun j x _ => j x else none)] }
  else .error .assertionError

/-- optimisation.py:182-193 `add_linear_eq_con`: the condition of the assertion,
`self.method == 'trust-constr' or 'SLSQP'`, is true for every method. -/
def addLinearEq {M : ℕ} (p : Prob n) (A : Fin M → Fin n → ℝ) (b : Fin M → ℝ) : Except Err (Prob n) :=
  if p.method = .trustConstr then
    .ok { p with cons := p.cons ++ [.linear M A (fun i => b i) (fun i => b i)] }
  else .ok { p with cons := p.cons ++ [.eq M (fun x i => mulVec A x i - b i) (some fun _ => A)] }

/-- The argument of `add_nonlinear_eq_con`: `poly` is a dictionary. -/
inductive EqArg (n : ℕ)
  | none
  | poly (value : Option ℝ) (g : Pt n → ℝ) (jac : Pt n → Pt n)
  | custom (g : Pt n → ℝ) (jac : Option (Pt n → Pt n))

/-- optimisation.py:194-242 `add_nonlinear_eq_con`: with `poly`, `poly.get_polyfit_function()`
(optimisation.py:212) is called on the dictionary, which has no such attribute. -/
noncomputable def addNonlinearEq (p : Prob n) : EqArg n → Except Err (Prob n)
  | .none => .error .assertionError
  | .poly Option.none _ _ => .error .assertionError
  | .poly (some _) _ _ => .error .attributeError
  | .custom g jac =>
    if p.method = .trustConstr then .ok { p with cons := p.cons ++ [.nonlinear g 0 0 jac] }
    else .ok { p with cons := p.cons ++ [.eq 1 (fun x _ => g x) (jac.map fun j x _ => j x)] }

/-- optimisation.py:32-70 `add_objective`: the function with its gradient and Hessian (from a polynomial
or from the user). -/
def addObjective (p : Prob n) (isPoly maximise : Bool) (f : Pt n → ℝ) (jac : Option (Pt n → Pt n))
    (hess : Option (Pt n → Fin n → Fin n → ℝ)) : Except Err (Prob n) :=
  if p.method = .trustRegion ∧ isPoly = true then .error .assertionError
  else
    let k : ℝ := if maximise then -1 else 1
    .ok { p with
      maximise := maximise
      fn := some fun x => k * f x
      grad := jac.map fun j x i => k * j x i
      hess := hess.map fun h x i j => k * h x i j }

/-- The arguments of `optimize.minimize`. -/
structure MinCall (n : ℕ) where
  fn : Pt n → ℝ
  x0 : Pt n
  method : Method
  bounds : Option ((Fin n → EReal) × (Fin n → EReal))
  jac : Option (Pt n → Pt n)
  hess : Option (Pt n → Fin n → Fin n → ℝ)
  cons : List (Con n)

/-- What `optimize.minimize` returns. -/
structure MinResult (n : ℕ) where
  x : Pt n
  fn : ℝ
  nfev : ℕ

/-- optimisation.py:261-270, 289-292: the call of `optimize.minimize`, for the objective `fn`. -/
def scipyCall (p : Prob n) (fn : Pt n → ℝ) (x0 : Pt n) : MinCall n :=
  if p.method ∈ [.newton, .trustConstr] then ⟨fn, x0, p.method, p.bounds, p.grad, p.hess, p.cons⟩
  else if p.method ∈ [.cg, .bfgs, .lbfgsb, .tnc, .slsqp] then
    ⟨fn, x0, p.method, p.bounds, p.grad, none, p.cons⟩
  else ⟨fn, x0, p.method, p.bounds, none, none, p.cons⟩

/-- optimisation.py:260-295 `optimise` for the methods of scipy. -/
noncomputable def optimiseScipy (minimize : MinCall n → MinResult n) (p : Prob n) (x0 : Pt n) :
    Except Err (Sol n) :=
  match p.fn with
  | none => .error .assertionError
  | some fn =>
    let r := minimize (scipyCall p fn x0)
    .ok ⟨r.x, if p.maximise then r.fn * -1 else r.fn, 0⟩

end EQ.Opt.Cons
