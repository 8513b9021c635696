import Verif.Data.Model
import Mathlib.LinearAlgebra.Matrix.PosDef

/-!
# Model of the uncertainty bands and scores of a fitted polynomial (`equadratures/poly.py`)

The basis functions are an arbitrary family `φ` (what `get_poly` returns at a point, see C28), the solver an arbitrary
function of points, weights and model values.
-/

namespace EQ.Poly
open EQ.Basis Matrix

/-- `sample-output-variances` (poly.py:140-142): a number or an array. -/
inductive Variances where
  | scalar (s : ℝ)
  | array (l : List ℝ)

/-- The attributes of a `Poly` object with `M` samples that `get_polyfit(uq=True)` and `get_polyscore` read (poly.py:84-90,
124-142). `inputs` tells whether `sample-points` were given; then they are the points. Simplification: without subsampling, and
all arrays of samples have `M` rows (otherwise numpy raises `ValueError`). -/
structure Fitted (X : Type) (M : ℕ) where
  points : Fin M → X
  weights : Fin M → ℝ
  inputs : Bool
  outputs : Option (Fin M → ℝ)
  variances : Option Variances
  evals : Option (Fin M → ℝ)

/-- A solver: the coefficients from points, weights and model values (poly.py:489-507). -/
abbrev SolverFun (X : Type) (M N : ℕ) := (Fin M → X) → (Fin M → ℝ) → (Fin M → ℝ) → Fin N → ℝ

variable {X : Type} {M N : ℕ}

/-- poly.py:562-578 `get_polyfit` at one point. -/
def fitAt (φ : X → Fin N → ℝ) (c : Fin N → ℝ) (x : X) : ℝ := φ x ⬝ᵥ c

/-- poly.py:389-412 `set_model(model)` for values of the model: without argument the stored outputs are taken; without stored
outputs `None.shape` raises `AttributeError`. The stored outputs are not replaced. -/
def Fitted.setModel (s : Fitted X M) : Option (Fin M → ℝ) → Except Err (Fitted X M)
  | none =>
    match s.outputs with
    | some y => .ok { s with evals := some y }
    | none => .error .attributeError
  | some y => .ok { s with evals := some y }

/-- poly.py:489-507 with 518-527: the coefficients; before `set_model` there are none. -/
def Fitted.coefficients (s : Fitted X M) (solve : SolverFun X M N) : Except Err (Fin N → ℝ) :=
  match s.evals with
  | none => .error .attributeError
  | some y => .ok (solve s.points s.weights y)

/-- poly.py:446-457: samples whose value is NaN are dropped (`keep` are the positions kept); inputs and outputs become the
remaining ones, the weights `w` are those of a user-defined mesh (sampling_template.py:17-20), the variances stay as they are. -/
def Fitted.dropNan {K : ℕ} (s : Fitted X M) (keep : Fin K → Fin M) (w : Fin K → ℝ) (y : Fin M → ℝ) : Fitted X K where
  points := s.points ∘ keep
  weights := w
  inputs := true
  outputs := some (y ∘ keep)
  variances := s.variances
  evals := some (y ∘ keep)

/-- poly.py:860-872: the variances of the data. -/
noncomputable def Fitted.dataVariance (s : Fitted X M) (φ : X → Fin N → ℝ) (c : Fin N → ℝ) : Except Err (Fin M → ℝ) :=
  match s.variances with
  | none =>
    if s.inputs then
      match s.outputs with
      | some y => .ok fun _ => Data.mean fun i => (y i - fitAt φ c (s.points i)) ^ 2
      | none => .error .typeError
    else .error .attributeError
  | some (.scalar v) => if s.inputs then .ok fun _ => v else .error .attributeError
  | some (.array l) => if h : l.length = M then .ok fun i => l[i] else .error .valueError

/-- poly.py:891-900 `_inv`: the inverse of `S + 1e-10 I` from its Cholesky factor. `chol` is `np.linalg.cholesky`. -/
noncomputable def cholInv (chol : Matrix (Fin N) (Fin N) ℝ → Option (Matrix (Fin N) (Fin N) ℝ))
    (S : Matrix (Fin N) (Fin N) ℝ) : Except Err (Matrix (Fin N) (Fin N) ℝ) :=
  match chol (S + (1 / 10 ^ 10 : ℝ) • 1) with
  | none => .error .linAlgError
  | some L => .ok ((L⁻¹)ᵀ * L⁻¹)

/-- poly.py:876-878: `A = W Pᵀ`. -/
noncomputable def Fitted.design (s : Fitted X M) (φ : X → Fin N → ℝ) : Matrix (Fin M) (Fin N) ℝ :=
  fun i k => √(s.weights i) * φ (s.points i) k

/-- poly.py:845-889 `_get_polystd` at a stack of points. -/
noncomputable def Fitted.polystd (chol : Matrix (Fin N) (Fin N) ℝ → Option (Matrix (Fin N) (Fin N) ℝ))
    (φ : X → Fin N → ℝ) (c : Fin N → ℝ) (s : Fitted X M) (stack : List X) : Except Err (List ℝ) :=
  match s.dataVariance φ c with
  | .error e => .error e
  | .ok v =>
    let A := s.design φ
    match cholInv chol (Aᵀ * A) with
    | .error e => .error e
    | .ok I =>
      let Q := I * Aᵀ
      let SX := Q * diagonal v * Qᵀ
      .ok (stack.map fun x => (1.96 : ℝ) * √(φ x ⬝ᵥ SX *ᵥ φ x))

/-- poly.py:562-578 `get_polyfit(stack, uq=True)`: values and bands. -/
noncomputable def Fitted.polyfitUq (chol : Matrix (Fin N) (Fin N) ℝ → Option (Matrix (Fin N) (Fin N) ℝ))
    (φ : X → Fin N → ℝ) (solve : SolverFun X M N) (s : Fitted X M) (stack : List X) : Except Err (List ℝ × List ℝ) :=
  match s.coefficients solve with
  | .error e => .error e
  | .ok c =>
    match s.polystd chol φ c stack with
    | .error e => .error e
    | .ok b => .ok (stack.map (fitAt φ c), b)

/-- poly.py:817-843 `get_polyscore`; `d` is the number of columns of the points, `test` the optional test points and values.
The training score compares with `self.outputs`. -/
noncomputable def Fitted.polyscore (φ : X → Fin N → ℝ) (solve : SolverFun X M N) (s : Fitted X M) (d : ℕ)
    (metric : Data.Metric) (test : Option (Σ K, (Fin K → X) × (Fin K → ℝ))) : Except Err (ℝ × Option ℝ) :=
  match s.coefficients solve with
  | .error e => .error e
  | .ok c =>
    match s.outputs with
    | none => .error .attributeError
    | some y =>
      match Data.score y (fun i => fitAt φ c (s.points i)) metric (some (M, d)) with
      | .error e => .error e
      | .ok train =>
        match test with
        | none => .ok (train, none)
        | some ⟨K, xt, yt⟩ =>
          match Data.score yt (fun i => fitAt φ c (xt i)) metric (some (K, d)) with
          | .error e => .error e
          | .ok t => .ok (train, some t)

end EQ.Poly
