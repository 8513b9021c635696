import Verif.Basis.Model
import Mathlib.LinearAlgebra.Matrix.NonsingularInverse
import Mathlib.Analysis.Real.Sqrt
import Mathlib.Analysis.SpecialFunctions.Log.Basic
import Mathlib.Data.Matrix.ColumnRowPartitioned

/-!
# Model of `equadratures/solver.py`

A `numpy` array of shape `(m, n)` is a `Matrix (Fin m) (Fin n) ℝ`, a vector (or a column) of length
`n` is a function `Fin n → ℝ`; real numbers stand for floats. The external routines (`lstsq`, `qr`,
`matrix_rank`, `linalg.solve`, `linprog`, `cvxpy`) are arguments.
-/

namespace EQ.Solver
open Matrix EQ.Basis

/-- A vector, `np.ndarray` of shape `(n,)` or `(n, 1)`. -/
abbrev Vec (n : ℕ) := Fin n → ℝ

/-- A matrix, `np.ndarray` of shape `(m, n)`. -/
abbrev Mat (m n : ℕ) := Matrix (Fin m) (Fin n) ℝ

/-- `np.linalg.lstsq(A, b)[0]` for every shape. -/
abbrev Lstsq := (m n : ℕ) → Mat m n → Vec m → Vec n

/-! ## Least squares with constraints -/

/-- solver.py:107 `np.linalg.qr(C.T, 'complete')`: `Q` of shape `(n, n)`, `R` of shape `(n, p)`. -/
structure CompleteQR (n p : ℕ) where
  Q : Mat n n
  R : Mat n p

/-- solver.py:108 `Q[0:n, 0:p]` for `p ≤ n`. -/
def leftCols {n p : ℕ} (h : p ≤ n) (Q : Mat n n) : Mat n p := fun i j => Q i (Fin.castLE h j)

/-- solver.py:109 `Q[0:n, p:n]` for `p ≤ n`. -/
def rightCols {n p : ℕ} (h : p ≤ n) (Q : Mat n n) : Mat n (n - p) :=
  fun i j => Q i ⟨p + j, by omega⟩

/-- solver.py:100-121 `null_space_method(Ao, bo, Co, do)` for a constraint matrix with no more rows
than columns (the only case in which the code calls it). The copies and the condition number (only
printed) are left out. -/
def nullSpaceMethod {m n p : ℕ} (lstsq : Lstsq) (qr : CompleteQR n p) (h : p ≤ n) (A : Mat m n)
    (b : Vec m) (d : Vec p) : Vec n :=
  let Q1 := leftCols h qr.Q
  let Q2 := rightCols h qr.Q
  let L : Mat p p := fun i j => qr.Rᵀ i (Fin.castLE h j)
  let y1 := lstsq p p L d
  let c := b - (A * Q1).mulVec y1
  let AQ2 := A * Q2
  let y2 := lstsq m (n - p) AQ2 c
  Q1.mulVec y1 + Q2.mulVec y2

/-- `np.vstack([A, C])`. -/
def vstack {m k n : ℕ} (A : Mat m n) (C : Mat k n) : Mat (m + k) n :=
  fun i j => Fin.addCases (fun a => A a j) (fun c => C c j) i

/-- `np.vstack([b, d])` for columns. -/
def vstackVec {m k : ℕ} (b : Vec m) (d : Vec k) : Vec (m + k) :=
  Fin.addCases b d

/-- solver.py:85-99 `constrained_least_squares(A, b, C, d)`. The two size checks are part of the
types. `qr` is the result of the factorisation of `A.T` (`A` is the constraint matrix). -/
def constrainedLeastSquares {m n k : ℕ} (lstsq : Lstsq) (qr : CompleteQR n m) (A : Mat m n)
    (b : Vec m) (C : Mat k n) (d : Vec k) : Vec n :=
  if h : n ≤ m then lstsq (m + k) n (vstack A C) (vstackVec b d)
  else nullSpaceMethod lstsq qr (by omega) C d b

/-! ## Minimum norm -/

/-- solver.py:70 `qr(A, pivoting=True)`: `Q` of shape `(m, m)`, `R` of shape `(m, n)` and the
permutation `pvec` of the columns. -/
structure PivotedQR (m n : ℕ) where
  Q : Mat m m
  R : Mat m n
  pvec : Equiv.Perm (Fin n)

/-- solver.py:69-81 `minimum_norm(A, b)`, `r` the value of `np.linalg.matrix_rank(A)`. Row `i` of
`temp = P[np.argsort(pvec), :]` is the unit vector number `pvec⁻¹ i`. `np.dot(Q1.T, b)` raises
`ValueError` unless `r = m`; `np.linalg.inv(R1)` raises `LinAlgError` if `R1` is singular. -/
noncomputable def minimumNorm {m n : ℕ} (qr : PivotedQR m n) (r : ℕ) (hr : r ≤ n) (b : Vec m) :
    Except Err (Vec n) :=
  if h : r = m then
    let Q1 : Mat r r := fun i j => qr.Q (Fin.cast h i) (Fin.cast h j)
    let R1 : Mat r r := fun i j => qr.R (Fin.cast h i) (Fin.castLE hr j)
    let P1 : Mat n r := fun i j => if qr.pvec.symm i = Fin.castLE hr j then 1 else 0
    if R1.det = 0 then .error .linAlgError
    else .ok (P1.mulVec (R1⁻¹.mulVec (Q1ᵀ.mulVec fun i => b (Fin.cast h i))))
  else .error .valueError

/-! ## Linear and convex programs -/

/-- The arguments of `scipy.optimize.linprog(c, A_ub, b_ub)` with the default bounds. -/
structure LP (k n : ℕ) where
  c : Vec n
  Aub : Mat k n
  bub : Vec k

/-- solver.py:422-427: the linear program of `least_absolute_residual` with `opt='scipy'`. -/
def larLP {N d : ℕ} (A : Mat N d) (b : Vec N) : LP (N + N) (d + N) where
  c := Fin.addCases (fun _ => 0) (fun _ => 1)
  Aub := fun i j => Fin.addCases
    (fun a => Fin.addCases (fun k => A a k) (fun l => if a = l then -1 else 0) j)
    (fun a => Fin.addCases (fun k => -A a k) (fun l => if a = l then -1 else 0) j) i
  bub := Fin.addCases b fun a => -b a

/-- solver.py:420-428 `least_absolute_residual` with `opt='scipy'`: `res.x[:d]`. -/
def leastAbsoluteResidual {N d : ℕ} (linprog : LP (N + N) (d + N) → Vec (d + N)) (A : Mat N d)
    (b : Vec N) : Vec d := fun j => linprog (larLP A b) (Fin.castAdd N j)

/-- A point of the quadratic program of `huber` (solver.py:453-456): coefficients `x`, and `z`,
`r`, `s` for each residual. -/
structure HuberPoint (N d : ℕ) where
  x : Vec d
  z : Vec N
  r : Vec N
  s : Vec N

/-- solver.py:457: the objective of the quadratic program. -/
noncomputable def HuberPoint.objective {N d : ℕ} (M : ℝ) (p : HuberPoint N d) : ℝ :=
  0.5 * ∑ i, p.z i ^ 2 + M * ∑ i, (p.r i + p.s i)

/-- solver.py:458-459: the constraints of the quadratic program. -/
def HuberPoint.feasible {N d : ℕ} (A : Mat N d) (b : Vec N) (p : HuberPoint N d) : Prop :=
  (∀ i, A.mulVec p.x i - b i - p.z i = p.r i - p.s i) ∧ (∀ i, 0 ≤ p.r i) ∧ ∀ i, 0 ≤ p.s i

/-- The values of `opt` the functions compare with. -/
inductive Optimiser | osqp | scipy | other

/-- solver.py:29, 36-38: the optimiser used, for the entry `'optimiser'` of the arguments and whether `cvxpy` is installed. -/
def optimiser (given : Option Optimiser) (cvxpy : Bool) : Optimiser :=
  match given.getD .osqp with
  | .osqp => if cvxpy then .osqp else .scipy
  | o => o

/-- solver.py:413: the objective of `least_absolute_residual` with `opt='osqp'`. -/
def larObjective {N d : ℕ} (A : Mat N d) (b : Vec N) (x : Vec d) : ℝ := ∑ i, |A.mulVec x i - b i|

/-- solver.py:400-428 `least_absolute_residual(A, b, verbose, opt)`: `minimise` is the answer of `cvxpy` for the objective it is given;
any other optimiser gives `None`. -/
def lar {N d : ℕ} (minimise : (Vec d → ℝ) → Vec d) (linprog : LP (N + N) (d + N) → Vec (d + N)) (A : Mat N d) (b : Vec N) :
    Optimiser → Option (Vec d)
  | .osqp => some (minimise (larObjective A b))
  | .scipy => some (leastAbsoluteResidual linprog A b)
  | .other => none

/-- solver.py:430-467 `huber(A, b, verbose, M, opt)`: `qp` is the solution of the quadratic program by `cvxpy`. Formatting `None`
with `%.2f` (line 438, before the default is set) raises `TypeError`; for other optimisers `x` is not bound. -/
noncomputable def huber {N d : ℕ} (qp : ℝ → Mat N d → Vec N → HuberPoint N d) (A : Mat N d) (b : Vec N)
    (verbose : Bool) (M : Option ℝ) (opt : Optimiser) : Except Err (Vec d) :=
  if verbose = true ∧ M = none then .error .typeError
  else match opt with
    | .osqp => .ok (qp (M.getD 1.0) A b).x
    | .scipy => .error .valueError
    | .other => .error .unboundLocalError

/-- solver.py:494: the objective of `elastic_net`, with the values of lines 497-498. -/
noncomputable def elasticNetObjective {N d : ℕ} (A : Mat N d) (b : Vec N) (lamda1 lamda2 : ℝ)
    (x : Vec d) : ℝ :=
  0.5 * ∑ i, (A.mulVec x i - b i) ^ 2 + lamda1 * ∑ j, |x j| + 0.5 * lamda2 * ∑ j, x j ^ 2

/-- solver.py:469-505 `elastic_net`: `minimise` is the answer of `cvxpy` for the objective it is
given; a negative value for a parameter declared `nonneg` raises `ValueError`. For
other optimisers `x` is not bound. -/
noncomputable def elasticNet {N d : ℕ} (minimise : (Vec d → ℝ) → Vec d) (A : Mat N d) (b : Vec N)
    (lamda alpha : Option ℝ) (opt : Optimiser) : Except Err (Vec d) :=
  let l := lamda.getD 1.0
  let a := alpha.getD 0.5
  match opt with
  | .osqp =>
    if l * a < 0 ∨ l * (1 - a) < 0 then .error .valueError
    else .ok (minimise (elasticNetObjective A b (l * a) (l * (1 - a))))
  | .scipy => .error .valueError
  | .other => .error .unboundLocalError

/-! ## Conjugate gradients -/

/-- The loop variables of `_CG_solve` (`delta` is the sum of squares of `r`). -/
structure CG (n : ℕ) where
  x : Vec n
  r : Vec n
  d : Vec n
  bestx : Vec n
  bestres : ℝ
  iterations : ℕ

/-- `sum(r**2)`. -/
def CG.delta {n : ℕ} (s : CG n) : ℝ := s.r ⬝ᵥ s.r

/-- solver.py:194-204: the state before the loop. -/
noncomputable def CG.init {n : ℕ} (b : Vec n) : CG n :=
  { x := 0, r := b, d := b, bestx := 0, bestres := √((b ⬝ᵥ b) / (b ⬝ᵥ b)), iterations := 0 }

/-- solver.py:208-223: one pass through the loop body; `delta0 = sum(b**2)`. -/
noncomputable def CG.step {n : ℕ} (A : Mat n n) (delta0 : ℝ) (s : CG n) : CG n :=
  let q := A.mulVec s.d
  let alpha := s.delta / (s.d ⬝ᵥ q)
  let x := s.x + alpha • s.d
  let r := s.r - alpha • q
  let beta := (r ⬝ᵥ r) / s.delta
  { x := x, r := r, d := r + beta • s.d
    bestx := if √(s.delta / delta0) < s.bestres then x else s.bestx
    bestres := if √(s.delta / delta0) < s.bestres then √(s.delta / delta0) else s.bestres
    iterations := s.iterations + 1 }

/-- solver.py:206: the loop, with at most `fuel` more passes. -/
noncomputable def CG.loop {n : ℕ} (A : Mat n n) (delta0 tol : ℝ) : ℕ → CG n → CG n
  | 0, s => s
  | fuel + 1, s => if s.delta > tol ^ 2 * delta0 then CG.loop A delta0 tol fuel (s.step A delta0) else s

/-- solver.py:175-225 `_CG_solve(A, b, max_iters, tol)`: the solution, the relative residual
(`none` for the `nan` that a zero right-hand side gives) and the number of iterations. `eigvals` are
the eigenvalues of `A`. -/
noncomputable def cgSolve {n : ℕ} (eigvals : Mat n n → List ℝ) (A : Mat n n) (b : Vec n)
    (maxIters : ℕ) (tol : ℝ) : Except Err (Vec n × Option ℝ × ℕ) :=
  if ∀ e ∈ eigvals A, e > 0 then
    let s := CG.loop A (b ⬝ᵥ b) tol maxIters (CG.init b)
    .ok (s.x, if b ⬝ᵥ b = 0 then none else some √(s.delta / (b ⬝ᵥ b)), s.iterations)
  else .error .valueError

end EQ.Solver
