import Verif.Basis.Model
import Mathlib.Data.Matrix.Mul
import Mathlib.Data.Fin.Rev
import Mathlib.Analysis.Real.Sqrt

/-!
# Model of `equadratures/parameter.py` and of `distributions/recurrence_utils.py`

Floats are real numbers. A table of recurrence coefficients (the `(order+1) × 2` array `ab`)
is a function from the row number to the pair `(ab[i,0], ab[i,1])`; the functions that build
tables produce lists, and `rows` turns them into functions (reads outside the table, which
raise `IndexError` in Python, do not happen: see `jacobiCoeffs_length` and the remarks at each
definition).
-/

namespace EQ.Param

/-- Rows of a table of recurrence coefficients, by row number. -/
abbrev Table := ℕ → ℝ × ℝ

/-- A list of rows read by index (`ab[i, :]`). -/
def rows (l : List (ℝ × ℝ)) : Table := fun i => l.getD i (0, 0)

/-! ## `_get_orthogonal_polynomial` -/

/-- The three arrays returned by `_get_orthogonal_polynomial`, one column of each (one point). -/
structure Tables where
  poly : ℕ → ℝ
  deriv : ℕ → ℝ
  dderiv : ℕ → ℝ

/-- parameter.py:323-325: value written to `orthopoly[u]` in the first loop. -/
noncomputable def polyRhs (ab : Table) (x : ℝ) (P : ℕ → ℝ) (u : ℕ) : ℝ :=
  (((x - (ab (u - 1)).1) * P (u - 1)) - √(ab (u - 1)).2 * P (u - 2)) / (1.0 * √(ab u).2)

/-- parameter.py:326-328: value written to `derivative_orthopoly[u]` in the second loop. -/
noncomputable def derivRhs (ab : Table) (x : ℝ) (P D : ℕ → ℝ) (u : ℕ) : ℝ :=
  (((x - (ab (u - 1)).1) * D (u - 1)) - (√(ab (u - 1)).2 * D (u - 2)) + P (u - 1))
    / (1.0 * √(ab u).2)

/-- parameter.py:329-331: value written to `dderivative_orthopoly[u]` in the third loop. -/
noncomputable def dderivRhs (ab : Table) (x : ℝ) (D DD : ℕ → ℝ) (u : ℕ) : ℝ :=
  (((x - (ab (u - 1)).1) * DD (u - 1)) - (√(ab (u - 1)).2 * DD (u - 2)) + 2.0 * D (u - 1))
    / (1.0 * √(ab u).2)

/-- A loop `for u in range(2, order): A[u] = rhs(A, u)` over an array with zero default. -/
noncomputable def fillFrom2 (rhs : (ℕ → ℝ) → ℕ → ℝ) (order : ℕ) (A : ℕ → ℝ) : ℕ → ℝ :=
  (List.range' 2 (order - 2)).foldl (fun A u => Function.update A u (rhs A u)) A

/-- parameter.py:275-337 `_get_orthogonal_polynomial(points, order)`, for one point `x`
(every operation in the code acts on the columns of the arrays independently).
`order` here is the value after line 287 (`order + 1`), so `order ≥ 1`; the table `ab` is
`get_recurrence_coefficients(order)`, of which only rows `0 .. order-1` are read.
Entries of the arrays with index `≥ order` do not exist in Python and are `0` here. -/
noncomputable def orthoTables (ab : Table) (order : ℕ) (x : ℝ) : Tables :=
  let P0 := Function.update (fun _ => (0 : ℝ)) 0 1.0
  let Z := fun _ : ℕ => (0 : ℝ)
  if order = 1 then ⟨P0, Z, Z⟩
  else
    let P1 := Function.update P0 1 (((x - (ab 0).1) * P0 0) * 1.0 / (1.0 * √(ab 1).2))
    let D1 := Function.update Z 1 (P0 0 / √(ab 1).2)
    if order = 2 then ⟨P1, D1, Z⟩
    else
      let P := fillFrom2 (polyRhs ab x) order P1
      let D := fillFrom2 (derivRhs ab x P) order D1
      let DD := fillFrom2 (dderivRhs ab x D) order Z
      ⟨P, D, DD⟩

/-! ## `get_jacobi_matrix` -/

/-- Assignment `M[i,j] = v`. -/
def setEntry (M : ℕ → ℕ → ℝ) (i j : ℕ) (v : ℝ) : ℕ → ℕ → ℝ :=
  fun i' j' => if i' = i ∧ j' = j then v else M i' j'

/-- parameter.py:240-274 `get_jacobi_matrix(order, ab)`: the writes into a zero matrix, in the
order of the code. For `order = 1` the code returns the scalar `ab[0,0]`, here a 1×1 matrix.
Only rows `0 .. order-1` of `ab` are read, all of which exist. -/
noncomputable def jacobiEntries (ab : Table) (order : ℕ) : ℕ → ℕ → ℝ :=
  let Z := fun _ _ : ℕ => (0 : ℝ)
  if order = 1 then setEntry Z 0 0 (ab 0).1
  else
    let M := setEntry Z 0 0 (ab 0).1
    let M := setEntry M 0 1 √(ab 1).2
    let k := order - 1
    let M := (List.range' 1 (k - 1)).foldl (fun M u =>
      let M := setEntry M u u (ab u).1
      let M := setEntry M u (u - 1) √(ab u).2
      setEntry M u (u + 1) √(ab (u + 1)).2) M
    let M := setEntry M (order - 1) (order - 1) (ab (order - 1)).1
    setEntry M (order - 1) (order - 2) √(ab (order - 1)).2

/-- The matrix handed to `eigh`. -/
noncomputable def jacobiMatrix (ab : Table) (n : ℕ) : Matrix (Fin n) (Fin n) ℝ :=
  fun i j => jacobiEntries ab n i j

/-! ## `get_local_quadrature` -/

/-- What `scipy.linalg.eigh` returns for a real symmetric matrix: ascending eigenvalues and
an orthogonal matrix of eigenvectors (signs unspecified). -/
structure EighContract {n : ℕ} (J : Matrix (Fin n) (Fin n) ℝ) (D : Fin n → ℝ)
    (V : Matrix (Fin n) (Fin n) ℝ) : Prop where
  mono : Monotone D
  orth : V.transpose * V = 1
  eig : J * V = V * Matrix.diagonal D

/-- What `D.argsort()` returns: a permutation of the positions that sorts `D` (any
tie-breaking). -/
structure ArgsortContract {n : ℕ} (D : Fin n → ℝ) (σ : Equiv.Perm (Fin n)) : Prop where
  sorted : Monotone (D ∘ σ)

/-- Points and weights of a one-dimensional rule, by position. -/
structure Rule (n : ℕ) where
  p : Fin n → ℝ
  w : Fin n → ℝ

/-- parameter.py:381-400, the branch of `get_local_quadrature` for two or more points:
`idx = D.argsort()[::-1]`, `eigs = D[idx]`, `eigVecs = V[:, idx]`,
`w[u] = ab[0,1] * eigVecs[0, idx[u]]**2`, `p[u] = eigs[u]`, finally `p = p[::-1]`. -/
noncomputable def quadratureOfEigh {n : ℕ} (ab : Table) (D : Fin (n + 1) → ℝ)
    (V : Matrix (Fin (n + 1)) (Fin (n + 1)) ℝ) (argsort : Equiv.Perm (Fin (n + 1))) :
    Rule (n + 1) :=
  let idx : Fin (n + 1) → Fin (n + 1) := fun u => argsort (Fin.rev u)
  let eigs := fun u => D (idx u)
  let eigVecs : Matrix (Fin (n + 1)) (Fin (n + 1)) ℝ := fun i j => V i (idx j)
  { w := fun u => (ab 0).2 * (eigVecs 0 (idx u)) ^ 2
    p := fun u => eigs (Fin.rev u) }

/-- `not x` for an optional float: `None` and `0.0` are both falsy (parameter.py:376). -/
noncomputable def falsy : Option ℝ → Bool
  | none => true
  | some v => decide (v = 0)

/-- parameter.py:374-380, the one-point branch: the distribution mean if a bound is missing or
zero, the midpoint otherwise; weight `1`. -/
noncomputable def onePointRule (lower upper : Option ℝ) (mean : ℝ) : ℝ × ℝ :=
  match lower, upper with
  | some l, some u =>
    if falsy lower ∨ falsy upper then (mean, 1.0) else ((u - l) / 2.0 + l, 1.0)
  | _, _ => (mean, 1.0)

/-! ## Radau and Lobatto -/

/-- parameter.py:415-420 (and, for one end point, 440-447): the loop
`for i in range(0, m): pm1 = p0; p0 = p1; p1 = (x - ab[i,0])*p0 - ab[i,1]*pm1`
started from `p0 = 0, p1 = 1`; returns `(p0, p1)`. -/
noncomputable def monicLoop (ab : Table) (x : ℝ) (m : ℕ) : ℝ × ℝ :=
  (List.range m).foldl
    (fun (s : ℝ × ℝ) i => (s.2, (x - (ab i).1) * s.2 - (ab i).2 * s.1)) (0, 1)

/-- parameter.py:402-422 `get_local_quadrature_radau` with `ab = None`: the table after the
assignment at line 421. `N` is the value at line 411 (`order - 1`); the table is
`get_recurrence_coefficients(N+1)`, whose last row is `N+1`. The rule is then computed by
`get_local_quadrature(order = N+1, ab)`, i.e. with `N+2` points. -/
noncomputable def radauTable (ab : Table) (end0 : ℝ) (N : ℕ) : Table :=
  let (p0, p1) := monicLoop ab end0 (N + 1)
  Function.update ab (N + 1) (end0 - (ab (N + 1)).2 * p0 / p1, (ab (N + 1)).2)

/-- parameter.py:424-450 `get_local_quadrature_lobatto` with `ab = None`, for `order = N+1`: the table after lines
448-449. The variable `N` of the code (line 429) is `order - 2`, that is `N - 1` here; the table is
`get_recurrence_coefficients(N+1)`, and the rule has `N+2` points. -/
noncomputable def lobattoTable (ab : Table) (endl endr : ℝ) (N : ℕ) : Table :=
  let (p0l, p1l) := monicLoop ab endl (N + 1)
  let (p0r, p1r) := monicLoop ab endr (N + 1)
  let det := p1l * p0r - p1r * p0l
  Function.update ab (N + 1)
    ((endl * p1l * p0r - endr * p1r * p0l) / det, (endr - endl) * p1l * p1r / det)

/-! ## `_get_local_quadrature` -/

/-- What the rules read from a `Parameter` object: the coefficients, the arguments `lower` and `upper` as the user gave them
(parameter.py:71-72), and the mean of the distribution. -/
structure RuleParam where
  coeffs : ℕ → Table
  lower : Option ℝ
  upper : Option ℝ
  mean : ℝ

/-- `scipy.linalg.eigh` and `argsort`. -/
structure EighArgsort where
  eigh : ∀ {n : ℕ}, Matrix (Fin n) (Fin n) ℝ → (Fin n → ℝ) × Matrix (Fin n) (Fin n) ℝ
  argsort : ∀ {n : ℕ}, (Fin n → ℝ) → Equiv.Perm (Fin n)

/-- parameter.py:359-401 `get_local_quadrature` with the tables `abJ` (of the Jacobi matrix) and `ab`: `order + 1` points with their
weights. -/
noncomputable def gaussRule (E : EighArgsort) (P : RuleParam) (abJ ab : Table) : ℕ → List (ℝ × ℝ)
  | 0 => [onePointRule P.lower P.upper P.mean]
  | n + 1 =>
    let DV := E.eigh (jacobiMatrix abJ (n + 2))
    let R := quadratureOfEigh (n := n + 1) ab DV.1 DV.2 (E.argsort DV.1)
    List.ofFn fun u => (R.p u, R.w u)

/-- parameter.py:402-423 `get_local_quadrature_radau` for the end point `end0`. A missing bound is `None`, and line 421 subtracts
from it. For `order = 0` the variable `N` is `-1`: the loop does nothing and line 421 writes to row 0, which the one-point rule does
not read. -/
noncomputable def radauRule (E : EighArgsort) (P : RuleParam) (end0 : Option ℝ) (order : ℕ) : Except EQ.Basis.Err (List (ℝ × ℝ)) :=
  match end0, order with
  | none, _ => .error .typeError
  | some _, 0 => .ok (gaussRule E P (P.coeffs 0) (P.coeffs 0) 0)
  | some e, N + 1 =>
    let ab := radauTable (P.coeffs (N + 1)) e N
    .ok (gaussRule E P ab ab (N + 1))

/-- parameter.py:424-450 `get_local_quadrature_lobatto`. For `order = 0` the loop does nothing, `det` is the Python float zero and
line 448 divides by it. -/
noncomputable def lobattoRule (E : EighArgsort) (P : RuleParam) (order : ℕ) : Except EQ.Basis.Err (List (ℝ × ℝ)) :=
  match P.lower, P.upper, order with
  | some _, some _, 0 => .error .zeroDivisionError
  | some l, some u, N + 1 =>
    let ab := lobattoTable (P.coeffs (N + 1)) l u N
    .ok (gaussRule E P ab ab (N + 1))
  | _, _, _ => .error .typeError

/-- The values of `endpoints` (the code compares lower-cased names). -/
inductive Endpoints | none | lower | upper | both | other

/-- parameter.py:338-358 `_get_local_quadrature`. Raising a tuple (line 358) is a `TypeError`. -/
noncomputable def localQuadrature (E : EighArgsort) (P : RuleParam) : Endpoints → ℕ → Except EQ.Basis.Err (List (ℝ × ℝ))
  | .none, order => .ok (gaussRule E P (P.coeffs (order + 1)) (P.coeffs (order + 2)) order)
  | .lower, order => radauRule E P P.lower order
  | .upper, order => radauRule E P P.upper order
  | .both, order => lobattoRule E P order
  | .other, _ => .error .typeError

/-! ## `recurrence_utils.py` -/

/-- recurrence_utils.py:47-62: row `i` of the table of `jacobi_recurrence_coefficients`. -/
noncomputable def jacobiRow (a b lower upper : ℝ) (i : ℕ) : ℝ × ℝ :=
  let a0 := 1 * (b - a) / (a + b + 2)
  let b2a2 := b ^ 2 - a ^ 2
  let s := (upper - lower) / 2
  let other := lower + (upper - lower) / 2
  let k : ℝ := (i : ℝ) + 1
  if i = 0 then (s * a0 + other, 1.0)
  else
    (s * b2a2 / ((2 * (k - 1) + a + b) * (2 * k + a + b)) + other,
      if i = 1 then
        ((upper - lower) ^ 2 * (k - 1) * (k - 1 + a) * (k - 1 + b)) /
          ((2 * (k - 1) + a + b) ^ 2 * (2 * (k - 1) + a + b + 1))
      else
        ((upper - lower) ^ 2 * (k - 1) * (k - 1 + a) * (k - 1 + b) * (k - 1 + a + b)) /
          ((2 * (k - 1) + a + b) ^ 2 * (2 * (k - 1) + a + b + 1) * (2 * (k - 1) + a + b - 1)))

/-- recurrence_utils.py:30-63 `jacobi_recurrence_coefficients(a, b, lower, upper, order)`. -/
noncomputable def jacobiCoeffs (a b lower upper : ℝ) (order : ℕ) : List (ℝ × ℝ) :=
  (List.range (order + 1)).map (jacobiRow a b lower upper)

/-- The discrete data of `custom_recurrence_coefficients` after recurrence_utils.py:116-128:
points with their normalised non-zero weights. -/
noncomputable def customData (x w : List ℝ) : List (ℝ × ℝ) :=
  (x.zip (w.map fun v => v / w.sum)).filter fun p => p.2 ≠ 0

/-- State of the loop at recurrence_utils.py:139-150. `p1` and `p2` hold one value per kept
sample. -/
structure CustomState where
  ab : Table
  p1 : List ℝ
  p2 : List ℝ
  s : ℝ

/-- One pass of the loop at recurrence_utils.py:139-150. -/
noncomputable def customStep (data : List (ℝ × ℝ)) (st : CustomState) (j : ℕ) : CustomState :=
  let p0 := st.p1
  let p1 := st.p2
  let p2 := (data.zip (p1.zip p0)).map fun q =>
    (q.1.1 - (st.ab j).1) * q.2.1 - (st.ab j).2 * q.2.2
  let s1 := ((data.zip p2).map fun q => q.1.2 * q.2 ^ 2).sum
  let s2 := ((data.zip p2).map fun q => q.1.1 * (q.1.2 * q.2 ^ 2)).sum
  { ab := Function.update st.ab (j + 1) (s2 / s1, s1 / st.s), p1 := p1, p2 := p2, s := s1 }

/-- recurrence_utils.py:101-151 `custom_recurrence_coefficients(x, w, order)`; the same loop is
in analytical.py:58-109. The result has `order + 2` rows. Divisions by zero (`s1 = 0`, when all
samples are used up) give `nan` in Python and `0` here; the theorems assume more distinct
samples than rows. -/
noncomputable def customCoeffs (x w : List ℝ) (order : ℕ) : Table :=
  let data := customData x w
  let s := (data.map Prod.snd).sum
  let a0 := (data.map fun p => p.1 * (p.2 / s)).sum
  let ab0 : Table := Function.update (fun _ => (0, 0)) 0 (a0, s)
  if order + 1 = 1 then ab0
  else
    ((List.range (order + 1)).foldl (customStep data)
      { ab := ab0, p1 := data.map fun _ => 0, p2 := data.map fun _ => 1, s := s }).ab

/-! ## Reported moments of the Jacobi-type distributions -/

/-- What the constructors of the three Jacobi-type distributions store, as far as the
recurrence coefficients and the moments need it. -/
structure JacobiDist where
  lower : ℝ
  upper : ℝ
  shapeParameterA : ℝ
  shapeParameterB : ℝ
  mean : ℝ
  variance : ℝ

/-- uniform.py:17-32: a missing bound replaces both bounds by `[0, 1]`. -/
noncomputable def mkUniform (lower upper : Option ℝ) : JacobiDist :=
  let (l, u) := match lower, upper with
    | some l, some u => (l, u)
    | _, _ => (0, 1)
  { lower := l, upper := u, shapeParameterA := 0, shapeParameterB := 0,
    mean := 0.5 * (u + l), variance := 1.0 / 12.0 * (u - l) ^ 2 }

/-- beta.py:24-40 for given bounds; `none` if a shape is below one (the attributes are then
never set and any later use raises `AttributeError`). -/
noncomputable def mkBeta (lower upper shapeA shapeB : ℝ) : Option JacobiDist :=
  if shapeA ≥ 1 ∧ shapeB ≥ 1 then
    some { lower := lower, upper := upper,
           shapeParameterA := shapeB - 1, shapeParameterB := shapeA - 1,
           mean := shapeA / (shapeA + shapeB),
           variance := (shapeA * shapeB) / ((shapeA + shapeB) ^ 2 * (shapeA + shapeB + 1)) }
  else none

/-- chebyshev.py:18-29. -/
noncomputable def mkChebyshev (lower upper : ℝ) : JacobiDist :=
  { lower := lower, upper := upper, shapeParameterA := -0.5, shapeParameterB := -0.5,
    mean := 0.5, variance := 1.0 / 8.0 }

/-- uniform.py, beta.py and chebyshev.py `get_recurrence_coefficients(order)`. -/
noncomputable def JacobiDist.coeffs (d : JacobiDist) (order : ℕ) : List (ℝ × ℝ) :=
  jacobiCoeffs d.shapeParameterA d.shapeParameterB d.lower d.upper order

/-- The part of a uniform, beta or Chebyshev `Parameter` that the rules read (parameter.py:64-74, 98-128); `lower` and `upper` are the
arguments of the user. -/
noncomputable def JacobiDist.ruleParam (d : JacobiDist) (lower upper : Option ℝ) : RuleParam :=
  ⟨fun order => rows (d.coeffs order), lower, upper, d.mean⟩

end EQ.Param
