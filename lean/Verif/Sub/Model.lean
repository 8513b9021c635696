import Verif.Basis.Model
import Mathlib.Analysis.Real.Sqrt
import Mathlib.Data.Real.Sign
import Mathlib.Data.EReal.Basic
import Mathlib.LinearAlgebra.Matrix.Trace
import Mathlib.LinearAlgebra.Matrix.DotProduct
import Mathlib.Data.List.Dedup
import Mathlib.Data.Matrix.ColumnRowPartitioned
import Mathlib.Analysis.CStarAlgebra.Matrix

/-!
# Model of `equadratures/subspaces.py`: zonotopes, hit-and-run sampling, active subspaces

Arithmetic is exact. The eigen-decomposition, the linear program and the random draws are arguments;
what the documentation of numpy and scipy promises about them is a hypothesis of the theorems.
-/

namespace EQ.Sub
open EQ.Basis Matrix

/-! ## Zonotopes -/

/-- subspaces.py:325-339 `get_zonotope_vertices` for one active direction: the pair `yl, yu`. -/
noncomputable def zonotope1 {m : ℕ} (W : Fin m → ℝ) : ℝ × ℝ :=
  let y0 := ∑ i, W i * Real.sign (W i)
  if y0 < -y0 then (y0, -y0) else (-y0, y0)

/-- A value of `np.sign`, or its negative. The two zeros are equal numbers with different bytes, and
`get_unique_rows` compares bytes. -/
inductive Sgn
  | neg | negZero | zero | pos
  deriving DecidableEq

/-- The number a `Sgn` stands for. -/
def Sgn.val : Sgn → ℝ
  | .neg => -1
  | .negZero => 0
  | .zero => 0
  | .pos => 1

/-- The negative of a floating point number flips its sign bit. -/
def Sgn.flip : Sgn → Sgn
  | .neg => .pos
  | .negZero => .zero
  | .zero => .negZero
  | .pos => .neg

/-- `np.sign`; for either zero it returns `+0`. -/
noncomputable def npSign (x : ℝ) : Sgn := if x > 0 then .pos else if x < 0 then .neg else .zero

/-- The row `np.sign(np.dot(z, W.transpose()))` (subspaces.py:347, 354). -/
noncomputable def signRow {m n : ℕ} (W : Matrix (Fin m) (Fin n) ℝ) (z : Fin n → ℝ) : Fin m → Sgn :=
  fun i => npSign (∑ k, z k * W i k)

/-- subspaces.py:599-601 `get_unique_rows` (`np.unique` also sorts the rows by their bytes; the order is
not modelled). -/
def uniqueRows {m : ℕ} (X : List (Fin m → Sgn)) : List (Fin m → Sgn) := X.dedup

/-- subspaces.py:347-348, 354-355: the sign rows of a batch of directions and their negatives. -/
noncomputable def signBatch {m n : ℕ} (W : Matrix (Fin m) (Fin n) ℝ) (Z : List (Fin n → ℝ)) : List (Fin m → Sgn) :=
  let X := uniqueRows (Z.map (signRow W))
  uniqueRows (X ++ X.map fun x i => (x i).flip)

/-- subspaces.py:341-344: the number of vertices expected. -/
def totalVertices (m n : ℕ) : ℕ := 2 * ((List.range n).map fun i => (m - 1).choose i).sum

/-- subspaces.py:351-360: the loop that draws more directions; it is left after `left` passes. -/
noncomputable def zonotopeLoop {m n : ℕ} (W : Matrix (Fin m) (Fin n) ℝ) (draw : ℕ → List (Fin n → ℝ)) :
    ℕ → ℕ → List (Fin m → Sgn) → List (Fin m → Sgn)
  | 0, _, X => X
  | left + 1, count, X =>
    if X.length < totalVertices m n then
      zonotopeLoop W draw left (count + 1) (uniqueRows (X ++ signBatch W (draw (count + 1))))
    else X

/-- subspaces.py:346-360 `get_zonotope_vertices` for more than one active direction: the rows `X`.
`draw 0` is the first batch of directions, `draw k` that of pass `k` of the loop. The loop is left in
pass `max_count + 1` at the latest. -/
noncomputable def zonotopeSigns {m n : ℕ} (W : Matrix (Fin m) (Fin n) ℝ) (draw : ℕ → List (Fin n → ℝ))
    (maxCount : ℕ) : List (Fin m → Sgn) :=
  zonotopeLoop W draw (maxCount + 1) 0 (signBatch W (draw 0))

/-- subspaces.py:366-368: the vertices `Y = X W`. -/
noncomputable def zonotopeVertices {m n : ℕ} (W : Matrix (Fin m) (Fin n) ℝ) (draw : ℕ → List (Fin n → ℝ))
    (maxCount : ℕ) : List (Fin n → ℝ) :=
  (zonotopeSigns W draw maxCount).map fun x k => ∑ i, (x i).val * W i k

/-- subspaces.py:384-387 `get_linear_inequalities` for one active direction: the two rows `(a, b)` of
`A y ≤ b`, with `Y` the pair of end points. -/
noncomputable def linearInequalities1 (Y : ℝ × ℝ) : List (ℝ × ℝ) :=
  [(1, max Y.1 Y.2), (-1, min Y.1 Y.2)]

/-- subspaces.py:388-392 `get_linear_inequalities` for more active directions: the rows `(a, b)`, from the
rows of `ConvexHull(Y).equations` (normal and offset). -/
def linearInequalities {n : ℕ} (equations : List ((Fin n → ℝ) × ℝ)) : List ((Fin n → ℝ) × ℝ) :=
  equations.map fun e => (e.1, -e.2)

/-! ## Hit and run -/

/-- The arguments of `linprog`: `min c x` subject to `Aub x ≤ bub`, without bounds on `x`. -/
structure LP (k r : ℕ) where
  c : Fin r → ℝ
  Aub : Fin k → Fin r → ℝ
  bub : Fin k → ℝ

/-- subspaces.py:582-598 `linear_program_ineq(c, A, b)`: the call of `linprog`; an exception is raised if
it does not succeed. -/
def linearProgramIneq {k r : ℕ} (linprog : ∀ {k r : ℕ}, LP k r → Option (Fin r → ℝ)) (c : Fin r → ℝ)
    (A : Fin k → Fin r → ℝ) (b : Fin k → ℝ) : Except Err (Fin r → ℝ) :=
  match linprog ⟨c, fun i j => -A i j, fun i => -b i⟩ with
  | some x => .ok x
  | none => .error .exception

variable {n r : ℕ}

/-- `self._subspace[:, :n]` (subspaces.py:417). -/
def W1 (W : Matrix (Fin (n + r)) (Fin (n + r)) ℝ) : Matrix (Fin (n + r)) (Fin n) ℝ :=
  fun i k => W i (Fin.castAdd r k)

/-- `self._subspace[:, n:]` (subspaces.py:418). -/
def W2 (W : Matrix (Fin (n + r)) (Fin (n + r)) ℝ) : Matrix (Fin (n + r)) (Fin r) ℝ :=
  fun i k => W i (Fin.natAdd n k)

/-- subspaces.py:421, 433: `s`. -/
def shift (W : Matrix (Fin (n + r)) (Fin (n + r)) ℝ) (y : Fin n → ℝ) : Fin (n + r) → ℝ := W1 W *ᵥ y

/-- subspaces.py:421-430: the starting point, from the linear program for the largest ball. -/
noncomputable def startPoint (linprog : ∀ {k r : ℕ}, LP k r → Option (Fin r → ℝ))
    (W : Matrix (Fin (n + r)) (Fin (n + r)) ℝ) (y : Fin n → ℝ) : Except Err (Fin r → ℝ) :=
  let s := shift W y
  let normW2 : Fin (n + r) → ℝ := fun i => √(∑ k, W2 W i k ^ 2)
  let A : Fin ((n + r) + (n + r)) → Fin (r + 1) → ℝ :=
    Fin.addCases (fun i => Fin.lastCases (normW2 i) (W2 W i)) (fun i => Fin.lastCases (normW2 i) fun k => -W2 W i k)
  let b : Fin ((n + r) + (n + r)) → ℝ := Fin.addCases (fun i => 1 - s i) (fun i => 1 + s i)
  let c : Fin (r + 1) → ℝ := Fin.lastCases (-1) fun _ => 0
  match linearProgramIneq linprog c (fun i j => -A i j) (fun i => -b i) with
  | .error e => .error e
  | .ok zc => .ok fun k => zc k.castSucc

/-- subspaces.py:434: the matrix of the constraints `A z ≥ b`. -/
def polyA (W : Matrix (Fin (n + r)) (Fin (n + r)) ℝ) : Fin ((n + r) + (n + r)) → Fin r → ℝ :=
  Fin.addCases (fun i => W2 W i) (fun i k => -W2 W i k)

/-- subspaces.py:435: the right-hand side. -/
def polyB (W : Matrix (Fin (n + r)) (Fin (n + r)) ℝ) (y : Fin n → ℝ) : Fin ((n + r) + (n + r)) → ℝ :=
  Fin.addCases (fun i => -1 - shift W y i) (fun i => -1 + shift W y i)

/-- `np.dot(A, z)`. -/
def dotA {k : ℕ} (A : Fin k → Fin r → ℝ) (z : Fin r → ℝ) (i : Fin k) : ℝ := ∑ j, A i j * z j

open Classical in
/-- subspaces.py:437-454: the directions are tried until one is not bad; in the 50th attempt the search
ends whatever the direction, so at most 49 count. -/
noncomputable def findDirection {k : ℕ} (A : Fin k → Fin r → ℝ) (b : Fin k → ℝ) (z0 : Fin r → ℝ)
    (draw : ℕ → Fin r → ℝ) : Option (Fin r → ℝ) :=
  ((List.range 49).map draw).find? fun d =>
    decide (¬ ∃ i, dotA A (fun j => z0 j + 1/10^6/4 * d j) i ≤ b i)

/-- subspaces.py:459-461: the limits that bound a step from above; `f/0` with `f < 0` is `-inf`. -/
noncomputable def upperLimits {k : ℕ} (f g : Fin k → ℝ) : List EReal :=
  (List.finRange k).filterMap fun i =>
    if g i ≤ 0 ∧ f i < -(1/2^26) then some (if g i = 0 then ⊥ else ((f i / g i : ℝ) : EReal)) else none

/-- subspaces.py:463-465: the limits that bound a step from below. -/
noncomputable def lowerLimits {k : ℕ} (f g : Fin k → ℝ) : List ℝ :=
  (List.finRange k).filterMap fun i => if g i > 0 ∧ f i < -(1/2^26) then some (f i / g i) else none

/-- `np.amin`; `ValueError` for an empty array. -/
noncomputable def amin {α : Type} [LinearOrder α] : List α → Except Err α
  | [] => .error .valueError
  | a :: l => .ok (l.foldl min a)

/-- `np.amax`. -/
noncomputable def amax {α : Type} [LinearOrder α] : List α → Except Err α
  | [] => .error .valueError
  | a :: l => .ok (l.foldl max a)

/-- `np.random.uniform(lo, hi)` as a function of a draw `u` from the unit interval; an infinite limit raises
`OverflowError`. -/
noncomputable def uniform (lo : ℝ) (hi : EReal) (u : ℝ) : Except Err ℝ :=
  if hi = ⊥ ∨ hi = ⊤ then .error .overflowError else .ok (lo + u * (hi.toReal - lo))

/-- subspaces.py:456-471: one step along `d`. -/
noncomputable def hitStep {k : ℕ} (A : Fin k → Fin r → ℝ) (b : Fin k → ℝ) (z0 d : Fin r → ℝ) (u : ℝ) :
    Except Err (Fin r → ℝ) :=
  let f := fun i => b i - dotA A z0 i
  let g := fun i => dotA A d i
  match amin (upperLimits f g) with
  | .error e => .error e
  | .ok hi =>
    match amax (lowerLimits f g) with
    | .error e => .error e
    | .ok lo =>
      match uniform lo hi u with
      | .error e => .error e
      | .ok eps => .ok fun j => z0 j + eps * d j

/-- subspaces.py:441-475: the loop; `draw i k` is the `k`-th direction drawn for sample `i`, `u i` the
uniform draw. If no direction is found the rest is filled with the current point. -/
noncomputable def hitLoop {k : ℕ} (A : Fin k → Fin r → ℝ) (b : Fin k → ℝ) (draw : ℕ → ℕ → Fin r → ℝ)
    (u : ℕ → ℝ) : ℕ → ℕ → (Fin r → ℝ) → Except Err (List (Fin r → ℝ))
  | 0, _, _ => .ok []
  | left + 1, i, z0 =>
    match findDirection A b z0 (draw i) with
    | none => .ok (List.replicate (left + 1) z0)
    | some d =>
      match hitStep A b z0 d (u i) with
      | .error e => .error e
      | .ok z1 =>
        match hitLoop A b draw u left (i + 1) z1 with
        | .error e => .error e
        | .ok Z => .ok (z1 :: Z)

/-- subspaces.py:453-454, 477-478: `np.dot(self._subspace, yz).T`. -/
def liftPoint (W : Matrix (Fin (n + r)) (Fin (n + r)) ℝ) (y : Fin n → ℝ) (z : Fin r → ℝ) : Fin (n + r) → ℝ :=
  W *ᵥ Fin.addCases y z

/-- subspaces.py:393-478 `get_samples_constraining_active_coordinates`. -/
noncomputable def hitAndRun (linprog : ∀ {k r : ℕ}, LP k r → Option (Fin r → ℝ))
    (W : Matrix (Fin (n + r)) (Fin (n + r)) ℝ) (N : ℕ) (y : Fin n → ℝ) (draw : ℕ → ℕ → Fin r → ℝ) (u : ℕ → ℝ) :
    Except Err (List (Fin (n + r) → ℝ)) :=
  match startPoint linprog W y with
  | .error e => .error e
  | .ok z0 =>
    match hitLoop (polyA W) (polyB W y) draw u N 0 z0 with
    | .error e => .error e
    | .ok Z => .ok (Z.map (liftPoint W y))

/-! ## Active subspaces -/

/-- subspaces.py:147-150: the matrix `C` from the gradients (`polygrad`, one column per point). -/
noncomputable def gradientCovariance {d M : ℕ} (polygrad : Matrix (Fin d) (Fin M) ℝ) : Matrix (Fin d) (Fin d) ℝ :=
  let R : Matrix (Fin M) (Fin d) ℝ := Matrix.of fun k i => polygradᵀ k i * (1 / M)
  polygrad * R

/-- subspaces.py:152-156, 170-176: the eigenvalues and the directions kept; `e, W` are what `eigh` returns
for `C`, `idx` what `argsort` returns for `e`. -/
def activeSubspace {d : ℕ} (e : Fin d → ℝ) (W : Matrix (Fin d) (Fin d) ℝ) (idx : Fin d → Fin d) :
    (Fin d → ℝ) × Matrix (Fin d) (Fin d) ℝ :=
  (fun k => e (idx k.rev), fun i k => W i (idx k.rev))

/-- subspaces.py:570-576 `jacobian_vec`: `J[p, :, :]` is the gradient matrix of output `p`. -/
def jacobianVec {m d N : ℕ} (grads : Fin m → Matrix (Fin d) (Fin N) ℝ) : Fin m → Fin d → Fin N → ℝ :=
  fun p i k => grads p i k

/-- subspaces.py:510-512: the matrix `H` of `vector_AS`; `S` is `sqrtm(R)`. -/
noncomputable def vectorCovariance {m d N : ℕ} (S : Matrix (Fin m) (Fin m) ℝ) (J : Fin m → Fin d → Fin N → ℝ) :
    Matrix (Fin d) (Fin d) ℝ :=
  let Jnew : Fin N → Matrix (Fin m) (Fin d) ℝ := fun k => S * Matrix.of fun p i => J p i k
  fun a b => (∑ k, ((Jnew k)ᵀ * Jnew k) a b) / N

/-- subspaces.py:516-518: `np.flipud(e)`, `np.fliplr(W)`. -/
def flipped {d : ℕ} (e : Fin d → ℝ) (W : Matrix (Fin d) (Fin d) ℝ) : (Fin d → ℝ) × Matrix (Fin d) (Fin d) ℝ :=
  (fun k => e k.rev, fun i k => W i k.rev)

/-- subspaces.py:479-541 `vector_AS` without bootstrap; `J` is what `jacobian_vec` returns for the samples, `eigh` and
`sqrtm` are arguments. Without samples the method `getSamples` is looked up, which `Parameter` does not have. The
dimensions are positive. -/
noncomputable def vectorAS {m d N : ℕ} (eigh : Matrix (Fin d) (Fin d) ℝ → (Fin d → ℝ) × Matrix (Fin d) (Fin d) ℝ)
    (sqrtm : Matrix (Fin m) (Fin m) ℝ → Matrix (Fin m) (Fin m) ℝ) (R : Option (Matrix (Fin m) (Fin m) ℝ))
    (grads : Option (Fin m → Matrix (Fin d) (Fin N) ℝ)) : Except Err ((Fin d → ℝ) × Matrix (Fin d) (Fin d) ℝ) :=
  match grads with
  | none => .error .attributeError
  | some g =>
    let (e, W) := eigh (vectorCovariance (sqrtm (R.getD 1)) (jacobianVec g))
    .ok (flipped e W)

open scoped Matrix.Norms.L2Operator in
/-- subspaces.py:577-581 `subspace_dist`: the spectral norm of the difference of `U Uᵀ` and `V Vᵀ` (a vector is treated as a
matrix with one column). -/
noncomputable def subspaceDist {m j k : ℕ} (U : Matrix (Fin m) (Fin j) ℝ) (V : Matrix (Fin m) (Fin k) ℝ) : ℝ :=
  ‖U * Uᵀ - V * Vᵀ‖

/-! ## Variable projection -/

/-- What one run of variable projection works with. -/
structure VP (m n : ℕ) where
  /-- `scipy.linalg.orth` -/
  orth : Matrix (Fin m) (Fin n) ℝ → Matrix (Fin m) (Fin n) ℝ
  /-- norm of the residual of the least squares fit over the projected points (subspaces.py:205-217, 261-270) -/
  resid : Matrix (Fin m) (Fin n) ℝ → ℝ
  /-- the matrix `G` (subspaces.py:222-227) -/
  G : Matrix (Fin m) (Fin n) ℝ → Matrix (Fin m) (Fin n) ℝ
  /-- the Gauss-Newton step (subspaces.py:229-236) -/
  newton : Matrix (Fin m) (Fin n) ℝ → Matrix (Fin m) (Fin n) ℝ
  /-- the curve through `U` in direction `delta` (subspaces.py:251-258), before `orth` -/
  curve : Matrix (Fin m) (Fin n) ℝ → Matrix (Fin m) (Fin n) ℝ → ℝ → Matrix (Fin m) (Fin n) ℝ

/-- `np.dot` of the two matrices as vectors. -/
def vdot {m n : ℕ} (A B : Matrix (Fin m) (Fin n) ℝ) : ℝ := ∑ i, ∑ k, A i k * B i k

/-- subspaces.py:238-249: the direction and its slope `alpha`. -/
noncomputable def VP.direction {m n : ℕ} (v : VP m n) (U : Matrix (Fin m) (Fin n) ℝ) : Matrix (Fin m) (Fin n) ℝ × ℝ :=
  let delta := v.newton U
  let alpha := vdot (v.G U) delta
  if alpha ≥ 0 then (-v.G U, -vdot (v.G U) (v.G U)) else (delta, alpha)

/-- subspaces.py:256-274: the line search; `left + 1` tries remain, the last one is used whatever it yields. The constants are
`gamma = 0.1` and `beta = 1e-4`, which the constructor always uses (subspaces.py:74, 193-196). -/
noncomputable def VP.lineSearch {m n : ℕ} (v : VP m n) (U delta : Matrix (Fin m) (Fin n) ℝ) (alpha : ℝ) :
    ℕ → ℝ → Matrix (Fin m) (Fin n) ℝ
  | 0, t => v.orth (v.curve U delta t)
  | left + 1, t =>
    let Unew := v.orth (v.curve U delta t)
    if v.resid Unew ≤ v.resid U + alpha * (1/10^4) * t ∨ t < 1/10^10 then Unew
    else v.lineSearch U delta alpha left (t * (1/10))

/-- subspaces.py:220-281: one iteration. -/
noncomputable def VP.step {m n : ℕ} (v : VP m n) (U : Matrix (Fin m) (Fin n) ℝ) : Matrix (Fin m) (Fin n) ℝ :=
  v.lineSearch U (v.direction U).1 (v.direction U).2 19 1

/-- subspaces.py:220-285: the iterations. -/
noncomputable def VP.iterate {m n : ℕ} (v : VP m n) (tol : ℝ) : ℕ → Matrix (Fin m) (Fin n) ℝ → Matrix (Fin m) (Fin n) ℝ
  | 0, U => U
  | left + 1, U =>
    let Unew := v.step U
    if subspaceDist U Unew < tol then Unew else v.iterate tol left Unew

/-- subspaces.py:197-290 `_get_variable_projection`: `init` is `U` after lines 198-202. With `max_iter = 0` the name
`iteration` in line 286 is not bound. -/
noncomputable def VP.run {m n r : ℕ} (v : VP m n) (nullSpace : Matrix (Fin m) (Fin n) ℝ → Matrix (Fin m) (Fin r) ℝ) (tol : ℝ)
    (maxiter : ℕ) (init : Matrix (Fin m) (Fin n) ℝ) : Except Err (Matrix (Fin m) (Fin n ⊕ Fin r) ℝ) :=
  if maxiter = 0 then .error .unboundLocalError
  else
    let U := v.iterate tol maxiter init
    .ok (Matrix.fromCols U (nullSpace U))

end EQ.Sub
