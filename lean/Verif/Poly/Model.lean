import Verif.Sampling.Model

/-!
# Model of `equadratures/poly.py`

Matrices are lists of rows. A `Poly` object is split into the parts the modelled methods read:
parameters, index set (`basis.elements`), optional Gram-Schmidt correction `inv_R_Psi`,
coefficients, points and weights. A stack of points is a list of rows with one entry per
dimension (the 1-D array forms that the code reshapes to such a stack are not modelled).
-/

namespace EQ.Poly
open EQ.Param EQ.Basis EQ.Sampling

/-- What `get_poly` and its derivatives read from `self`: `parameters`, `basis.elements` and,
if the attribute exists, `inv_R_Psi` (given by its rows). -/
structure Expansion where
  params : List MParam
  elements : List (List ℕ)
  invR : Option (List (List ℝ))

/-- The number of dimensions (poly.py:677: `basis.shape[1]`, the number of parameters). -/
def Expansion.dims (B : Expansion) : ℕ := B.params.length

/-- `self.inv_R_Psi.T @ M` (poly.py:699, 755, 813) for a matrix `M` with `m` columns:
entry `(i, j)` is `Σ_k inv_R_Psi[k][i] * M[k][j]`. A mismatch of sizes raises `ValueError`. -/
def applyInvR (R : Option (List (List ℝ))) (m : ℕ) (M : List (List ℝ)) :
    Except Err (List (List ℝ)) :=
  match R with
  | none => .ok M
  | some R =>
    if R.length ≠ M.length then .error .valueError
    else .ok ((List.range M.length).map fun i => (List.range m).map fun j =>
      ((List.range M.length).map fun k => (R.getD k []).getD i 0 * (M.getD k []).getD j 0).sum)

/-- The univariate tables of dimension `k` at `x`, for degrees up to `colMax + extra`. -/
noncomputable def Expansion.tab (B : Expansion) (basis : List (List ℕ)) (extra k : ℕ)
    (x : List ℝ) : Tables :=
  orthoTables ((B.params.map MParam.ab).getD k (fun _ => (0, 0))) (colMax basis k + extra + 1)
    (x.getD k 0)

/-- poly.py:658-700 `get_poly(stack_of_points, custom_multi_index)`. An empty index set makes
`np.max` raise `ValueError`. In one dimension the table of all degrees is returned and
`inv_R_Psi` is not applied (lines 685-687). -/
noncomputable def Expansion.getPoly (B : Expansion) (custom : Option (List (List ℕ)))
    (pts : List (List ℝ)) : Except Err (List (List ℝ)) :=
  let basis := custom.getD B.elements
  if basis = [] then .error .valueError
  else if B.dims = 1 then .ok (multiPoly B.params basis 1 pts)
  else applyInvR B.invR pts.length (multiPoly B.params basis B.dims pts)

/-- `np.dot(M.T, coefficients)` (poly.py:576-578): one value per column of `M` (which has `m`
columns); a mismatch of sizes raises `ValueError`. -/
def dotT (M : List (List ℝ)) (m : ℕ) (coeffs : List ℝ) : Except Err (List ℝ) :=
  if M.length ≠ coeffs.length then .error .valueError
  else .ok ((List.range m).map fun j =>
    (List.zipWith (fun (row : List ℝ) c => row.getD j 0 * c) M coeffs).sum)

/-- poly.py:561-578 `get_polyfit(stack_of_points)` (also 643-652 `get_polyfit_function`). -/
noncomputable def Expansion.polyfit (B : Expansion) (coeffs : List ℝ) (pts : List (List ℝ)) :
    Except Err (List ℝ) :=
  match B.getPoly none pts with
  | .error e => .error e
  | .ok M => dotT M pts.length coeffs

/-- What `get_poly_grad` and `get_poly_hess` return: in one dimension the bare matrix, otherwise
a list of matrices. -/
inductive Mats where
  | bare (M : List (List ℝ))
  | many (Ms : List (List (List ℝ)))

/-- poly.py:744-752: the product with the factor of dimension `v` replaced by its derivative. -/
noncomputable def Expansion.gradMatrix (B : Expansion) (pts : List (List ℝ)) (v : ℕ) :
    List (List ℝ) :=
  B.elements.map fun row => pts.map fun x => (List.range B.dims).foldl (fun acc k =>
    if k = v then acc * (B.tab B.elements 0 k x).deriv (row.getD k 0)
    else acc * (B.tab B.elements 0 k x).poly (row.getD k 0)) 1

/-- poly.py:701-757 `get_poly_grad(stack_of_points, dim_index)`. The one-dimensional branch
ignores `dim_index` and `inv_R_Psi`. -/
noncomputable def Expansion.getPolyGrad (B : Expansion) (dimIndex : Option (List ℕ))
    (pts : List (List ℝ)) : Except Err Mats :=
  if B.elements = [] then .error .valueError
  else if B.dims = 1 then
    .ok (.bare ((List.range (colMax B.elements 0 + 1)).map fun n => pts.map fun x =>
      (B.tab B.elements 0 0 x).deriv n))
  else
    ((List.range B.dims).mapM fun v =>
      if v ∈ dimIndex.getD (List.range B.dims) then
        applyInvR B.invR pts.length (B.gradMatrix pts v)
      else .ok (B.elements.map fun _ => pts.map fun _ => (0 : ℝ))).map .many

/-- poly.py:579-602 `get_polyfit_grad`: one row of values per dimension. -/
noncomputable def Expansion.polyfitGrad (B : Expansion) (dimIndex : Option (List ℕ))
    (coeffs : List ℝ) (pts : List (List ℝ)) : Except Err (List (List ℝ)) :=
  match B.getPolyGrad dimIndex pts with
  | .error e => .error e
  | .ok (.bare H) => (dotT H pts.length coeffs).map fun r => [r]
  | .ok (.many Hs) => (List.range B.dims).mapM fun i => dotT (Hs.getD i []) pts.length coeffs

/-- poly.py:796-810: the running product of `get_poly_hess` for derivative directions `w`, `v`. -/
noncomputable def Expansion.hessMatrix (B : Expansion) (pts : List (List ℝ)) (w v : ℕ) :
    List (List ℝ) :=
  B.elements.map fun row => pts.map fun x => (List.range B.dims).foldl (fun temp k =>
    let T := B.tab B.elements 1 k x
    if k = w ∧ w = v then T.dderiv (row.getD k 0) * temp
    else if k = w then T.deriv (row.getD k 0) * temp
    else if k = v then T.deriv (row.getD k 0) * temp
    else T.poly (row.getD k 0) * temp) 1

/-- poly.py:758-816 `get_poly_hess`: the matrices for `(w, v)` in the order `w` outer, `v`
inner. -/
noncomputable def Expansion.getPolyHess (B : Expansion) (pts : List (List ℝ)) :
    Except Err Mats :=
  if B.elements = [] then .error .valueError
  else if B.dims = 1 then
    .ok (.bare ((List.range (colMax B.elements 0 + 1)).map fun n => pts.map fun x =>
      (B.tab B.elements 0 0 x).dderiv n))
  else
    (((List.range B.dims).flatMap fun w => (List.range B.dims).map fun v => (w, v)).mapM
      fun wv => applyInvR B.invR pts.length (B.hessMatrix pts wv.1 wv.2)).map .many

/-- poly.py:603-626 `get_polyfit_hess`: `hess[i][j]` is the list of values at the points. -/
noncomputable def Expansion.polyfitHess (B : Expansion) (coeffs : List ℝ) (pts : List (List ℝ)) :
    Except Err (List (List (List ℝ))) :=
  match B.getPolyHess pts with
  | .error e => .error e
  | .ok (.bare H) => (dotT H pts.length coeffs).map fun r => [[r]]
  | .ok (.many Hs) => (List.range B.dims).mapM fun i => (List.range B.dims).mapM fun j =>
      dotT (Hs.getD (i * B.dims + j) []) pts.length coeffs

/-! ## Computing coefficients -/

/-- poly.py:490-492: `A = np.dot(W, P.T)` with `W = diag(sqrt(weights))`: one row per point. -/
noncomputable def designMatrix (P : List (List ℝ)) (wts : List ℝ) : List (List ℝ) :=
  wts.zipIdx.map fun wj => P.map fun row => √wj.1 * row.getD wj.2 0

/-- poly.py:493: `b = np.dot(W, model_evaluations)`. -/
noncomputable def rhs (wts ys : List ℝ) : List ℝ := List.zipWith (fun w y => √w * y) wts ys

/-- solver.py:82-84 `orthogonal_linear_system`: `np.dot(A.T, b)`; `n` is the number of columns
of `A`. -/
def orthogonalSolve (A : List (List ℝ)) (b : List ℝ) (n : ℕ) : List ℝ :=
  (List.range n).map fun r => (List.zipWith (fun (row : List ℝ) y => row.getD r 0 * y) A b).sum

/-- poly.py:489-507 with `method='numerical-integration'` (no gradients): the coefficients for
the model values `ys` at the mesh `(pts, wts)`. -/
noncomputable def Expansion.integrate (B : Expansion) (pts : List (List ℝ)) (wts ys : List ℝ) :
    Except Err (List ℝ) :=
  match B.getPoly none pts with
  | .error e => .error e
  | .ok P => .ok (orthogonalSolve (designMatrix P wts) (rhs wts ys) P.length)

/-- `np.linalg.lstsq` as documented: the returned vector minimises `‖A x - b‖₂` (solver.py:61-66).
Squared residual of `x` for the system given by rows. -/
def sqResidual (A : List (List ℝ)) (b x : List ℝ) : ℝ :=
  (List.zipWith (fun row y => ((List.zipWith (· * ·) row x).sum - y) ^ 2) A b).sum

/-- The contract of `np.linalg.lstsq` for an `A` with `n` columns. -/
def LstsqContract (A : List (List ℝ)) (b : List ℝ) (n : ℕ) (x : List ℝ) : Prop :=
  x.length = n ∧ ∀ z : List ℝ, z.length = n → sqResidual A b x ≤ sqResidual A b z

/-! ## Gradient data -/

/-- poly.py:421-427: the loop in `set_model` that stacks the weighted gradient values; `grads`
has one row per point and `q` columns. -/
noncomputable def gradStack (wts : List ℝ) (grads : List (List ℝ)) (q : ℕ) : List ℝ :=
  (List.range q).flatMap fun j => (List.range grads.length).map fun i =>
    √(wts.getD i 0) * (grads.getD i []).getD j 0

/-- poly.py:982-996 `cell2matrix(G, W)`. For the bare matrix of the one-dimensional case `G[0]`
is a vector and unpacking its shape into `rows, cols` raises `ValueError`. -/
noncomputable def cell2matrix (G : Mats) (wts : List ℝ) : Except Err (List (List ℝ)) :=
  match G with
  | .bare _ => .error .valueError
  | .many Gs => .ok (Gs.flatMap fun Gi => designMatrix Gi wts)

/-! ## NaN handling -/

/-- poly.py:446: `np.argwhere(np.isnan(model_evaluations))[:, 0]`; `none` is NaN. -/
def nanIndices (ys : List (Option ℝ)) : List ℕ :=
  (List.range ys.length).filter fun i => (ys.getD i none).isNone

/-- `np.delete(l, idx, axis=0)` (poly.py:450-451). -/
def npDelete {α : Type} (l : List α) (idx : List ℕ) : List α :=
  (l.zipIdx.filter fun p => p.2 ∉ idx).map Prod.fst

/-- poly.py:446-460: what `_set_coefficients` fits. Result: index set, inputs and outputs of the
final linear system. Without NaN nothing changes. With NaN the pairs are deleted, the basis is
pruned if it has more terms than rows are left, and the object switches to least squares on the
remaining user-defined points; an index set that became empty makes `np.max` fail in the mesh
construction, and with `gradient_flag` the new two-argument solver is called with four arguments
(line 505), a `TypeError`. -/
def nanRefit (argsort : List ℕ → List ℕ) (d : ℕ) (gradientFlag : Bool) (s : State)
    (pts : List (List ℝ)) (ys : List (Option ℝ)) :
    Except Err (State × List (List ℝ) × List (Option ℝ)) :=
  let idx := nanIndices ys
  if idx = [] then .ok (s, pts, ys)
  else
    let inputs := npDelete pts idx
    let outputs := npDelete ys idx
    let pruned := if outputs.length < s.cardinality
      then s.prune argsort (s.cardinality - outputs.length + d) else (s, true)
    if pruned.2 = false then .error .valueError
    else if pruned.1.elements = [] then .error .valueError
    else if gradientFlag then .error .typeError
    else .ok (pruned.1, inputs, outputs)

/-! ## Cached statistics -/

/-- The public operations that touch coefficients, parameters or the statistics cache. `C` is
the type of coefficient vectors (with their index set), `P` of parameter lists. -/
inductive Op (C P : Type) where
  /-- `set_model` (poly.py:389-430) that ends with new coefficients. -/
  | setModel (c : C)
  /-- `set_model` that raises in `_set_coefficients`, after line 429 cleared the cache. -/
  | setModelRaises
  /-- `_set_coefficients(user_defined_coefficients)` (poly.py:443-445). -/
  | setCoefficients (c : C)
  /-- `_set_parameters` (poly.py:147-155). -/
  | setParameters (p : P)
  /-- any statistics query: `_set_statistics` (poly.py:300-334), then a read of the cache. -/
  | query

/-- The attributes involved. `stats` holds what the cached `Statistics` object was built from. -/
structure Obj (C P : Type) where
  coeffs : C
  params : P
  stats : Option (C × P)

/-- One operation; the second component is what the query answers for (if it is a query). -/
def Obj.step {C P : Type} (s : Obj C P) : Op C P → Obj C P × Option (C × P)
  | .setModel c => ({ s with stats := none, coeffs := c }, none)
  | .setModelRaises => ({ s with stats := none }, none)
  | .setCoefficients c => ({ s with coeffs := c }, none)
  | .setParameters p => ({ s with params := p }, none)
  | .query =>
    match s.stats with
    | none => ({ s with stats := some (s.coeffs, s.params) }, some (s.coeffs, s.params))
    | some t => (s, some t)

/-- A sequence of operations: the final object. -/
def Obj.run {C P : Type} (s : Obj C P) (ops : List (Op C P)) : Obj C P :=
  ops.foldl (fun s o => (s.step o).1) s

/-! ## `vector_to_2D_grid` -/

/-- Writing one cell of a grid. -/
def setCell (z : List (List (Option ℝ))) (i j : ℕ) (c : ℝ) : List (List (Option ℝ)) :=
  z.modify i fun row => row.set j (some c)

/-- poly.py:956-981 `vector_to_2D_grid`: the grid `z` (NaN is `none`) and `max_order`. The fancy
assignment writes the coefficients in order; one coefficient is broadcast to all rows, any other
mismatch of lengths raises `ValueError`, as does an empty index set. -/
def vectorTo2DGrid (coeffs : List ℝ) (indexSet : List (List ℕ)) :
    Except Err (List (List (Option ℝ)) × ℕ) :=
  if indexSet = [] then .error .valueError
  else
    let maxOrder := indexSet.flatten.foldl max 0 + 1
    let z0 := List.replicate maxOrder (List.replicate maxOrder none)
    let cs := if coeffs.length = 1 then List.replicate indexSet.length (coeffs.getD 0 0) else coeffs
    if cs.length ≠ indexSet.length then .error .valueError
    else .ok ((List.zip indexSet cs).foldl
      (fun z rc => setCell z (rc.1.getD 0 0) (rc.1.getD 1 0) rc.2) z0, maxOrder)

end EQ.Poly
