import Verif.Param.Model
import Verif.Basis.Model

/-!
# Model of `equadratures/sampling_methods/*.py`, `quadrature.py`, `subsampling.py`

Arrays of points are lists of rows (`List (List ℝ)`), arrays of weights are lists. Points and
weights are kept in two separate lists, as in the code, so that a mismatch of their orders is
expressible. Reads `l.getD i 0` model array reads; the shapes required for them to be in range
are hypotheses of the theorems.
-/

namespace EQ.Sampling
open EQ.Param EQ.Basis

/-! ## Univariate rules -/

/-- The pair `p, w` returned by `_get_local_quadrature` (parameter.py:338-358). -/
structure LocalRule where
  pts : List ℝ
  wts : List ℝ

/-- What the multivariate code reads from a `Parameter`: its recurrence coefficients, its
bounds and mean, and what `eigh`/`argsort` return for its Jacobi matrices (`n` is the number
of points minus one). `endpoints` is `None`. -/
structure MParam where
  ab : Table
  lower : Option ℝ
  upper : Option ℝ
  mean : ℝ
  eigD : (n : ℕ) → Fin (n + 1) → ℝ
  eigV : (n : ℕ) → Matrix (Fin (n + 1)) (Fin (n + 1)) ℝ
  argsort : (n : ℕ) → Equiv.Perm (Fin (n + 1))

/-- parameter.py:360-400 `get_local_quadrature(order)`: `order + 1` points; the one-point
branch when `order = 0`. -/
noncomputable def MParam.localRule (P : MParam) (order : ℕ) : LocalRule :=
  if order = 0 then
    let r := onePointRule P.lower P.upper P.mean
    ⟨[r.1], [r.2]⟩
  else
    let R := quadratureOfEigh P.ab (P.eigD order) (P.eigV order) (P.argsort order)
    ⟨List.ofFn R.p, List.ofFn R.w⟩

/-! ## `Tensorgrid` -/

/-- tensorgrid.py:40: `np.kron(ww, local_weights)` for two vectors. -/
def kronWeights (ww lw : List ℝ) : List ℝ := ww.flatMap fun w => lw.map fun l => w * l

/-- tensorgrid.py:43-45: `np.kron(pp, ones((n, 1)))`: every row repeated `n` times. -/
def leftSide (pp : List (List ℝ)) (n : ℕ) : List (List ℝ) :=
  pp.flatMap fun row => List.replicate n row

/-- tensorgrid.py:44, 46: `np.kron(ones((m, 1)), local_points)`: the points tiled `m` times. -/
def rightSide (m : ℕ) (lp : List ℝ) : List ℝ := (List.replicate m lp).flatten

/-- tensorgrid.py:36-47: one pass of the loop over the dimensions. -/
def tensorStep (acc : List (List ℝ) × List ℝ) (r : LocalRule) : List (List ℝ) × List ℝ :=
  let left := leftSide acc.1 r.pts.length
  let right := rightSide acc.1.length r.pts
  (List.zipWith (fun row x => row ++ [x]) left right, kronWeights acc.2 r.wts)

/-- tensorgrid.py:19-52 `_set_points`, given the univariate rules. The dummy first column that
`pp[:,1::]` drops is left out from the start; with no dimension `pp` is still a Python list and
the slice raises `TypeError`. -/
def tensorGrid (rules : List LocalRule) : Except Err (List (List ℝ) × List ℝ) :=
  match rules with
  | [] => .error .typeError
  | r :: rs => .ok ((r :: rs).foldl tensorStep ([[]], [1.0]))

/-- tensorgrid.py:32-39: the rules of the parameters for the given orders. -/
noncomputable def localRules (params : List MParam) (orders : List ℕ) : List LocalRule :=
  List.zipWith (fun P o => P.localRule o) params orders

/-! ## Multivariate basis functions -/

/-- `int(np.max(basis[:, i]))` (sampling_template.py:65, poly.py:689). -/
def colMax (basis : List (List ℕ)) (i : ℕ) : ℕ := (basis.map fun row => row.getD i 0).foldl max 0

/-- sampling_template.py:60-75 and poly.py:682-698 (without `inv_R_Psi`): the matrix
`(basis_entries, no_of_points)` of basis function values. With one dimension the table of
*all* degrees `0 .. max(basis)` is returned; otherwise each entry is the product, over the
dimensions in order, of the univariate table of order `colMax` read at the row's entry.
`params` has one entry per dimension. -/
noncomputable def multiPoly (params : List MParam) (basis : List (List ℕ)) (dims : ℕ)
    (pts : List (List ℝ)) : List (List ℝ) :=
  let tab := fun (k : ℕ) (x : List ℝ) =>
    orthoTables ((params.map MParam.ab).getD k (fun _ => (0, 0))) (colMax basis k + 1) (x.getD k 0)
  if dims = 1 then
    (List.range (colMax basis 0 + 1)).map fun n => pts.map fun x => (tab 0 x).poly n
  else
    basis.map fun row => pts.map fun x =>
      (List.range dims).foldl (fun acc k => acc * (tab k x).poly (row.getD k 0)) 1

/-! ## Weights of sampled meshes -/

/-- `np.sum(P**2, 0)` (sampling_template.py:19): for every point the sum of squares down the
column of `P`. -/
noncomputable def columnSquares (P : List (List ℝ)) (m : ℕ) : List ℝ :=
  (List.range m).map fun j => (P.map fun row => row.getD j 0 ^ 2).sum

/-- sampling_template.py:17-20 `_set_weights`, used by `Montecarlo` and `Userdefined`. -/
noncomputable def sampleWeights (P : List (List ℝ)) (m : ℕ) : List ℝ :=
  let wts := (columnSquares P m).map fun s => 1.0 / s
  wts.map fun w => w * 1.0 / wts.sum

/-- induced.py:43-46 `__set_weights`: `basis_entries / samples_number / wts`. -/
noncomputable def inducedWeights (P : List (List ℝ)) (entries samples : ℕ) : List ℝ :=
  (columnSquares P samples).map fun s => (entries : ℝ) / samples / s

/-! ## `Sparsegrid` -/

/-- Lexicographic comparison of rows, the order in which `np.unique(axis=0)` lists rows. -/
def RowLe : List ℝ → List ℝ → Prop
  | [], _ => True
  | _ :: _, [] => False
  | x :: xs, y :: ys => x < y ∨ (x = y ∧ RowLe xs ys)

open Classical in
/-- Positions of the first occurrences of the distinct rows. -/
noncomputable def firstPositions (rows : List (List ℝ)) : List ℕ :=
  (List.range rows.length).filter fun i => rows.getD i [] ∉ rows.take i

open Classical in
/-- `np.unique(rows, axis=0, return_index=True)`: the positions of the first occurrences,
ordered by the rows they point to (sparsegrid.py:62). -/
noncomputable def uniqueIndex (rows : List (List ℝ)) : List ℕ :=
  (firstPositions rows).mergeSort fun i j => RowLe (rows.getD i []) (rows.getD j [])

/-- sparsegrid.py:38-61: the points of all tensor grids one below the other, and their weights
times the combination coefficients. (`indices[i]` is the cardinality of a `tensor-grid` basis
with these orders, which is the number of points of the grid.) -/
noncomputable def sparseStack (params : List MParam) (orders : List (List ℕ)) (factors : List ℚ) :
    Except Err (List (List ℝ) × List ℝ) := do
  let grids ← orders.mapM fun o => tensorGrid (localRules params o)
  return ((grids.map Prod.fst).flatten,
    (List.zipWith (fun g (a : ℚ) => g.2.map fun w => w * (a : ℝ)) grids factors).flatten)

/-- sparsegrid.py:62-63: `self.points, indices = np.unique(points_saved, ...)`,
`self.weights = weights_saved[indices]`. -/
noncomputable def sparseMesh (stack : List (List ℝ) × List ℝ) : List (List ℝ) × List ℝ :=
  let idx := uniqueIndex stack.1
  (idx.map fun i => stack.1.getD i [], idx.map fun i => stack.2.getD i 0)

/-- sparsegrid.py:19-65 `_set_sparsegrid_quadrature_rule`. -/
noncomputable def sparseGridMesh (params : List MParam) (level : ℕ) (g : Growth) :
    Except Err (List (List ℝ) × List ℝ) := do
  let (orders, factors, _) ← sparseGridBasis level g params.length
  let stack ← sparseStack params orders factors
  return sparseMesh stack

/-! ## Subsampling -/

/-- subsampling.py:33-50: QR and SVD subset selection: the first `k` entries of the pivot
vector (`pvec` is whatever `scipy.linalg.qr(.., pivoting=True)` returns). -/
def takePivots (pvec : List ℕ) (k : ℕ) : List ℕ := pvec.take k

/-- subsampling.py:51-58 `get_lu_row_pivoting`: `np.where(P==1)[1][:k]`, the column numbers of
the ones of `P` in row-major order. `P` is given by its rows. -/
noncomputable def luPivots (P : List (List ℝ)) (k : ℕ) : List ℕ :=
  open Classical in
  (P.flatMap fun row => (List.range row.length).filter fun j => row.getD j 0 = 1).take k

/-- subsampling.py:137-151, `_find` and `_binary2indices` (153-182): the final selection of the
Newton method for the relaxed solution `z`: positions with `z > thres`, where `thres` is the
entry `m - k - 1` of the sorted `z`. `k < m` is required (for `k = m` the relaxed start has
`1 - z = 0` and the code divides by zero). -/
noncomputable def newtonSelect (z : List ℝ) (k : ℕ) : List ℕ :=
  open Classical in
  let zsort := z.mergeSort (fun a b => a ≤ b)
  let thres := zsort.getD (z.length - k - 1) 0
  (List.range z.length).filter fun i => z.getD i 0 > thres

/-- poly.py:253-254: the rows `z` of the mesh and their weights divided by their sum. -/
noncomputable def subsample (pts : List (List ℝ)) (wts : List ℝ) (z : List ℕ) :
    List (List ℝ) × List ℝ :=
  let ws := z.map fun i => wts.getD i 0
  (z.map fun i => pts.getD i [], ws.map fun w => w / ws.sum)

/-! ## `Induced` -/

/-- induced.py:78: `np.repeat(index_set, ratio, axis=0)`. -/
def repeatRows (I : List (List ℕ)) (ratio : ℕ) : List (List ℕ) :=
  I.flatMap fun row => List.replicate ratio row

/-- induced.py:120-137 `_additive_mixture_sampling` before scaling. For each order from `0` to
`maxOrder` the positions of the index set that hold this order are overwritten with the
inverse induced CDF of the random numbers at these positions. The assignment is inside
`if ray_imported` (line 134-136). `invCdf order u` stands for the root solve at 289-320. -/
noncomputable def inducedRaw (ray : Bool) (invCdf : ℕ → ℝ → ℝ) (index : List (List ℕ))
    (u : List (List ℝ)) (maxOrder : ℕ) : List (List ℝ) :=
  (List.range (maxOrder + 1)).foldl (fun Q order =>
      if ray then
        Q.zipIdx.map fun q => q.1.zipIdx.map fun c =>
          if (index.getD q.2 []).getD c.2 0 = order then invCdf order ((u.getD q.2 []).getD c.2 0)
          else c.1
      else Q)
    (index.map fun row => row.map fun _ => 0)

/-- induced.py:141-166 `_scale_support`: `scaling * point + mean` per column. -/
noncomputable def scaleSupport (scal means : List ℝ) (Q : List (List ℝ)) : List (List ℝ) :=
  Q.map fun row => row.zipIdx.map fun c => scal.getD c.2 0 * c.1 + means.getD c.2 0

/-- induced.py:48-92 `_set_points`. -/
noncomputable def inducedPoints (ray : Bool) (invCdf : ℕ → ℝ → ℝ) (I : List (List ℕ))
    (ratio : ℕ) (u : List (List ℝ)) (maxOrder : ℕ) (scal means : List ℝ) : List (List ℝ) :=
  scaleSupport scal means (inducedRaw ray invCdf (repeatRows I ratio) u maxOrder)

end EQ.Sampling
