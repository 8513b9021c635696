import Verif.Poly.Model

/-!
# Model of the sparse-grid branch of `_set_coefficients` (`equadratures/poly.py`)
-/

namespace EQ.Poly
open EQ.Param EQ.Basis EQ.Sampling

/-- One entry of `quadrature.list` (sparsegrid.py:43-46): the points, weights and `basis.elements` of a tensor grid. -/
structure Tensor where
  pts : List (List ℝ)
  wts : List ℝ
  elements : List (List ℕ)

/-- sparsegrid.py:43-45 with tensorgrid.py:14-17: the tensor grid with the given orders. -/
noncomputable def mkTensor (params : List MParam) (orders : List ℕ) : Except Err Tensor :=
  match tensorGridBasis orders, tensorGrid (localRules params orders) with
  | .ok E, .ok (p, w) => .ok ⟨p, w, E⟩
  | .error e, _ => .error e
  | _, .error e => .error e

open Classical in
/-- poly.py:470-471: `np.unique(np.vstack([tensor.points, self._quadrature_points]), axis=0, return_counts=True)` and the
positions whose count is two. -/
noncomputable def sharedPositions (tpts qpts : List (List ℝ)) : List ℕ :=
  let rows := tpts ++ qpts
  let u := uniqueIndex rows
  (List.range u.length).filter fun i => rows.count (rows.getD (u.getD i 0) []) = 2

/-- poly.py:467-474: the coefficients of one tensor grid, times its combination coefficient. `ys` are the model evaluations at
the points of the whole mesh. A mismatch of sizes in `np.dot(W, ...)` raises `ValueError`. -/
noncomputable def tensorCoefficients (B : Expansion) (qpts : List (List ℝ)) (ys : List ℝ) (t : Tensor) (factor : ℚ) :
    Except Err (List ℝ) :=
  match B.getPoly (some t.elements) t.pts with
  | .error e => .error e
  | .ok P =>
    let b := (sharedPositions t.pts qpts).map fun i => ys.getD i 0
    if b.length ≠ t.wts.length then .error .valueError
    else .ok ((orthogonalSolve (designMatrix P t.wts) (rhs t.wts b) P.length).map fun c => c * (factor : ℝ))

/-- poly.py:463-478: the loop over the tensor grids; the newest block is stacked on top. -/
noncomputable def sparseBlocks (B : Expansion) (qpts : List (List ℝ)) (ys : List ℝ) :
    List (Tensor × ℚ) → List ℝ × List (List ℕ) → Except Err (List ℝ × List (List ℕ))
  | [], acc => .ok acc
  | (t, a) :: ts, acc =>
    match tensorCoefficients B qpts ys t a with
    | .error e => .error e
    | .ok c => sparseBlocks B qpts ys ts (c ++ acc.1, t.elements ++ acc.2)

/-- Lexicographic comparison of multi-indices. -/
def IndexLe : List ℕ → List ℕ → Bool
  | [], _ => true
  | _ :: _, [] => false
  | x :: xs, y :: ys => x < y || (x == y && IndexLe xs ys)

/-- poly.py:481: `np.unique(multindices, axis=0)`. -/
def uniqueIndices (M : List (List ℕ)) : List (List ℕ) := M.dedup.mergeSort IndexLe

/-- poly.py:482-486: for every distinct multi-index the sum of the coefficients of the equal rows. -/
noncomputable def collect (M : List (List ℕ)) (c : List ℝ) : List ℝ :=
  (uniqueIndices M).map fun u => ((List.range M.length).map fun j => if u = M.getD j [] then c.getD j 0 else 0).sum

/-- `set_model(f)` for the mesh `sparse-grid` and the method `numerical-integration` (poly.py:399-403, 940-955, 461-488 and
sparsegrid.py:19-65): the object with its new index set, and the coefficients. -/
noncomputable def sparseSetModel (B : Expansion) (level : ℕ) (g : Growth) (f : List ℝ → ℝ) :
    Except Err (Expansion × List ℝ) :=
  match sparseGridBasis level g B.params.length, sparseGridMesh B.params level g with
  | .ok (orders, factors, _), .ok (qpts, _) =>
    match orders.mapM (mkTensor B.params) with
    | .error e => .error e
    | .ok ts =>
      match sparseBlocks B qpts (qpts.map f) (ts.zip factors) ([], []) with
      | .error e => .error e
      | .ok (c, M) => .ok ({ B with elements := uniqueIndices M }, collect M c)
  | .error e, _ => .error e
  | _, .error e => .error e

end EQ.Poly
