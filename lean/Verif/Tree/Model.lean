import Verif.Basis.Model
import Mathlib.Analysis.Real.Sqrt
import Mathlib.Order.WithBot
import Mathlib.Data.List.Sort

/-!
# Model of `equadratures/polytree.py`

A data set is a list of points and a list of outputs. Fitting a polynomial (`_fit_poly`,
polytree.py:222-251) is an argument: a function of the data that returns the mean squared error
(`⊤` for `np.inf`) and the polynomial (`none` for `None`, when the fit failed). `np.where`,
`np.delete`, `np.unique`, `np.std`, `np.linspace` are modelled exactly. The criterion and the search
are enumerations: the exceptions for other strings are in `Verif/Tree/ArgProps.lean`.
-/

namespace EQ.Tree
open EQ.Basis

variable {d : ℕ}

/-- A point. -/
abbrev Pt (d : ℕ) := Fin d → ℝ

/-- A polynomial, as the function computed by `get_polyfit` at one point. -/
abbrev PolyFn (d : ℕ) := Pt d → ℝ

/-- `(X, y)`. -/
structure Data (d : ℕ) where
  X : List (Pt d)
  y : List ℝ

/-- `X[idx]` for a list of row numbers. -/
def gather {α : Type} [Inhabited α] (l : List α) (idx : List ℕ) : List α := idx.map fun i => l.getD i default

/-- polytree.py:92 `np.where(X[:, j_feature] <= threshold)[0]`. -/
noncomputable def idxLeft (j : Fin d) (t : ℝ) (X : List (Pt d)) : List ℕ :=
  (List.range X.length).filter fun i => X.getD i default j ≤ t

/-- polytree.py:93 `np.delete(np.arange(0, len(X)), idx_left)`: the positions not listed. -/
noncomputable def idxRight (j : Fin d) (t : ℝ) (X : List (Pt d)) : List ℕ :=
  (List.range X.length).filter fun i => i ∉ idxLeft j t X

/-- polytree.py:91-95 `_split_data`. -/
noncomputable def splitData (j : Fin d) (t : ℝ) (D : Data d) : Data d × Data d :=
  (⟨gather D.X (idxLeft j t D.X), gather D.y (idxLeft j t D.X)⟩,
   ⟨gather D.X (idxRight j t D.X), gather D.y (idxRight j t D.X)⟩)

/-- `splitting_criterion`. -/
inductive Criterion | modelAware | modelAgnostic
  deriving DecidableEq

/-- `search`. -/
inductive Search | exhaustive | grid
  deriving DecidableEq

/-- The arguments of the constructor that `fit` reads and never changes; `cardinality` is the
cardinality of the basis (polytree.py:304-308). -/
structure Config where
  criterion : Criterion
  search : Search
  samples : ℕ
  maxDepth : ℕ
  logging : Bool
  cardinality : ℕ

/-- `np.linspace(a, b, num)`. -/
noncomputable def linspace (a b : ℝ) (num : ℕ) : List ℝ :=
  (List.range num).map fun i : ℕ => a + (b - a) * i / (num - 1 : ℝ)

/-- `np.unique(np.sort(l))`. -/
noncomputable def uniqueSorted (l : List ℝ) : List ℝ := l.dedup.mergeSort fun a b => decide (a ≤ b)

/-- polytree.py:159-172: the thresholds tried for one feature. -/
noncomputable def thresholds (cfg : Config) (D : Data d) (j : Fin d) : List ℝ :=
  let col := D.X.map fun x => x j
  match cfg.search with
  | .exhaustive => uniqueSorted col
  | .grid =>
    let n := if cfg.samples > D.X.length then D.X.length else cfg.samples
    uniqueSorted (linspace (col.foldl min (col.headD 0)) (col.foldl max (col.headD 0)) n)

/-- A split that is tried. -/
structure Cand (d : ℕ) where
  j : Fin d
  t : ℝ
  left : Data d
  right : Data d

/-- polytree.py:155-181: the splits tried, in order: those with enough samples on both sides. -/
noncomputable def candidates (cfg : Config) (msl : ℕ) (D : Data d) : List (Cand d) :=
  (List.finRange d).flatMap fun j => (thresholds cfg D j).filterMap fun t =>
    if (splitData j t D).1.X.length ≥ msl ∧ (splitData j t D).2.X.length ≥ msl then
      some ⟨j, t, (splitData j t D).1, (splitData j t D).2⟩
    else none

/-- What `_fit_poly` returns. -/
abbrev Fit (d : ℕ) := Data d → WithTop ℝ × Option (PolyFn d)

/-- `np.std`. -/
noncomputable def std (l : List ℝ) : ℝ :=
  √((l.map fun a => (a - l.sum / l.length) ^ 2).sum / l.length)

/-- polytree.py:184-190: the loss of a split. A term with an infinite loss makes the sum infinite (or
`nan`, which like `inf` is never smaller than the best loss); so does `np.std` of an empty side. -/
noncomputable def lossSplit (cfg : Config) (fit : Fit d) (D : Data d) (c : Cand d) : WithTop ℝ :=
  match cfg.criterion with
  | .modelAware =>
    match (fit c.left).1, (fit c.right).1 with
    | some a, some b =>
      (((c.left.X.length * a + c.right.X.length * b) / D.X.length : ℝ) : WithTop ℝ)
    | _, _ => ⊤
  | .modelAgnostic =>
    if c.left.X.length = 0 ∨ c.right.X.length = 0 then ⊤
    else ((std D.y - (c.left.X.length * std c.left.y + c.right.X.length * std c.right.y) /
      D.X.length : ℝ) : WithTop ℝ)

/-- polytree.py:192-202: the loop over the candidates; the pair is `loss_best` and the best split. -/
noncomputable def scan (loss : Cand d → WithTop ℝ) :
    List (Cand d) → WithTop ℝ × Option (Cand d) → WithTop ℝ × Option (Cand d)
  | [], best => best
  | c :: cs, best => scan loss cs (if loss c < best.1 then (loss c, some c) else best)

/-- polytree.py:133-220 `_splitter`, for a node above the maximal depth: the split chosen. -/
noncomputable def splitter (cfg : Config) (msl : ℕ) (fit : Fit d) (D : Data d) : Option (Cand d) :=
  let init : WithTop ℝ := match cfg.criterion with
    | .modelAware => (fit D).1
    | .modelAgnostic => ⊤
  (scan (lossSplit cfg fit D) (candidates cfg msl D) (init, none)).2

/-- A node: `poly`, `n_samples`, and for an inner node `j_feature`, `threshold` and the children. A
leaf keeps its `data`. -/
inductive Node (d : ℕ) where
  | leaf (poly : Option (PolyFn d)) (n : ℕ) (data : Data d) : Node d
  | branch (poly : Option (PolyFn d)) (n : ℕ) (j : Fin d) (t : ℝ) (left right : Node d) : Node d

/-- polytree.py:253-296 `_create_node` and `_split_traverse_node`: the node for the data `D` at the
given depth. The polynomials that the splitter hands to the children are fits of the same data as
those made by `_create_node`. -/
noncomputable def grow (cfg : Config) (msl : ℕ) (fit : Fit d) (D : Data d) (depth : ℕ) : Node d :=
  if depth < cfg.maxDepth then
    match splitter cfg msl fit D with
    | none => .leaf (fit D).2 D.X.length D
    | some c => .branch (fit D).2 D.X.length c.j c.t
        (grow cfg msl fit c.left (depth + 1)) (grow cfg msl fit c.right (depth + 1))
  else .leaf (fit D).2 D.X.length D
termination_by cfg.maxDepth - depth

/-- The state of a `PolyTree` object. -/
structure State (d : ℕ) where
  msl : Option ℕ
  k : ℝ
  tree : Option (Node d)

/-- polytree.py:309-312: `min_samples_leaf` after `fit`; `int(np.ceil(cardinality * 1.25))`. -/
def resolveMsl (card : ℕ) : Option ℕ → ℕ
  | none => (5 * card + 3) / 4
  | some m => if m = card then (5 * card + 3) / 4 else m

/-- Whether `_fit_poly` is called for an empty set of points while the node for `D` is grown
(polytree.py:185-186, 206-207, 254): `np.amin` raises `ValueError`, and the handler (line 248) prints `values_min`, which
is not bound. There is at least one input. -/
def fitsEmpty (cfg : Config) (msl : ℕ) (fit : Fit d) (D : Data d) (depth : ℕ) : Prop :=
  D.X.length = 0 ∨
    if depth < cfg.maxDepth then
      (cfg.criterion = .modelAware ∧
        ∃ c ∈ candidates cfg msl D, c.left.X.length = 0 ∨ c.right.X.length = 0) ∨
      match splitter cfg msl fit D with
      | none => False
      | some c => fitsEmpty cfg msl fit c.left (depth + 1) ∨ fitsEmpty cfg msl fit c.right (depth + 1)
    else False
termination_by cfg.maxDepth - depth

open Classical in
/-- polytree.py:119-315 `fit`. With `logging` and the model-agnostic criterion the log entry of the
first candidate reads `poly_left` before it is assigned (line 194 or 202). -/
noncomputable def fitTree (cfg : Config) (fit : Fit d) (D : Data d) (s : State d) :
    Except Err (State d) :=
  let msl := resolveMsl cfg.cardinality s.msl
  if cfg.logging = true ∧ cfg.criterion = .modelAgnostic ∧ candidates cfg msl D ≠ [] then
    .error .unboundLocalError
  else if fitsEmpty cfg msl fit D 0 then .error .unboundLocalError
  else .ok { msl := some msl, k := s.k * msl, tree := some (grow cfg msl fit D 0) }

/-- polytree.py:68-89 `get_splits`: pre-order, without repetitions. The second visit of a node (line
83) finds its split in the list already. -/
noncomputable def getSplits : Node d → List (ℝ × Fin d) → List (ℝ × Fin d)
  | .leaf _ _ _, splits => splits
  | .branch _ _ j t l r, splits =>
    let splits := if (t, j) ∈ splits then splits else splits ++ [(t, j)]
    let splits := getSplits l splits
    let splits := if (t, j) ∈ splits then splits else splits ++ [(t, j)]
    getSplits r splits

/-- polytree.py:97-117 `get_polys`. -/
def getPolys : Node d → List (Option (PolyFn d)) → List (Option (PolyFn d))
  | .leaf p _ _, polys => polys ++ [p]
  | .branch _ _ _ _ l r, polys => getPolys r (getPolys l polys)

/-- `node["poly"].get_polyfit(x)`: an `AttributeError` if the fit had failed. -/
def evalPoly (p : Option (PolyFn d)) (x : Pt d) : Except Err ℝ :=
  match p with
  | none => .error .attributeError
  | some f => .ok (f x)

/-- polytree.py:382, 384: the smoothed value; `none` is `nan` (from `0/0` or from the child). -/
noncomputable def blend (k : ℝ) (n : ℕ) (own : ℝ) : Option ℝ → Option ℝ
  | none => none
  | some v => if k + n = 0 then none else some ((v * n + own * k) / (k + n))

/-- polytree.py:372-384 `_predict(node, x)`. -/
noncomputable def predictNode (k : ℝ) (x : Pt d) : Node d → Except Err (Option ℝ)
  | .leaf p _ _ => (evalPoly p x).map some
  | .branch p n j t l r =>
    match evalPoly p x with
    | .error e => .error e
    | .ok own =>
      if x j ≤ t then (predictNode k x l).map (blend k n own)
      else (predictNode k x r).map (blend k n own)

/-- polytree.py:362-388 `predict` at one point. -/
noncomputable def predict (s : State d) (x : Pt d) : Except Err (Option ℝ) :=
  match s.tree with
  | none => .error .assertionError
  | some t => predictNode s.k x t

/-- polytree.py:334: the mean squared error of a polynomial on a data set. -/
noncomputable def mse (f : PolyFn d) (D : Data d) : ℝ :=
  ((D.X.zip D.y).map fun r => (r.2 - f r.1) ^ 2).sum / D.X.length

/-- `node["n_samples"]`. -/
def Node.samples : Node d → ℕ
  | .leaf _ n _ => n
  | .branch _ n _ _ _ _ => n

/-- polytree.py:327-354 `pruner`: the node after pruning, and its `test_loss`. A leaf made by pruning
has no `data` (deleted when it was split). The division `0/0` gives `nan`, for which the comparison is
false. -/
noncomputable def pruner : Node d → Data d → Except Err (Node d × ℝ)
  | .leaf p n D, V =>
    if V.X.length < 1 then .ok (.leaf p 0 D, 0)
    else
      match p with
      | none => .error .attributeError
      | some f => .ok (.leaf p n D, mse f V)
  | .branch p n j t l r, V =>
    if V.X.length < 1 then .ok (.branch p 0 j t l r, 0)
    else
      match p with
      | none => .error .attributeError
      | some f =>
        match pruner l (splitData j t V).1 with
        | .error e => .error e
        | .ok (l', el) =>
          match pruner r (splitData j t V).2 with
          | .error e => .error e
          | .ok (r', er) =>
            if l'.samples + r'.samples ≠ 0 ∧
                (el * l'.samples + er * r'.samples) / (l'.samples + r'.samples) > mse f V then
              .ok (.leaf p n ⟨[], []⟩, mse f V)
            else .ok (.branch p n j t l' r', mse f V)

/-- polytree.py:356-360 `prune`. For a tree that was never split the comparison with the threshold
`None` raises `TypeError`. -/
noncomputable def prune (s : State d) (V : Data d) : Except Err (State d) :=
  match s.tree with
  | none => .error .assertionError
  | some (.leaf _ _ _) => .error .typeError
  | some (.branch p n j t l r) =>
    match pruner l (splitData j t V).1 with
    | .error e => .error e
    | .ok (l', _) =>
      match pruner r (splitData j t V).2 with
      | .error e => .error e
      | .ok (r', _) => .ok { s with tree := some (.branch p n j t l' r') }

end EQ.Tree
