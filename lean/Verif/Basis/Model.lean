import Mathlib.Data.List.Basic
import Mathlib.Data.Nat.Factorial.Basic
import Mathlib.Analysis.SpecialFunctions.Pow.Real

/-!
# Model of `equadratures/basis.py`

Rows of an index set are `List ℕ`; an index set is a list of rows (row order matters, since
coefficients are matched with rows by position).  The Python code stores the integers as
floats; the model stores them as naturals.
-/

namespace EQ.Basis

/-- The ways the modelled functions can fail. `valueError` is Python's `ValueError`
(also raised by `np.max` of an empty list), `typeError` its `TypeError`, `interrupt` the
`KeyboardInterrupt` raised at basis.py:312. -/
inductive Err where
  | valueError
  | typeError
  | interrupt
  | attributeError
  | nameError
  | unboundLocalError
  | indexError
  | linAlgError
  | assertionError
  | overflowError
  | exception
  | zeroDivisionError
  | runtimeError
  deriving DecidableEq, Repr

/-- basis.py:238-259 `getTotalOrderBasisRecursion(highest_order, dimensions)`.
The loop over `j` that stacks `[j | U]` under what was collected so far is a `flatMap`.
Simplification: `dimensions = 0` does not occur (the caller fails first, see
`totalOrderBasis`); it is mapped to no rows. -/
def totalOrderRec : (dimensions highestOrder : ℕ) → List (List ℕ)
  | 0, _ => []
  | 1, h => [[h]]
  | d + 2, h =>
    (List.range (h + 1)).flatMap fun j => (totalOrderRec (d + 1) (h - j)).map (j :: ·)

/-- `np.max(orders)` for a list of naturals, used at basis.py:186, 225, 263; `np.max` of an
empty list raises `ValueError`. -/
def npMax : List ℕ → Except Err ℕ
  | [] => .error .valueError
  | x :: xs => .ok (xs.foldl max x)

/-- basis.py:261-268 `total_order_basis(orders)`: the zero row, then for `i = 1 .. max(orders)`
the rows of total order `i`. -/
def totalOrderBasis (orders : List ℕ) : Except Err (List (List ℕ)) := do
  let d := orders.length
  let h ← npMax orders
  return (List.range' 1 h).foldl (fun acc i => acc ++ totalOrderRec d i)
    [List.replicate d 0]

/-- One pass of the loop at basis.py:338-347: `left_side = kron(I, 1)` repeats each row of `I`
`o+1` times, `right_side = kron(1, counting)` cycles through `0..o`; the two are joined
column-wise. -/
def tensorStep (I : List (List ℕ)) (o : ℕ) : List (List ℕ) :=
  I.flatMap fun row => (List.range (o + 1)).map fun c => row ++ [c]

/-- basis.py:332-351 `tensor_grid_basis(orders)`. The initial `I = [1.0]` is one row holding a
dummy entry that `I[:,1::]` drops at the end; here the dummy column is left out from the
start. With no dimensions `I` is still a Python list and `I[:,1::]` raises `TypeError`. -/
def tensorGridBasis (orders : List ℕ) : Except Err (List (List ℕ)) :=
  match orders with
  | [] => .error .typeError
  | o :: os => .ok ((o :: os).foldl tensorStep [[]])

/-- basis.py:177-198 `euclidean_degree_basis(orders)`: keep the tensor-grid rows whose squares
sum to at most `np.max(orders**2)`. (The code builds the tensor grid before it takes the
maximum, so the empty list gives `TypeError`.) -/
def euclideanDegreeBasis (orders : List ℕ) : Except Err (List (List ℕ)) := do
  let nbar ← tensorGridBasis orders
  let maxval ← npMax (orders.map fun o => o ^ 2)
  return nbar.filter fun row => (row.map fun a => a ^ 2).sum ≤ maxval

/-- `n ** q` for a non-negative float row entry, basis.py:220. -/
noncomputable def powq (q : ℝ) (n : ℕ) : ℝ := (n : ℝ) ^ q

open Classical in
/-- basis.py:212-235 `hyperbolic_basis(orders, q)`: keep the total-order rows with
`(Σ n^q)^(1/q) ≤ max(orders)`. -/
noncomputable def hyperbolicBasis (orders : List ℕ) (q : ℝ) : Except Err (List (List ℕ)) := do
  let nbar ← totalOrderBasis orders
  let mx ← npMax orders
  return nbar.filter fun row => ((row.map (powq q)).sum) ^ (1.0 / (1.0 * q)) ≤ (mx : ℝ)

/-- basis.py:71-72, the `univariate` branch: `linspace(0, orders[0], orders[0]+1)` as a column.
An empty `orders` raises `IndexError`. -/
def univariateBasis (orders : List ℕ) : Except Err (List (List ℕ)) :=
  match orders with
  | [] => .error .indexError
  | o :: _ => .ok ((List.range (o + 1)).map fun c => [c])

/-- The growth rules accepted at basis.py:307-312 (the code compares the string by identity;
modelled as equality of the literal). -/
inductive Growth where
  | exponential
  | linear
  | other
  deriving DecidableEq, Repr

/-- basis.py:305-312: the tensor order used for level entry `r`. `int(2**(r-1))` is `0` for
`r = 0`. -/
def growth (g : Growth) (r : ℕ) : Except Err ℕ :=
  if r = 1 then .ok 1
  else match g with
    | .exponential => .ok (if r = 0 then 0 else 2 ^ (r - 1))
    | .linear => .ok r
    | .other => .error .interrupt

/-- basis.py:272-289: the level multi-indices kept, `lhs ≤ Σ ≤ rhs` with
`lhs = level - 1 + 1` and `rhs = level - 1 + dimensions`, filtered from the tensor grid with
all orders equal to `rhs`. -/
def sparseLevels (level dims : ℕ) : Except Err (List (List ℕ)) := do
  let rhs := level + dims - 1
  let nbar ← tensorGridBasis (List.replicate dims rhs)
  return nbar.filter fun row => row.sum ≤ rhs ∧ level ≤ row.sum

/-- basis.py:292-298: the coefficient of one level multi-index,
`(-1)^k * n!/((n-k)! k!)` with `k = level - 1 + dimensions - Σ`, `n = dimensions - 1`. -/
def sparseCoeff (level dims : ℕ) (row : List ℕ) : ℚ :=
  let k := level + dims - 1 - row.sum
  let n := dims - 1
  (-1) ^ k * ((n.factorial : ℚ) / (1 * (n - k).factorial * k.factorial))

/-- basis.py:269-330 `sparse_grid_basis(level, growth_rule, dimensions)`: tensor orders,
combination coefficients, and the concatenation of the tensor index sets. -/
def sparseGridBasis (level : ℕ) (g : Growth) (dims : ℕ) :
    Except Err (List (List ℕ) × List ℚ × List (List ℕ)) := do
  let nnew ← sparseLevels level dims
  let a := nnew.map (sparseCoeff level dims)
  let sparseIndex ← nnew.mapM fun row => row.mapM (growth g)
  let sets ← sparseIndex.mapM tensorGridBasis
  return (sparseIndex, a, sets.flatten)

/-- basis.py:125-130: the sort key of a row: sort the entries ascending, then
`u = Σ_j 10^j * a[j]`. -/
def sortKey (row : List ℕ) : ℕ :=
  ((row.mergeSort (· ≤ ·)).zipIdx.map fun p => 10 ^ p.2 * p.1).sum

/-- basis.py:115-138 `Basis.sort`. `argsort` stands for `np.argsort` (an unstable sort: which
of two equal keys comes first is not fixed); it receives the keys and returns row numbers.
A row number out of range would raise `IndexError`; the contract used in the theorems rules
this out, and `getD` gives the empty row. -/
def sortElements (argsort : List ℕ → List ℕ) (elements : List (List ℕ)) : List (List ℕ) :=
  (argsort (elements.map sortKey)).map fun i => elements.getD i []

/-- The contract of `np.argsort`: a permutation of the positions that lists the keys in
non-decreasing order. Any tie-breaking is allowed. -/
structure ArgsortContract (argsort : List ℕ → List ℕ) : Prop where
  perm : ∀ keys, (argsort keys).Perm (List.range keys.length)
  sorted : ∀ keys, ((argsort keys).map fun i => keys.getD i 0).Pairwise (· ≤ ·)

/-- The observable state of a `Basis` object touched by `prune`/`sort`: `elements`
(basis.py:85) and the separately stored `cardinality` (basis.py:86). -/
structure State where
  elements : List (List ℕ)
  cardinality : ℕ
  deriving DecidableEq, Repr

/-- basis.py:85-86: what `set_orders` stores. -/
def State.ofElements (els : List (List ℕ)) : State := ⟨els, els.length⟩

/-- basis.py:87-98 `get_cardinality`: the current number of rows. -/
def State.getCardinality (s : State) : ℕ := s.elements.length

/-- basis.py:99-114 `prune(k)`: sort, then keep the first `self.cardinality - k` rows; raise
`ValueError` if that is negative. `self.cardinality` is not updated. The Boolean tells whether
the call returned normally. -/
def State.prune (argsort : List ℕ → List ℕ) (s : State) (k : ℕ) : State × Bool :=
  let sorted := sortElements argsort s.elements
  if s.cardinality < k then ({ s with elements := sorted }, false)
  else ({ s with elements := sorted.take (s.cardinality - k) }, true)

/-- Names that `set_orders`/`get_basis` compare against. -/
def lower (s : List Char) : List Char := s.map Char.toLower

/-- A basis request: everything the two dispatchers read from `self`. -/
structure Request where
  name : List Char
  orders : List ℕ
  level : ℕ
  growthRule : Growth
  q : ℝ

/-- basis.py:56-86 `set_orders`: the multi-indices stored in `self.elements`; the comparison
is on the lower-cased name. -/
noncomputable def Request.setOrders (r : Request) : Except Err (List (List ℕ)) :=
  let n := lower r.name
  if n = "total-order".toList then totalOrderBasis r.orders
  else if n = "univariate".toList then univariateBasis r.orders
  else if n = "sparse-grid".toList then do
    let (_, _, s) ← sparseGridBasis r.level r.growthRule r.orders.length
    return s
  else if n = "tensor-grid".toList ∨ n = "tensor".toList then tensorGridBasis r.orders
  else if n = "hyperbolic-basis".toList then hyperbolicBasis r.orders r.q
  else if n = "euclidean-degree".toList then euclideanDegreeBasis r.orders
  else .error .valueError

/-- basis.py:139-163 `get_basis`: the name is compared without lower-casing and there is no
`univariate` or `tensor` branch. For `sparse-grid` the code returns a triple; the model keeps
its third component, the multi-indices. -/
noncomputable def Request.getBasis (r : Request) : Except Err (List (List ℕ)) :=
  let n := r.name
  if n = "total-order".toList then totalOrderBasis r.orders
  else if n = "tensor-grid".toList then tensorGridBasis r.orders
  else if n = "hyperbolic-basis".toList then hyperbolicBasis r.orders r.q
  else if n = "euclidean-degree".toList then euclideanDegreeBasis r.orders
  else if n = "sparse-grid".toList then do
    let (_, _, s) ← sparseGridBasis r.level r.growthRule r.orders.length
    return s
  else .error .valueError

end EQ.Basis
