import Verif.Poly.Model
import Mathlib.Data.List.Sublists

/-!
# Model of `equadratures/stats.py`

A Python dictionary with numeric values is a function from keys to values together with the list
of its keys; keys are tuples, here lists of natural numbers. The order in which a dictionary lists
its keys is not modelled.
-/

namespace EQ.Stats
open EQ.Basis EQ.Poly EQ.Sampling

/-- Values of a dictionary. -/
abbrev Dict := List ℕ → ℝ

/-- `d[k] = d[k] + v`. -/
noncomputable def addAt (D : Dict) (k : List ℕ) (v : ℝ) : Dict := Function.update D k (D k + v)

/-- `itertools.combinations(range(d), k)` as a list of tuples (order of the list not modelled). -/
def combos (d k : ℕ) : List (List ℕ) := List.sublistsLen k (List.range d)

/-- `np.nonzero(row)[0]`: the positions of the non-zero entries. -/
def nonzero (row : List ℕ) : List ℕ := (List.range row.length).filter fun k => row.getD k 0 ≠ 0

/-! ## Mean, variance, Sobol' indices -/

/-- stats.py:154-155 `private_get_mean`. No coefficients: `IndexError`. -/
def mean (c : List ℝ) : Except Err ℝ :=
  match c with
  | [] => .error .indexError
  | c0 :: _ => .ok c0

/-- stats.py:156-161 `private_get_variance`: the loop variable `variance` is only bound inside the
loop, so with a single coefficient the `return` raises `UnboundLocalError`. -/
noncomputable def variance (c : List ℝ) : Except Err ℝ :=
  if c.length ≤ 1 then .error .unboundLocalError
  else .ok ((c.drop 1).foldl (fun result a => result + a ^ 2) 0)

/-- What `private_get_all_sobol_indices` returns: in one dimension the dictionary `{0: 1.0}`
whose key is an integer, otherwise a dictionary with tuple keys. -/
inductive Sobol where
  | one
  | many (keys : List (List ℕ)) (values : Dict)

/-- stats.py:166, 172-173: the largest order considered. -/
def sobolOrder (maxOrder : Option ℕ) (d : ℕ) : ℕ :=
  match maxOrder with
  | none => d
  | some k => if k > d then d else k

/-- stats.py:174-184: one pass of the loop over `order`: new keys are set to zero, then every row
with exactly `order` non-zero entries adds its share of the variance. -/
noncomputable def sobolPass (elements : List (List ℕ)) (c : List ℝ) (var : ℝ) (d : ℕ) (D : Dict)
    (order : ℕ) : Dict :=
  let D0 : Dict := fun k => if k ∈ combos d order then 0 else D k
  (List.zip elements c).foldl (fun D rc =>
    if (nonzero rc.1).length = order then addAt D (nonzero rc.1) (rc.2 ^ 2 / var) else D) D0

/-- stats.py:162-189 `private_get_all_sobol_indices` for an index set with `d` columns. -/
noncomputable def allSobol (c : List ℝ) (elements : List (List ℕ)) (d : ℕ)
    (maxOrder : Option ℕ) : Except Err Sobol :=
  match variance c with
  | .error e => .error e
  | .ok var =>
    if d = 1 then .ok .one
    else
      let orders := List.range' 1 (sobolOrder maxOrder d)
      .ok (.many (orders.flatMap (combos d)) (orders.foldl (sobolPass elements c var d) fun _ => 0))

/-- stats.py:86-103 `get_sobol(order)`: `len` of the integer key raises `TypeError`. -/
noncomputable def getSobol (s : Sobol) (order : ℕ) : Except Err (List (List ℕ × ℝ)) :=
  match s with
  | .one => .error .typeError
  | .many keys D => .ok ((keys.filter fun k => k.length = order).map fun k => (k, D k))

/-- stats.py:142-153 `get_sobol_total`: iterating over the integer key raises `TypeError`. -/
noncomputable def getSobolTotal (s : Sobol) (dims : ℕ) : Except Err (List ℝ) :=
  match s with
  | .one => .error .typeError
  | .many keys D => .ok (keys.foldl (fun TSI key =>
      key.foldl (fun TSI p => TSI.set p (TSI.getD p 0 + D key)) TSI) (List.replicate dims 0))

/-! ## Skewness and kurtosis -/

/-- stats.py:37: `polynomial_matrix * self.coefficients`, row `i` times coefficient `i`. -/
def weightedEvals (P : List (List ℝ)) (c : List ℝ) : List (List ℝ) :=
  List.zipWith (fun row a => row.map (a * ·)) P c

/-- `np.dot(v, weights)`. -/
def dotW (v wts : List ℝ) : ℝ := (List.zipWith (· * ·) v wts).sum

/-- `np.sum(weighted_evals[1:], 0)` (stats.py:191, 195) for `m` columns. -/
def totalEvals (W : List (List ℝ)) (m : ℕ) : List ℝ :=
  (List.range m).map fun j => ((W.drop 1).map fun row => row.getD j 0).sum

/-- stats.py:190-193 `private_get_skewness`. -/
noncomputable def skewness (wts : List ℝ) (W : List (List ℝ)) (var : ℝ) : ℝ :=
  dotW ((totalEvals W wts.length).map (· ^ 3)) wts / var ^ (1.5 : ℝ)

/-- stats.py:194-197 `private_get_kurtosis`. -/
noncomputable def kurtosis (wts : List ℝ) (W : List (List ℝ)) (var : ℝ) : ℝ :=
  dotW ((totalEvals W wts.length).map (· ^ 4)) wts / var ^ 2

/-! ## Conditional skewness and kurtosis -/

/-- stats.py:200-201, 264-265: the 0/1 tuple of a row. -/
def normInd (row : List ℕ) : List ℕ := row.map fun n => if n > 0 then 1 else 0

/-- `tuple(np.logical_or(a, b).astype(int))`. -/
def orInd (a b : List ℕ) : List ℕ :=
  List.zipWith (fun x y => if x ≠ 0 ∨ y ≠ 0 then 1 else 0) a b

/-- stats.py:203-206, 267-270: zeros with ones at the positions of the combination. -/
def indicator (d : ℕ) (S : List ℕ) : List ℕ := (List.range d).map fun k => if k ∈ S then 1 else 0

/-- The loops `for a ... for b in range(a+1, ...)` over the positions of a list. -/
def pairsLt {α : Type} : List α → List (α × α)
  | [] => []
  | x :: xs => xs.map (x, ·) ++ pairsLt xs

/-- Three nested loops `a < b < c`. -/
def triplesLt {α : Type} : List α → List (α × α × α)
  | [] => []
  | x :: xs => (pairsLt xs).map (x, ·) ++ triplesLt xs

/-- Four nested loops `a < b < c < d`. -/
def quadsLt {α : Type} : List α → List (α × α × α × α)
  | [] => []
  | x :: xs => (triplesLt xs).map (x, ·) ++ quadsLt xs

/-- stats.py:224-228, 289-293: the selection test of the second term. -/
def deltaPQ (elements : List (List ℕ)) (d p q : ℕ) : Bool :=
  (List.range d).any fun k =>
    ((elements.getD p []).getD k 0 = 0 ∧ (elements.getD q []).getD k 0 ≠ 0) ∨ p = q

/-- The assignment `norm_rows[i][j] = 1` for all non-zero entries (stats.py:382-385, 410-413). The
rows are views of the caller's array, so the caller's rows change as well. -/
def normalise (row : List ℕ) : List ℕ := row.map fun n => if n ≠ 0 then 1 else n

/-- stats.py:403-427 `delta_pqr` on rows that have already been normalised in place (also
`rows`, the same objects, at line 423). -/
def deltaPQR (d : ℕ) (r0 r1 r2 : List ℕ) : Bool :=
  (List.range d).any fun k =>
    let a := r0.getD k 0; let b := r1.getD k 0; let c := r2.getD k 0
    if a + b + c = 1 then true
    else if a + b + c = 2 then !(a = b ∨ b = c ∨ a = c)
    else false

/-- stats.py:366-374 `delta_p_qr`. -/
def deltaP_QR (d : ℕ) (r0 r1 r2 : List ℕ) : Bool :=
  (List.range d).any fun k => r0.getD k 0 = 0 ∧ r1.getD k 0 ≠ r2.getD k 0

/-- stats.py:377-400 `delta_pqrs` on rows normalised in place (also `rows` at lines 391-396). -/
def deltaPQRS (d : ℕ) (r0 r1 r2 r3 : List ℕ) : Bool :=
  (List.range d).any fun k =>
    let col := [r0.getD k 0, r1.getD k 0, r2.getD k 0, r3.getD k 0]
    if col.sum = 1 then true
    else if col.sum = 2 then
      let nz := col.filter (· ≠ 0)
      !(nz.getD 0 0 = nz.getD 1 0)
    else false

/-- Normalising rows of the caller's array in place. -/
def normaliseAt (temp : List (List ℕ)) (is : List ℕ) : List (List ℕ) :=
  is.foldl (fun t i => t.modify i normalise) temp

/-- stats.py:198-260 `private_conditional_skewness(order, ...)`. `card` is `basis.cardinality`;
if it exceeds the number of rows, `norm_ind[i]` raises `IndexError`. The test `delta_pqr` is
called once per dimension with the same arguments; it is idempotent and modelled once (the number
of dimensions is positive). The third loop carries `temp_ind`, which the test modifies. -/
noncomputable def condSkewness (order : ℕ) (wts : List ℝ) (W : List (List ℝ))
    (elements : List (List ℕ)) (card d : ℕ) (var skew : ℝ) : Except Err (List (List ℕ × ℝ)) :=
  if elements.length < card then .error .indexError
  else
    let norm := fun i => normInd (elements.getD i [])
    let row := fun i => W.getD i []
    let D1 := (List.range' 1 (W.length - 1)).foldl (fun D i =>
      if (norm i).sum = order then
        addAt D (norm i) (dotW ((row i).map (· ^ 3)) wts / (var ^ (1.5 : ℝ) * skew))
      else D) (fun _ => 0)
    let all := List.range' 1 (card - 1)
    let valid := all.filter fun i => (norm i).sum ≤ order
    let D2 := (all.product all).foldl (fun D pq =>
      if (orInd (norm pq.1) (norm pq.2)).sum ≠ order then D
      else if deltaPQ elements d pq.1 pq.2 then D
      else addAt D (orInd (norm pq.1) (norm pq.2))
        (3 * dotW (List.zipWith (fun a b => a ^ 2 * b) (row pq.1) (row pq.2)) wts /
          (var ^ (1.5 : ℝ) * skew))) D1
    let D3 := (triplesLt valid).foldl (fun (Dt : Dict × List (List ℕ)) pqr =>
      let key := orInd (orInd (norm pqr.1) (norm pqr.2.1)) (norm pqr.2.2)
      if key.sum ≠ order then Dt
      else
        let temp := normaliseAt Dt.2 [pqr.1, pqr.2.1, pqr.2.2]
        if deltaPQR d (temp.getD pqr.1 []) (temp.getD pqr.2.1 []) (temp.getD pqr.2.2 []) then
          (Dt.1, temp)
        else (addAt Dt.1 key
          (6 * dotW (List.zipWith (fun a b => a * b)
            (List.zipWith (fun a b => a * b) (row pqr.1) (row pqr.2.1)) (row pqr.2.2)) wts /
            (var ^ (1.5 : ℝ) * skew)), temp)) (D2, elements)
    .ok ((combos d order).map fun S => (nonzero (indicator d S), D3.1 (indicator d S)))

/-- stats.py:261-362 `private_conditional_kurtosis(order, ...)`, with the same conventions. -/
noncomputable def condKurtosis (order : ℕ) (wts : List ℝ) (W : List (List ℝ))
    (elements : List (List ℕ)) (card d : ℕ) (var kurt : ℝ) : Except Err (List (List ℕ × ℝ)) :=
  if elements.length < card then .error .indexError
  else
    let norm := fun i => normInd (elements.getD i [])
    let row := fun i => W.getD i []
    let el := fun i => elements.getD i []
    let D1 := (List.range' 1 (W.length - 1)).foldl (fun D i =>
      if (norm i).sum = order then
        addAt D (norm i) (dotW ((row i).map (· ^ 4)) wts / (var ^ 2 * kurt))
      else D) (fun _ => 0)
    let valid := (List.range' 1 (card - 1)).filter fun i => (norm i).sum ≤ order
    let D2 := (valid.product valid).foldl (fun D pq =>
      if (orInd (norm pq.1) (norm pq.2)).sum ≠ order then D
      else if deltaPQ elements d pq.1 pq.2 then D
      else addAt D (orInd (norm pq.1) (norm pq.2))
        (4 * dotW (List.zipWith (fun a b => a ^ 3 * b) (row pq.1) (row pq.2)) wts /
          (var ^ 2 * kurt))) D1
    let D3 := (pairsLt valid).foldl (fun D pq =>
      if (orInd (norm pq.1) (norm pq.2)).sum ≠ order then D
      else addAt D (orInd (norm pq.1) (norm pq.2))
        (6 * dotW (List.zipWith (fun a b => a ^ 2 * b ^ 2) (row pq.1) (row pq.2)) wts /
          (var ^ 2 * kurt))) D2
    let D4 := (valid.product (pairsLt valid)).foldl (fun D pqr =>
      let key := orInd (orInd (norm pqr.1) (norm pqr.2.1)) (norm pqr.2.2)
      if key.sum ≠ order then D
      else if deltaP_QR d (el pqr.1) (el pqr.2.1) (el pqr.2.2) ∨ pqr.2.1 = pqr.1 ∨
          pqr.2.2 = pqr.1 then D
      else addAt D key
        (12 * dotW (List.zipWith (fun a b => a * b)
          (List.zipWith (fun a b => a ^ 2 * b) (row pqr.1) (row pqr.2.1)) (row pqr.2.2)) wts /
          (var ^ 2 * kurt))) D3
    let D5 := (quadsLt valid).foldl (fun (Dt : Dict × List (List ℕ)) u =>
      let key := orInd (orInd (orInd (norm u.1) (norm u.2.1)) (norm u.2.2.1)) (norm u.2.2.2)
      if key.sum ≠ order then Dt
      else
        let temp := normaliseAt Dt.2 [u.1, u.2.1, u.2.2.1, u.2.2.2]
        if deltaPQRS d (temp.getD u.1 []) (temp.getD u.2.1 []) (temp.getD u.2.2.1 [])
            (temp.getD u.2.2.2 []) then (Dt.1, temp)
        else (addAt Dt.1 key
          (24 * dotW (List.zipWith (fun a b => a * b) (List.zipWith (fun a b => a * b)
            (List.zipWith (fun a b => a * b) (row u.1) (row u.2.1)) (row u.2.2.1))
            (row u.2.2.2)) wts / (var ^ 2 * kurt)), temp)) (D4, elements)
    .ok ((combos d order).map fun S => (nonzero (indicator d S), D5.1 (indicator d S)))

end EQ.Stats
