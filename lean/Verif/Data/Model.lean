import Verif.Basis.Model
import Mathlib.Data.Real.Basic
import Mathlib.Analysis.Real.Sqrt
import Mathlib.Algebra.BigOperators.Fin
import Mathlib.Algebra.Order.Floor.Ring
import Mathlib.Data.Finset.Lattice.Fold
import Mathlib.Data.List.FinRange

/-!
# Model of `/repo/equadratures/datasets.py`

Splitting, scoring and standardising of data. Numbers are exact reals; arrays are functions on `Fin`, results of fancy
indexing are lists.
-/

namespace EQ.Data

open EQ.Basis

/-- Python's `int(x)` of a float, truncation towards zero (`datasets.py:87`); also what numpy does when a float is stored
in an integer array (`datasets.py:139,149`). -/
noncomputable def pyInt (x : ℝ) : ℤ := if 0 ≤ x then ⌊x⌋ else ⌈x⌉

/-- `idx[:k]` for any integer `k` (`datasets.py:96`): negative `k` counts from the end. -/
def sliceTo (l : List α) (k : ℤ) : List α := l.take (if 0 ≤ k then k else l.length + k).toNat

/-- `idx[k:]` for any integer `k` (`datasets.py:96`). -/
def sliceFrom (l : List α) (k : ℤ) : List α := l.drop (if 0 ≤ k then k else l.length + k).toNat

/-- `train_test_split` (`datasets.py:69-97`). Simplification: the permutation drawn by the random generator is the
argument `perm`; a row of `X` (of `y`) is one value of type `α` (`β`). -/
noncomputable def trainTestSplit (X : Fin n → α) (y : Fin m → β) (train : ℝ) (perm : List (Fin n)) (shuffle : Bool) :
    Except Err (List α × List α × List β × List β) :=
  if h : n = m then
    if train > 0 ∨ train < 1 then
      let nTrain := pyInt (train * n)
      let idx := if shuffle then perm else List.finRange n
      let itrain := sliceTo idx nTrain
      let itest := sliceFrom idx nTrain
      .ok (itrain.map X, itest.map X, itrain.map fun i => y (Fin.cast h i), itest.map fun i => y (Fin.cast h i))
    else .error .valueError
  else .error .valueError

/-- `np.mean` of a vector (used in `datasets.py:123-127`). -/
noncomputable def mean (v : Fin n → ℝ) : ℝ := (∑ i, v i) / n

/-- `np.std` of a vector, with divisor `n` (`datasets.py:125`). -/
noncomputable def std (v : Fin n → ℝ) : ℝ := Real.sqrt (mean fun i => (v i - mean v) ^ 2)

/-- Mean of the product of the deviations: `ssxym`, and with `v = w` `ssxm` and `ssym`, inside `st.linregress`
(`datasets.py:116,120`; the numbers come from `np.cov(x, y, bias=1)`). -/
noncomputable def cov (v w : Fin n → ℝ) : ℝ := mean fun i => (v i - mean v) * (w i - mean w)

open Classical in
/-- `st.linregress(x, y)[2]`, the correlation coefficient; scipy returns zero if one of the two is constant
(`datasets.py:116,120`). Simplification: the clipping of rounding errors to `[-1, 1]` and, in recent scipy, the error for
constant `x` are left out. -/
noncomputable def linregressR (v w : Fin n → ℝ) : ℝ :=
  if cov v v = 0 ∨ cov w w = 0 then 0 else cov v w / Real.sqrt (cov v v * cov w w)

/-- The metric names accepted by `score` (`datasets.py:115-129`); `other` is any other string. -/
inductive Metric | r2 | adjustedR2 | mae | normalisedMae | rmse | other

/-- `score` (`datasets.py:99-130`). `X` is the shape of the optional argument. Simplification: division by zero (by
`N-d-1`, or by the standard deviation of constant data) is Lean's, where numpy yields `inf` or `nan`. -/
noncomputable def score (yTrue yPred : Fin n → ℝ) (metric : Metric) (X : Option (ℕ × ℕ)) : Except Err ℝ :=
  match metric with
  | .r2 => .ok (linregressR yTrue yPred ^ 2)
  | .adjustedR2 =>
    match X with
    | none => .error .valueError
    | some (N, d) => .ok (1 - ((1 - linregressR yTrue yPred ^ 2) * ((N : ℝ) - 1)) / ((N : ℝ) - d - 1))
  | .mae => .ok (mean fun i => |yTrue i - yPred i|)
  | .normalisedMae => .ok ((mean fun i => |yTrue i - yPred i|) / std yTrue)
  | .rmse => .ok (Real.sqrt (mean fun i => (yTrue i - yPred i) ^ 2))
  | .other => .error .valueError

/-- The element type of an array: storing a float into an integer array truncates. -/
inductive DType | float | int

/-- Storing a computed float in an array made by `np.zeros_like` (`datasets.py:135,139` and `145,149`). -/
noncomputable def store : DType → ℝ → ℝ
  | .float, x => x
  | .int, x => pyInt x

/-- `np.max(X[:,j])` (`datasets.py:137,147`), for at least one row. -/
noncomputable def colMax (X : Fin (n+1) → Fin d → ℝ) (j : Fin d) : ℝ := Finset.univ.sup' Finset.univ_nonempty fun i => X i j

/-- `np.min(X[:,j])` (`datasets.py:138,148`), for at least one row. -/
noncomputable def colMin (X : Fin (n+1) → Fin d → ℝ) (j : Fin d) : ℝ := Finset.univ.inf' Finset.univ_nonempty fun i => X i j

/-- `standardise` (`datasets.py:132-140`) of an array with at least one row. Simplification: a constant column gives
`nan` in numpy and `-1` here. -/
noncomputable def standardise (t : DType) (X : Fin (n+1) → Fin d → ℝ) : Fin (n+1) → Fin d → ℝ := fun i j =>
  store t (2 * ((X i j - colMin X j) / (colMax X j - colMin X j)) - 1)

/-- `unstandardise` (`datasets.py:142-150`); `t` is the element type of `X`. -/
noncomputable def unstandardise (t : DType) (X : Fin k → Fin d → ℝ) (Xorig : Fin (n+1) → Fin d → ℝ) : Fin k → Fin d → ℝ :=
  fun i j => store t (1/2 * (X i j + 1) * (colMax Xorig j - colMin Xorig j) + colMin Xorig j)

end EQ.Data
