import Verif.Sampling.Model
import Mathlib.Algebra.BigOperators.Group.Finset.Basic

/-!
# Specification vocabulary for meshes
-/

namespace EQ.Sampling.Spec
open EQ.Param EQ.Sampling

/-- Entry of a matrix given by its rows. -/
def entry (M : List (List ℝ)) (i j : ℕ) : ℝ := (M.getD i []).getD j 0

/-- The orthonormal polynomial of degree `n` of a parameter at `x`, as the parameter itself
reports it when asked for degree `n`. -/
noncomputable def univ (P : MParam) (n : ℕ) (x : ℝ) : ℝ := (orthoTables P.ab (n + 1) x).poly n

/-- The product basis function with multi-index `row` at the point `x`. -/
noncomputable def basisFun : List MParam → List ℕ → List ℝ → ℝ
  | P :: Ps, n :: row, x :: xs => univ P n x * basisFun Ps row xs
  | _, _, _ => 1

/-- A parameter whose recurrence coefficients are those of a probability measure with enough
points of support (`b_0 = 1`, all other `b_k > 0`), and for which the eigenvalue routine and
`argsort` return what their documentation promises. -/
structure Valid (P : MParam) : Prop where
  b0 : (P.ab 0).2 = 1
  pos : ∀ k, 1 ≤ k → 0 < (P.ab k).2
  eigh : ∀ n, EighContract (jacobiMatrix P.ab (n + 1)) (P.eigD n) (P.eigV n)
  sort : ∀ n, ArgsortContract (P.eigD n) (P.argsort n)

/-- `x` comes strictly before `y` in lexicographic order: the first difference decides. -/
def LexLt (x y : List ℝ) : Prop :=
  ∃ pre a b s t, x = pre ++ a :: s ∧ y = pre ++ b :: t ∧ a < b

end EQ.Sampling.Spec
