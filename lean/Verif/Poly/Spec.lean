import Verif.Poly.Model
import Verif.Sampling.Spec

/-!
# Specification vocabulary for polynomial expansions
-/

namespace EQ.Poly.Spec
open EQ.Sampling EQ.Sampling.Spec

/-- The function an expansion stands for: `Σ_r c_r Ψ_{row r}(x)`. -/
noncomputable def expansion (params : List MParam) (elements : List (List ℕ)) (c : List ℝ)
    (x : List ℝ) : ℝ :=
  (List.zipWith (fun row a => a * basisFun params row x) elements c).sum

/-- `R c`: the coefficients of the uncorrected basis that a Gram-Schmidt correction amounts to. -/
def matVec (R : List (List ℝ)) (c : List ℝ) : List ℝ :=
  R.map fun row => (List.zipWith (· * ·) row c).sum

/-- Weighted sum of squared misfits of `f` to the data. -/
noncomputable def misfit (pts : List (List ℝ)) (wts ys : List ℝ) (f : List ℝ → ℝ) : ℝ :=
  ∑ j ∈ Finset.range pts.length, wts.getD j 0 * (f (pts.getD j []) - ys.getD j 0) ^ 2

end EQ.Poly.Spec
