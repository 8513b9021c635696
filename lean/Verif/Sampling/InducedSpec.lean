import Verif.Param.Spec
import Mathlib.Algebra.Polynomial.Degree.Defs

/-!
# Specification of the induced law of a uniform parameter on `[-1, 1]`

Nothing here refers to recurrence coefficients, quadrature rules or to the sampler.
-/

namespace EQ.Sampling.Spec
open Polynomial EQ.ParamSpec

/-- `P` is an orthonormal polynomial of degree `n` for the uniform law on `[-1, 1]` (unique up to its sign). -/
structure Orthonormal (n : ℕ) (P : ℝ[X]) : Prop where
  degree : P.natDegree = n
  orth : ∀ Q : ℝ[X], Q.natDegree < n → uniformE (-1) 1 (fun x => P.eval x * Q.eval x) = 0
  norm : uniformE (-1) 1 (fun x => P.eval x ^ 2) = 1

/-- The distribution function of the law with density `P ^ 2 / 2` on `[-1, 1]`. -/
noncomputable def inducedF (P : ℝ[X]) (x : ℝ) : ℝ := ∫ t in (-1 : ℝ)..x, P.eval t ^ 2 / 2

/-- The same on `[l, u]`. -/
structure OrthonormalOn (l u : ℝ) (n : ℕ) (P : ℝ[X]) : Prop where
  degree : P.natDegree = n
  orth : ∀ Q : ℝ[X], Q.natDegree < n → uniformE l u (fun x => P.eval x * Q.eval x) = 0
  norm : uniformE l u (fun x => P.eval x ^ 2) = 1

/-- The distribution function of the law with density `P ^ 2 / (u - l)` on `[l, u]`. -/
noncomputable def inducedOn (l u : ℝ) (P : ℝ[X]) (x : ℝ) : ℝ := ∫ t in l..x, P.eval t ^ 2 / (u - l)

end EQ.Sampling.Spec
