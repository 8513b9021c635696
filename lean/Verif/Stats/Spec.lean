import Verif.Poly.Spec
import Mathlib.Algebra.Polynomial.Eval.Defs
import Mathlib.Algebra.Polynomial.Module.Basic

/-!
# Specification vocabulary for statistics
-/

namespace EQ.Stats.Spec
open EQ.Param EQ.Sampling EQ.Sampling.Spec EQ.Poly.Spec
open scoped Polynomial

/-- Expectation of a function of independent inputs: integrate out one input after the other. -/
def prodE : List ((ℝ → ℝ) → ℝ) → (List ℝ → ℝ) → ℝ
  | [], f => f []
  | E :: Es, f => E fun x => prodE Es fun xs => f (x :: xs)

/-- `E` is the expectation under a law for which the polynomials of the parameter are
orthonormal: linear on polynomials, and `E (π_i π_j) = [i = j]`. -/
structure Law (P : MParam) (E : (ℝ → ℝ) → ℝ) : Prop where
  linear : ∃ L : ℝ[X] →ₗ[ℝ] ℝ, ∀ p : ℝ[X], E (fun x => p.eval x) = L p
  orth : ∀ i j, E (fun x => univ P i x * univ P j x) = if i = j then 1 else 0

/-- Variance of a function of the inputs. -/
def lawVar (Es : List ((ℝ → ℝ) → ℝ)) (f : List ℝ → ℝ) : ℝ :=
  prodE Es fun x => (f x - prodE Es f) ^ 2

/-- The multi-index `row` involves exactly the inputs in `S` (of `d` inputs). -/
def InvolvesExactly (d : ℕ) (row S : List ℕ) : Prop :=
  ∀ k < d, k ∈ S ↔ row.getD k 0 ≠ 0

/-- The rows together involve exactly the inputs in `S`. -/
def TogetherInvolve (d : ℕ) (rows : List (List ℕ)) (S : List ℕ) : Prop :=
  ∀ k < d, k ∈ S ↔ ∃ row ∈ rows, row.getD k 0 ≠ 0

open Classical in
/-- The part of the expansion that involves exactly the inputs in `S`. -/
noncomputable def component (params : List MParam) (elements : List (List ℕ)) (c : List ℝ)
    (S : List ℕ) (x : List ℝ) : ℝ :=
  (List.zipWith (fun row a =>
    if InvolvesExactly params.length row S then a * basisFun params row x else 0) elements c).sum

/-- Weighted sum of `(f(x_j) - m)^k` over the points. -/
noncomputable def centralSum (pts : List (List ℝ)) (wts : List ℝ) (f : List ℝ → ℝ) (m : ℝ)
    (k : ℕ) : ℝ :=
  ∑ j ∈ Finset.range pts.length, wts.getD j 0 * (f (pts.getD j []) - m) ^ k

open Classical in
/-- Contribution of the non-constant terms (those after the first) numbered `is` to a moment under
the quadrature, counted if the terms together involve exactly the inputs in `S`. -/
noncomputable def jointMoment (params : List MParam) (els : List (List ℕ)) (c : List ℝ)
    (pts : List (List ℝ)) (wts : List ℝ) (S is : List ℕ) : ℝ :=
  if TogetherInvolve params.length (is.map fun i => els.getD i []) S then
    ∑ j ∈ Finset.range pts.length, wts.getD j 0 *
      (is.map fun i => c.getD i 0 * basisFun params (els.getD i []) (pts.getD j [])).prod
  else 0

end EQ.Stats.Spec
