import Mathlib.Analysis.SpecialFunctions.Pow.Real
import Mathlib.MeasureTheory.Integral.IntervalIntegral.Basic
import Mathlib.Algebra.Polynomial.Eval.Defs
import Mathlib.Algebra.Polynomial.Degree.Defs

/-!
# Specification: probability laws, independent of the model

Expectations are written as plain integrals or finite sums; nothing here mentions recurrences,
Jacobi matrices or any definition of the model.
-/

namespace EQ.ParamSpec
open Polynomial

/-- Density, up to a constant, of the Beta law with shapes `A`, `B` on `[l, u]`. -/
noncomputable def betaWeight (A B l u x : ℝ) : ℝ := (x - l) ^ (A - 1) * (u - x) ^ (B - 1)

/-- Expectation of `f` for the Beta law with shapes `A`, `B` on `[l, u]`. -/
noncomputable def betaE (A B l u : ℝ) (f : ℝ → ℝ) : ℝ :=
  (∫ x in l..u, f x * betaWeight A B l u x) / ∫ x in l..u, betaWeight A B l u x

/-- Expectation of `f` for the uniform law on `[l, u]`. -/
noncomputable def uniformE (l u : ℝ) (f : ℝ → ℝ) : ℝ := (u - l)⁻¹ * ∫ x in l..u, f x

/-- Expectation of `f` for the arcsine (Chebyshev) law on `[l, u]`, density proportional to
`1 / sqrt ((x - l) (u - x))`. -/
noncomputable def arcsineE (l u : ℝ) (f : ℝ → ℝ) : ℝ :=
  (∫ x in l..u, f x / √((x - l) * (u - x))) / ∫ x in l..u, 1 / √((x - l) * (u - x))

/-- Expectation of `f` for the discrete law that gives sample `x` the weight `w / Σ w`. -/
noncomputable def sampleE (samples : List (ℝ × ℝ)) (f : ℝ → ℝ) : ℝ :=
  (samples.map fun s => s.2 * f s.1).sum / (samples.map Prod.snd).sum

end EQ.ParamSpec
