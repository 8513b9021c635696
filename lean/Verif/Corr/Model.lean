import Verif.Basis.Model
import Mathlib.Data.Matrix.Mul
import Mathlib.LinearAlgebra.Matrix.NonsingularInverse
import Mathlib.Data.Real.Sign
import Mathlib.Analysis.SpecialFunctions.Exp
import Mathlib.Analysis.Real.Pi.Bounds

/-!
# Model of `/repo/equadratures/correlations.py`

`d` parameters, samples are rows. Factorisations and distribution functions are arguments with contracts stated in the
property files.
-/

namespace EQ.Corr

open EQ.Basis Matrix

/-- The fictive correlation matrix `R0` (`correlations.py:50-78`): the identity whose entries above the diagonal are replaced
by zero if the requested correlation is zero and otherwise by the root `rho i j` found by `optimize.newton`, which is copied
below the diagonal. Simplification: the root finding (`correlations.py:56-69`) is the argument `rho`; its failure to
converge, an exception of scipy, is left out. -/
noncomputable def fictive (R : Matrix (Fin d) (Fin d) ℝ) (rho : Fin d → Fin d → ℝ) : Matrix (Fin d) (Fin d) ℝ :=
  open Classical in
  Matrix.of fun i j =>
    if i < j then (if R i j = 0 then 0 else rho i j)
    else if j < i then (if R j i = 0 then 0 else rho j i)
    else 1

/-- `get_correlated_samples` for given uncorrelated points `X` (`correlations.py:197-206`): multiply by the transposed
Cholesky factor, apply the standard normal distribution function `Phi` and then the inverse distribution function of each
parameter. -/
noncomputable def correlatedSamples (A : Matrix (Fin d) (Fin d) ℝ) (Phi : ℝ → ℝ) (icdf : Fin d → ℝ → ℝ)
    (X : Matrix (Fin N) (Fin d) ℝ) : Matrix (Fin N) (Fin d) ℝ :=
  Matrix.of fun p i => icdf i (Phi ((X * Aᵀ) p i))

/-- Density of the standard normal distribution, `norm.pdf` (`correlations.py:225`). -/
noncomputable def normPdf (u : ℝ) : ℝ := Real.exp (-u ^ 2 / 2) / Real.sqrt (2 * Real.pi)

/-- Density of the centred normal distribution with covariance `S`, `multivariate_normal(mean=0, cov=S).pdf`
(`correlations.py:224`). -/
noncomputable def multinormPdf (S : Matrix (Fin d) (Fin d) ℝ) (u : Fin d → ℝ) : ℝ :=
  Real.exp (-(u ⬝ᵥ S⁻¹ *ᵥ u) / 2) / Real.sqrt ((2 * Real.pi) ^ d * S.det)

/-- `get_pdf` at one point `x` (`correlations.py:208-227`); `ppf` is `norm.ppf`, `cdf` and `pdf` are those of the
parameters. -/
noncomputable def jointPdf (R0 : Matrix (Fin d) (Fin d) ℝ) (ppf : ℝ → ℝ) (cdf pdf : Fin d → ℝ → ℝ) (x : Fin d → ℝ) : ℝ :=
  let U := fun i => ppf (cdf i (x i))
  multinormPdf R0 U / (∏ i, normPdf (U i)) * ∏ i, pdf i (x i)

/-- `WPsi` (`correlations.py:109-111`): the basis values at the samples, one row per sample, scaled by the square root of the
weight `1/N`. -/
noncomputable def weighted (Psi : Matrix (Fin N) (Fin P) ℝ) : Matrix (Fin N) (Fin P) ℝ :=
  Matrix.of fun p k => Real.sqrt (1 / N) * Psi p k

/-- `R_Psi` after its first row has been multiplied by the sign of its first entry (`correlations.py:114-117`); `Rq` is the
triangular factor returned by `np.linalg.qr`. -/
noncomputable def fixSign (Rq : Matrix (Fin (P+1)) (Fin (P+1)) ℝ) : Matrix (Fin (P+1)) (Fin (P+1)) ℝ :=
  Matrix.of fun i j => if i = 0 then Rq i j * Real.sign (Rq 0 0) else Rq i j

/-- `inv_R_Psi` of the corrected polynomial (`correlations.py:119`); `np.linalg.inv` raises for singular matrices. -/
noncomputable def invR (Rq : Matrix (Fin (P+1)) (Fin (P+1)) ℝ) : Except Err (Matrix (Fin (P+1)) (Fin (P+1)) ℝ) :=
  open Classical in
  if (fixSign Rq).det = 0 then .error .linAlgError else .ok (fixSign Rq)⁻¹

/-- `get_poly` of the corrected polynomial at one point, from the values `psi` of the uncorrected basis there
(`poly.py:683-700`): in one dimension the values are returned before the correction is applied. -/
noncomputable def correctedPoly (dimensions : ℕ) (inv : Matrix (Fin (P+1)) (Fin (P+1)) ℝ) (psi : Fin (P+1) → ℝ) :
    Fin (P+1) → ℝ :=
  if dimensions = 1 then psi else invᵀ *ᵥ psi

end EQ.Corr
