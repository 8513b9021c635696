import Verif.Corr.DensityProps
import Verif.Poly.EndGrid

/-!
# Model of the equation for the fictive correlations, `/repo/equadratures/correlations.py`
-/

namespace EQ.Corr

open EQ.Basis EQ.Param EQ.Poly EQ.Sampling

/-- The parameter `p1` (`correlations.py:40-42`). -/
noncomputable def meshParam : EParam := ⟨mkUniform (some (-8)) (some 8), some (-8), some 8, .none⟩

/-- Points and weights of the mesh on the square (`correlations.py:43-48`): tensor grid of order 31 in both directions, the weights
multiplied by the area. -/
noncomputable def natafMesh (E : EighArgsort) : Except Err (List (List ℝ) × List ℝ) :=
  match endGrid E [meshParam, meshParam] [31, 31] with
  | .error e => .error e
  | .ok (pts, wts) => .ok (pts, wts.map fun w => w * (8 - -8) ^ 2)

/-- The standardised marginal as a function of the normal variable, `tp11` and `tp22` (`correlations.py:57-61`). -/
noncomputable def standardised (Phi icdf : ℝ → ℝ) (mean variance : ℝ) (p : ℝ) : ℝ := (icdf (Phi p) - mean) / Real.sqrt variance

/-- `bivariateNormalPDF` (`correlations.py:65`). -/
noncomputable def bivariate (rho x y : ℝ) : ℝ :=
  1.0 / (2.0 * Real.pi * Real.sqrt (1.0 - rho ^ 2)) * Real.exp (-1.0 / (2.0 * (1.0 - rho ^ 2)) * (x ^ 2 - 2.0 * rho * x * y + y ^ 2))

/-- `check_difference` (`correlations.py:63-67`): the coefficients are reversed by `np.flipud`, then multiplied with the density at the
points. -/
noncomputable def checkDifference (pts : List (List ℝ)) (w : List ℝ) (t1 t2 : ℝ → ℝ) (target rho : ℝ) : ℝ :=
  let coefficients := (List.zipWith (fun p w => t1 (p.getD 0 0) * t2 (p.getD 1 0) * w) pts w).reverse
  let density := pts.map fun p => bivariate rho (p.getD 0 0) (p.getD 1 0)
  (List.zipWith (fun c f => c * f) coefficients density).sum - target

end EQ.Corr
