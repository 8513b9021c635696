import Verif.Tree.Model
import Verif.Sub.RidgeModel

/-!
# Model of `_fit_poly` (polytree.py:222-251)

The default `poly_method='least-squares'` is modelled; the index set is an argument.
-/

namespace EQ.Tree
open EQ.Basis EQ.Param EQ.Sampling EQ.Poly EQ.Sub

variable {d : ℕ}

/-- `np.amin` of a column (polytree.py:230). -/
noncomputable def least (col : List ℝ) : ℝ := col.foldl min (col.headD 0)

/-- `np.amax` of a column (polytree.py:231). -/
noncomputable def greatest (col : List ℝ) : ℝ := col.foldl max (col.headD 0)

/-- polytree.py:228-236: the parameter of one input of a node, from the values of the samples. -/
noncomputable def nodeParam (col : List ℝ) : MParam :=
  if (least col - greatest col) ^ 2 < 0.01 then uniformParam (least col - 0.01) (greatest col + 0.01)
  else uniformParam (least col) (greatest col)

/-- polytree.py:225-241: the basis of a node; `elements` is the index set of line 238 or 240. -/
noncomputable def nodeBasis (elements : List (List ℕ)) (X : List (Pt d)) : Expansion :=
  ⟨List.ofFn fun j : Fin d => nodeParam (X.map fun x => x j), elements, none⟩

/-- `poly.get_polyfit(x)` at one point. -/
noncomputable def valueAt (F : Fitted) (x : Pt d) : ℝ :=
  match F.basis.polyfit F.coeffs [List.ofFn x] with
  | .ok v => v.headD 0
  | .error _ => 0

/-- polytree.py:222-251 `_fit_poly` for at least one sample: the mean squared error (line 245) and the polynomial; lines 246-249 if the fit
fails. `lstsq` stands for `np.linalg.lstsq`. -/
noncomputable def fitPoly (lstsq : List (List ℝ) → List ℝ → ℕ → List ℝ) (elements : List (List ℕ)) : Fit d := fun D =>
  match fitSamples lstsq (nodeBasis elements D.X) (D.X.map fun x => List.ofFn x) D.y with
  | .error _ => (⊤, none)
  | .ok F => (((mse (valueAt F) D : ℝ) : WithTop ℝ), some (valueAt F))

end EQ.Tree
