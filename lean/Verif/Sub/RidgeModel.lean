import Verif.Sub.FitModel
import Verif.Data.Model

/-!
# Model of `equadratures/subspaces.py`: active subspaces of samples and the subspace polynomial

`k + 1` samples in `m` dimensions. Only `poly_method='least-squares'` (the default) is modelled.
-/

namespace EQ.Sub
open EQ.Basis EQ.Param EQ.Sampling EQ.Poly Matrix
variable {K k m : ℕ}

/-- `Parameter(distribution='uniform', lower=l, upper=u, ...)` (parameter.py:64-83, uniform.py:18-34): what `get_poly` and
`get_poly_grad` read. Quadrature rules are not read on user-defined meshes; the last three fields are arbitrary. -/
noncomputable def uniformParam (l u : ℝ) : MParam :=
  ⟨jacobiRow (mkUniform (some l) (some u)).shapeParameterA (mkUniform (some l) (some u)).shapeParameterB
    (mkUniform (some l) (some u)).lower (mkUniform (some l) (some u)).upper, some l, some u, (mkUniform (some l) (some u)).mean,
    fun _ _ => 0, fun _ => 0, fun _ => 1⟩

/-- A `Poly` object after `set_model`. -/
structure Fitted where
  basis : Expansion
  coeffs : List ℝ

/-- What numpy returns: `np.linalg.lstsq(A, b)[0]` (with the number of columns of `A`), `np.linalg.eigh(C)` and `e.argsort()`. -/
structure External (m : ℕ) where
  lstsq : List (List ℝ) → List ℝ → ℕ → List ℝ
  eigh : Matrix (Fin m) (Fin m) ℝ → (Fin m → ℝ) × Matrix (Fin m) (Fin m) ℝ
  argsort : (Fin m → ℝ) → Fin m → Fin m

/-- `Poly(..., method='least-squares', sampling_args={'sample-points': pts, 'sample-outputs': ys})` and `set_model()`: the mesh
`user-defined` (poly.py:103-118, 229-261, userdefined.py:11-15, sampling_template.py:10-20), the outputs as model values
(poly.py:389-430) and the coefficients (poly.py:489-493, 507, solver.py:61-66). Outputs that are `nan` are not modelled here. -/
noncomputable def fitSamples (lstsq : List (List ℝ) → List ℝ → ℕ → List ℝ) (B : Expansion) (pts : List (List ℝ)) (ys : List ℝ) :
    Except Err Fitted :=
  let w := sampleWeights (multiPoly B.params B.elements B.dims pts) pts.length
  match B.getPoly none pts with
  | .error e => .error e
  | .ok P => .ok ⟨B, lstsq (designMatrix P w) (rhs w ys) P.length⟩

/-- subspaces.py:147 `polygrad = self.full_space_poly.get_polyfit_grad(X)`: one column per point. -/
noncomputable def polygrad (F : Fitted) (X : Matrix (Fin K) (Fin m) ℝ) : Except Err (Matrix (Fin m) (Fin K) ℝ) :=
  match F.basis.polyfitGrad none F.coeffs (rowList X) with
  | .error e => .error e
  | .ok G => .ok fun v i => (G.getD v []).getD i 0

/-- The attributes of a `Subspaces` object of the method `active-subspace`: `sample_points`, `sample_outputs`, `_eigenvalues` and
`_subspace`. -/
structure Active (k m : ℕ) where
  points : Matrix (Fin (k + 1)) (Fin m) ℝ
  outputs : Fin (k + 1) → ℝ
  eigenvalues : Fin m → ℝ
  W : Matrix (Fin m) (Fin m) ℝ

/-- `Subspaces('active-subspace', full_space_poly=F)` without bootstrap (subspaces.py:70-72, 127-156, 173-176) where `X` and `ys` are
`F.get_points()` and `F.get_model_evaluations()`. -/
noncomputable def activeOfPoly (E : External m) (F : Fitted) (X : Matrix (Fin (k + 1)) (Fin m) ℝ) (ys : Fin (k + 1) → ℝ) :
    Except Err (Active k m) :=
  match polygrad F X with
  | .error e => .error e
  | .ok g =>
    let (e, V) := E.eigh (gradientCovariance g)
    let (eigs, W) := activeSubspace e V (E.argsort e)
    .ok ⟨Data.standardise .float X, ys, eigs, W⟩

/-- `Subspaces('active-subspace', sample_points=X, sample_outputs=ys, polynomial_degree=p)` (subspaces.py:45-72) for samples of
floating-point type. -/
noncomputable def activeOfSamples (E : External m) (p : ℕ) (X : Matrix (Fin (k + 1)) (Fin m) ℝ) (ys : Fin (k + 1) → ℝ) :
    Except Err (Active k m) :=
  let S : Matrix (Fin (k + 1)) (Fin m) ℝ := Data.standardise .float X
  match fitSamples E.lstsq ⟨List.replicate m (uniformParam (-1) 1), fitElements m p, none⟩ (rowList S) (List.ofFn ys) with
  | .error e => .error e
  | .ok F => activeOfPoly E F S ys

/-- subspaces.py:75-99 `get_subspace_polynomial` for `subspace_dimension=n`, `polynomial_degree=p`; line 91 fails if there are not
`n` columns. -/
noncomputable def subspacePolynomial (E : External m) (s : Active k m) (n p : ℕ) : Except Err Fitted :=
  if h : n ≤ m then
    let Y : Matrix (Fin (k + 1)) (Fin n) ℝ := s.points * s.W.submatrix id (Fin.castLE h)
    fitSamples E.lstsq ⟨List.ofFn fun i => uniformParam (lows Y i) (highs Y i), fitElements n p, none⟩ (rowList Y)
      (List.ofFn s.outputs)
  else .error .indexError

/-- subspaces.py:161-166, one bootstrap trial: the eigenvalues for the points with the indices `b` (`np.random.randint(0, M, size=M)`),
in descending order (`np.flipud`). -/
noncomputable def bootTrial (E : External m) (F : Fitted) (X : Matrix (Fin K) (Fin m) ℝ) (b : Fin K → Fin K) : Except Err (Fin m → ℝ) :=
  match polygrad F (X.submatrix b id) with
  | .error e => .error e
  | .ok g => .ok fun j => (E.eigh (gradientCovariance g)).1 j.rev

/-- `Subspaces('active-subspace', full_space_poly=F, bootstrap=True)` (subspaces.py:131, 157-173): the object and the attributes
`_eigenvalues_lower` and `_eigenvalues_upper`; `draws` are the random indices of the 50 trials. -/
noncomputable def bootstrapOfPoly (E : External m) (F : Fitted) (X : Matrix (Fin (k + 1)) (Fin m) ℝ) (ys : Fin (k + 1) → ℝ)
    (draws : Fin 50 → Fin (k + 1) → Fin (k + 1)) : Except Err (Active k m × (Fin m → ℝ) × (Fin m → ℝ)) :=
  match activeOfPoly E F X ys with
  | .error e => .error e
  | .ok s =>
    match (List.ofFn draws).mapM (bootTrial E F X) with
    | .error e => .error e
    | .ok trials => .ok (s, fun j => (trials.map fun t => t j).min?.getD 0, fun j => (trials.map fun t => t j).max?.getD 0)

end EQ.Sub
