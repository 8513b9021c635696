import Verif.Opt.Omorf
import Verif.Sub.RidgeModel
import Mathlib.Analysis.Calculus.FDeriv.Basic

/-!
# Model of the subproblems of the trust-region methods of `equadratures/optimisation.py`

The quadratic models, the steps computed from them, and the search for a new sample point. In `Opt.Model` and `Opt.Omorf` these
are outside calls; here they are spelled out down to the calls of scipy and numpy.
-/

namespace EQ.Opt
open EQ.Basis EQ.Poly EQ.Sub

variable {n : ℕ}

/-- `optimize.minimize(f, start, method='TNC', jac=g, bounds=...)`: objective, gradient, start, lower and upper bounds; the result
are the attributes `x` and `fun` (optimisation.py:732-735, 801-808). -/
abbrev Tnc (n : ℕ) := (Pt n → ℝ) → (Pt n → Pt n) → Pt n → Pt n → Pt n → Pt n × ℝ

/-- `optimize.linprog(c, bounds=...)['x']` (optimisation.py:721-722). -/
abbrev LinProg (n : ℕ) := Pt n → Pt n → Pt n → Pt n

/-- `np.linalg.lstsq(A, b)[0]` (solver.py:61-66), as in `Sub.External`. -/
abbrev Lstsq := List (List ℝ) → List ℝ → ℕ → List ℝ

/-! ## Quadratic models -/

/-- optimisation.py:777-782, 790: `_build_model` of the method `trust-region`. -/
noncomputable def buildTR (lstsq : Lstsq) (st : St n) (S : List (Pt n)) (f : List ℝ) : Except Err Fitted :=
  fitSamples lstsq ⟨List.ofFn fun i => uniformParam (st.lo i) (st.hi i), fitElements n 2, none⟩ (S.map List.ofFn) f

/-- `np.dot(x, self.U)` (optimisation.py:784, 804-805). -/
noncomputable def coords (U : Dirs n) (x : Pt n) : Fin U.length → ℝ := fun j => ∑ i, x i * U[j] i

/-- optimisation.py:784: the rows `Y` for the sample set `s :: l`. -/
noncomputable def coordsAll (U : Dirs n) (s : Pt n) (l : List (Pt n)) : Matrix (Fin (l.length + 1)) (Fin U.length) ℝ :=
  fun i => coords U ((s :: l).get i)

/-- optimisation.py:783-790: `_build_model` of the method `omorf`; `np.min` of no points raises. -/
noncomputable def buildRed (lstsq : Lstsq) (U : Dirs n) : List (Pt n) → List ℝ → Except Err Fitted
  | [], _ => .error .valueError
  | s :: l, f =>
    fitSamples lstsq ⟨List.ofFn fun j => uniformParam (lows (coordsAll U s l) j) (highs (coordsAll U s l) j),
      fitElements U.length 2, none⟩ (rowList (coordsAll U s l)) f

/-- `np.asscalar(my_poly.get_polyfit(y))` (optimisation.py:801, 804, 891). -/
noncomputable def valueAt {d : ℕ} (F : Fitted) (y : Fin d → ℝ) : ℝ :=
  match F.basis.polyfit F.coeffs [List.ofFn y] with
  | .ok vs => vs.headD 0
  | .error _ => 0

/-- `my_poly.get_polyfit_grad(y).flatten()` (optimisation.py:802, 805). -/
noncomputable def gradAt {d : ℕ} (F : Fitted) (y : Fin d → ℝ) : Fin d → ℝ := fun i =>
  match F.basis.polyfitGrad none F.coeffs [List.ofFn y] with
  | .ok G => (G.getD i []).headD 0
  | .error _ => 0

/-- optimisation.py:793-802, 807-809 with line 891: `_compute_step` of the method `trust-region`, and the value of the model at the
incumbent. -/
noncomputable def stepTR (tnc : Tnc n) (st : St n) (F : Fitted) : Step n :=
  let r := tnc (valueAt F) (gradAt F) st.sOld st.lo st.hi
  ⟨valueAt F st.sOld, r.1, r.2⟩

/-- The objective of optimisation.py:804. -/
noncomputable def objRed (U : Dirs n) (F : Fitted) (x : Pt n) : ℝ := valueAt F (coords U x)

/-- The gradient of optimisation.py:805: `np.dot(self.U, ...)`. -/
noncomputable def jacRed (U : Dirs n) (F : Fitted) (x : Pt n) : Pt n := fun i => ∑ j, U[j] i * gradAt F (coords U x) j

/-- optimisation.py:793-799, 803-809: `_compute_step` of the method `omorf`. -/
noncomputable def stepRed (tnc : Tnc n) (U : Dirs n) (st : St n) (F : Fitted) : Step n :=
  let r := tnc (objRed U F) (jacRed U F) st.sOld st.lo st.hi
  ⟨objRed U F st.sOld, r.1, r.2⟩

/-- optimisation.py:870-875: fit and step of the method `trust-region`. -/
noncomputable def buildStepTR (lstsq : Lstsq) (tnc : Tnc n) (st : St n) (S : List (Pt n)) (f : List ℝ) : Option (Step n) :=
  match buildTR lstsq st S f with
  | .ok F => some (stepTR tnc st F)
  | .error _ => none

/-! ## New sample points -/

/-- optimisation.py:637, 639-640, 667-668: `Del_S`. -/
noncomputable def delS (st : St n) (hatS : List (Pt n)) : ℝ :=
  if hatS.length > 0 then maxList (hatS.map fun y => normInf fun i => y i - st.sOld i) else st.del

/-- optimisation.py:637, 685-686: `Del_S` for the directions `U`. -/
noncomputable def delRed (U : Dirs n) (st : St n) (hatS : List (Pt n)) : ℝ :=
  if hatS.length > 0 then maxList (hatS.map fun y => √((project st U y).map fun t => t ^ 2).sum) else st.del

/-- optimisation.py:655-665 `phi_function_deriv` of the method `trust-region`: entry `(i, k)`. -/
noncomputable def phiTRDeriv (cfg : Cfg n) (st : St n) (hatS : List (Pt n)) (x : Pt n) (i : Fin n) (k : ℕ) : ℝ :=
  (if 1 ≤ k ∧ cfg.basis k i ≠ 0 then
    cfg.basis k i * ∏ j, ((x j - st.sOld j) / delS st hatS) ^ (cfg.basis k j - if j = i then 1 else 0) / (cfg.basis k j).factorial
  else 0) / delS st hatS

/-- optimisation.py:702-711: entry `(j, k)` of the derivative in the coordinates of the directions. -/
noncomputable def phiRedInner (d : ℕ) (U : Dirs n) (st : St n) (hatS : List (Pt n)) (x : Pt n) (j k : ℕ) : ℝ :=
  (if 1 ≤ k ∧ (redBasis d k).getD j 0 ≠ 0 then
    (redBasis d k).getD j 0 * ∏ l ∈ Finset.range d, ((project st U x).getD l 0 / delRed U st hatS) ^
      ((redBasis d k).getD l 0 - if l = j then 1 else 0) / ((redBasis d k).getD l 0).factorial
  else 0) / delRed U st hatS

/-- optimisation.py:701-712 `phi_function_deriv` of the directions `U`: entry `(i, k)`. -/
noncomputable def phiRedDeriv (d : ℕ) (U : Dirs n) (st : St n) (hatS : List (Pt n)) (x : Pt n) (i : Fin n) (k : ℕ) : ℝ :=
  ∑ j ∈ Finset.range d, (U.getD j 0) i * phiRedInner d U st hatS x j k

/-- optimisation.py:729, 731: `np.dot(phi_function_deriv(s), v)`. -/
noncomputable def jac (q : ℕ) (dφ : Pt n → Fin n → ℕ → ℝ) (v : ℕ → ℝ) (x : Pt n) : Pt n := fun i => dot q (dφ x i) v

/-- optimisation.py:727-740 `_find_new_point` with the quadratic basis functions. -/
noncomputable def findNew (tnc : Tnc n) (q : ℕ) (φ : Pt n → ℕ → ℝ) (dφ : Pt n → Fin n → ℕ → ℝ) (st : St n) (v : ℕ → ℝ) : Pt n :=
  let r1 := tnc (fun x => dot q v (φ x)) (jac q dφ v) st.sOld st.lo st.hi
  let r2 := tnc (fun x => -dot q v (φ x)) (fun x => -jac q dφ v x) st.sOld st.lo st.hi
  if |r1.2| > |r2.2| then r1.1 else r2.1

/-- optimisation.py:719-726 `_find_new_point` of the whole space for `omorf`. -/
noncomputable def findNewFull (lp : LinProg n) (φ : Pt n → ℕ → ℝ) (st : St n) (v : ℕ → ℝ) : Pt n :=
  let c : Pt n := fun i => v (i + 1)
  let x1 := lp c st.lo st.hi
  let x2 := lp (-c) st.lo st.hi
  if |dot (n + 1) v (φ x1)| > |dot (n + 1) v (φ x2)| then x1 else x2

/-! ## The outside calls of the methods -/

/-- optimisation.py:653-665 and 701-712, as functions of the basis functions alone: the matrix of their derivatives. It is what
`phi_function_deriv` computes (`c147_link`, `c147_link_omorf`). -/
noncomputable def gradOf (φ : Pt n → ℕ → ℝ) (x : Pt n) (i : Fin n) (k : ℕ) : ℝ := fderiv ℝ (fun y => φ y k) x (Pi.single i 1)

/-- optimisation.py:714-740 and 776-809 for the method `trust-region`. Outside remain `lstsq`, `optimize.minimize`, the random
directions and `argsort`. -/
noncomputable def trEnv (lstsq : Lstsq) (tnc : Tnc n) (randDirs : St n → ℕ → ℕ → Pt n) (argsort : List ℝ → List ℕ) : Env n where
  build := buildStepTR lstsq tnc
  newPoint := fun st φ v => some (findNew tnc (setSize n) φ (gradOf φ) st v)
  randDirs := randDirs
  argsort := argsort

/-- optimisation.py:714-740 and 776-809 for the method `omorf` with `d` directions; the choice of the directions is that of `e`. -/
noncomputable def omorfEnv (lstsq : Lstsq) (tnc : Tnc n) (lp : LinProg n) (d : ℕ) (e : OEnv n) : OEnv n :=
  { e with
    build := fun U st S f =>
      match buildRed lstsq U S f with
      | .ok F => some (stepRed tnc U st F)
      | .error _ => none
    newFull := fun st φ v => some (findNewFull lp φ st v)
    newRed := fun _ st φ v => some (findNew tnc (redSize d) φ (gradOf φ) st v) }

end EQ.Opt
