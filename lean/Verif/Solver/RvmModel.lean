import Verif.Solver.Model
import Mathlib.Analysis.SpecialFunctions.Log.Basic
import Mathlib.Data.List.Sort

/-!
# Model of the relevance vector machine (solver.py:507-559)

The right-hand side is a one-dimensional array (`rvm1d`, the case of sample outputs given as a vector)
or a column (`rvmColumn`, what `set_model` passes on). `np.linalg.inv` is a parameter. A division by
zero, which numpy turns into `inf`/`nan`, is the outcome `none`: nothing is claimed about such runs.
-/

namespace EQ.Solver
open Matrix EQ.Basis

/-- `np.linalg.inv`. -/
abbrev Inv := (r : ℕ) → Mat r r → Except Err (Mat r r)

/-- The variables of the loop: `Phi`, `alpha`, `alpha_0`, `Sigma`, `mu`, `remaining_coeff_ind`,
`removed`, `all_L`. -/
structure Rvm (K card : ℕ) where
  r : ℕ
  Phi : Mat K r
  alpha : Vec r
  alpha0 : ℝ
  Sigma : Mat r r
  mu : Vec r
  remaining : List (Fin card)
  removed : List (Fin card)
  allL : List ℝ

variable {K card : ℕ}

/-- An outcome: `none` after a division by zero. -/
abbrev Outcome (α : Type) := Option (Except Err α)

/-- solver.py:518-519 and 546-549: `Sigma = inv(alpha_0 Phi^T Phi + diag(alpha))`,
`mu = alpha_0 Sigma Phi^T b`. -/
noncomputable def posterior (inv : Inv) (b : Vec K) {r : ℕ} (Phi : Mat K r) (alpha : Vec r)
    (alpha0 : ℝ) : Except Err (Mat r r × Vec r) :=
  match inv r (alpha0 • (Phiᵀ * Phi) + diagonal alpha) with
  | .error e => .error e
  | .ok Sigma => .ok (Sigma, alpha0 • (Sigma * Phiᵀ).mulVec b)

/-- solver.py:508-523: the state before the loop. -/
noncomputable def Rvm.init (inv : Inv) (A : Mat K card) (b : Vec K) : Except Err (Rvm K card) :=
  match posterior inv b A 1 1 with
  | .error e => .error e
  | .ok (Sigma, mu) => .ok ⟨card, A, 1, 1, Sigma, mu, List.finRange card, [], []⟩

namespace Rvm
variable (s : Rvm K card)

/-- solver.py:531: `gamma`. -/
def gamma : Vec s.r := fun j => 1 - s.alpha j * s.Sigma j j

/-- solver.py:533: `remaining_ind = np.where(gamma >= 1e-10)[0]`. -/
noncomputable def keep : List (Fin s.r) := (List.finRange s.r).filter fun j => 1e-10 ≤ s.gamma j

/-- solver.py:535: `np.where(gamma < 1e-10)[0]`. -/
noncomputable def drop : List (Fin s.r) := (List.finRange s.r).filter fun j => s.gamma j < 1e-10

/-- solver.py:535-536: `remaining_coeff_ind[np.where(gamma < 1e-10)[0]]`; `none` is the `IndexError`
of a position outside the array. -/
noncomputable def dropped : Option (List (Fin card)) := s.drop.mapM fun j : Fin s.r =>
  s.remaining[j.val]?

/-- `np.setdiff1d(a, b)`: the sorted unique values of `a` that are not in `b`. -/
def setdiff1d (a b : List (Fin card)) : List (Fin card) :=
  ((a.filter fun i => i ∉ b).dedup).mergeSort fun i j => decide (i ≤ j)

/-- solver.py:527: the matrix `C`. -/
noncomputable def C : Mat K K := (1 / s.alpha0) • 1 + s.Phi * diagonal (fun j => 1 / s.alpha j) * s.Phiᵀ

/-- solver.py:528: the marginal likelihood `L`; `Cinv` is `np.linalg.inv(C)`. -/
noncomputable def L (b : Vec K) (Cinv : Mat K K) : ℝ :=
  -(1 / 2) * (K * Real.log (2 * Real.pi) + Real.log |s.C.det| + b ⬝ᵥ Cinv.mulVec b)

/-- solver.py:527-549: one pass through the loop body up to the new `mu`. -/
noncomputable def step (inv : Inv) (b : Vec K) : Outcome (Rvm K card) :=
  if s.alpha0 = 0 ∨ (∃ j, s.alpha j = 0) ∨ (∃ j, s.mu j = 0) ∨ b - s.Phi.mulVec s.mu = 0 then none
  else some <|
    match inv K s.C with
    | .error e => .error e
    | .ok Cinv =>
      match s.dropped with
      | none => .error .indexError
      | some out =>
        let rem := setdiff1d s.remaining out
        let alpha : Vec s.keep.length := fun j => s.gamma (s.keep.get j) / s.mu (s.keep.get j) ^ 2
        let res := b - s.Phi.mulVec s.mu
        let alpha0 := (K - ∑ j, s.gamma j) / (res ⬝ᵥ res)
        let Phi : Mat K s.keep.length := fun i j => s.Phi i (s.keep.get j)
        match posterior inv b Phi alpha alpha0 with
        | .error e => .error e
        | .ok (Sigma, mu) =>
          .ok ⟨_, Phi, alpha, alpha0, Sigma, mu, rem, s.removed ++ out, s.allL ++ [s.L b Cinv]⟩

/-- solver.py:550-553: `break`, from the second pass on, when the relative change of `L` is small
(`0/0` is `nan`, which is not smaller than `1e-3`). -/
noncomputable def stop : Bool :=
  match s.allL.getLast?, s.allL.dropLast.getLast?, s.allL.head? with
  | some a, some b, some c => decide (a - c ≠ 0 ∧ |(a - b) / (a - c)| < 1e-3)
  | _, _, _ => false

/-- solver.py:525-553: the loop, with `fuel` passes left. -/
noncomputable def loop (inv : Inv) (b : Vec K) : ℕ → Rvm K card → Outcome (Rvm K card)
  | 0, s => some (.ok s)
  | fuel + 1, s =>
    match s.step inv b with
    | none => none
    | some (.error e) => some (.error e)
    | some (.ok s') => if s'.stop then some (.ok s') else loop inv b fuel s'

/-- solver.py:556-557: `mean_coeffs = np.zeros(card); mean_coeffs[remaining_coeff_ind] = mu`,
a `ValueError` if the lengths differ (numpy would repeat a single value; `c49_rvm_partition` shows the
lengths agree). -/
noncomputable def scatter : Except Err (Vec card) :=
  if s.remaining.length = s.r then
    .ok fun i => ((s.remaining.zip (List.ofFn s.mu)).lookup i).getD 0
  else .error .valueError

end Rvm

/-- solver.py:507-559 for a one-dimensional right-hand side. With `max_iter = 0` the loop variable
`i` is never bound (solver.py:555). -/
noncomputable def rvm1d (inv : Inv) (A : Mat K card) (b : Vec K) (maxIter : Option ℕ) :
    Outcome (Vec card) :=
  match Rvm.init inv A b with
  | .error e => some (.error e)
  | .ok s =>
    if maxIter.getD 1000 = 0 then some (.error .unboundLocalError)
    else
      match s.loop inv b (maxIter.getD 1000) with
      | none => none
      | some (.error e) => some (.error e)
      | some (.ok s') => some s'.scatter

/-! ## Shapes

What numpy does with the shapes of the arrays in the loop, for a right-hand side that is
one-dimensional or a column. The values play no role here, so the number of columns kept in each pass
is arbitrary. -/

/-- The shape of an array. -/
abbrev Shape := List ℕ

/-- One axis of numpy's broadcasting. -/
def bcastAxis (a b : ℕ) : Except Err ℕ :=
  if a = b then .ok a else if a = 1 then .ok b else if b = 1 then .ok a else .error .valueError

/-- numpy's broadcasting of arrays with at most two axes (what occurs in the loop). -/
def bcast : Shape → Shape → Except Err Shape
  | [], s => .ok s
  | s, [] => .ok s
  | [a], [b] => (bcastAxis a b).map fun x => [x]
  | [a], [m, b] => (bcastAxis a b).map fun x => [m, x]
  | [m, a], [b] => (bcastAxis a b).map fun x => [m, x]
  | [m, a], [k, b] =>
    match bcastAxis m k with
    | .error e => .error e
    | .ok x => (bcastAxis a b).map fun y => [x, y]
  | _, _ => .error .valueError

/-- `@` on arrays with one or two axes. -/
def matmulShape : Shape → Shape → Except Err Shape
  | [a], [b] => if a = b then .ok [] else .error .valueError
  | [a], [b, c] => if a = b then .ok [c] else .error .valueError
  | [m, a], [b] => if a = b then .ok [m] else .error .valueError
  | [m, a], [b, c] => if a = b then .ok [m, c] else .error .valueError
  | _, _ => .error .valueError

/-- `np.diag`: a matrix from a vector, the diagonal of a matrix. -/
def diagShape : Shape → Except Err Shape
  | [n] => .ok [n, n]
  | [m, n] => .ok [min m n]
  | _ => .error .valueError

/-- `x[ind]` with `k` positions along the first axis. -/
def takeShape (k : ℕ) : Shape → Except Err Shape
  | [] => .error .indexError
  | _ :: s => .ok (k :: s)

/-- `x.T`. -/
def transposeShape (s : Shape) : Shape := s.reverse

/-- The shapes of `alpha`, `Alpha_diag`, `Phi`, `Sigma`, `mu`. -/
structure RvmShapes where
  alpha : Shape
  alphaDiag : Shape
  phi : Shape
  sigma : Shape
  mu : Shape

/-- solver.py:508-523: the shapes before the loop; `b` is the shape of the right-hand side. -/
def RvmShapes.init (K card : ℕ) (b : Shape) : Except Err RvmShapes := do
  let alphaDiag ← diagShape [card]
  let sigma ← bcast (← matmulShape [card, K] [K, card]) alphaDiag
  let mu ← matmulShape (← matmulShape sigma [card, K]) b
  .ok ⟨[card], alphaDiag, [K, card], sigma, mu⟩

/-- solver.py:527-549: the shapes after one pass in which `k` positions are kept (`np.linalg.inv`
needs a square matrix; `Phi[:, remaining_ind]` has `k` columns). -/
def RvmShapes.step (K : ℕ) (b : Shape) (k : ℕ) (s : RvmShapes) : Except Err RvmShapes := do
  let d ← diagShape (← diagShape s.alphaDiag)
  let c ← bcast [K, K] (← matmulShape (← matmulShape s.phi d) (transposeShape s.phi))
  let _ ← matmulShape (← matmulShape (transposeShape b) c) b
  let gamma ← bcast s.alpha (← diagShape s.sigma)
  let alpha ← takeShape k (← bcast gamma s.mu)
  let _ ← bcast b (← matmulShape s.phi s.mu)
  let phi : Shape := [K, k]
  let alphaDiag ← diagShape alpha
  let sigma ← bcast (← matmulShape (transposeShape phi) phi) alphaDiag
  let mu ← matmulShape (← matmulShape sigma (transposeShape phi)) b
  .ok ⟨alpha, alphaDiag, phi, sigma, mu⟩

/-- solver.py:557: assigning `mu` to `r` entries of a one-dimensional array. -/
def assignShape (r : ℕ) : Shape → Except Err Unit
  | [] => .ok ()
  | [m] => if m = r ∨ m = 1 then .ok () else .error .valueError
  | [m, k] => if m = 1 ∧ (k = r ∨ k = 1) then .ok () else .error .valueError
  | _ => .error .valueError

/-- solver.py:507-559: the shapes through all passes of a run; the list gives the number of positions
kept in each. -/
def rvmShapes (K card : ℕ) (b : Shape) (kept : List ℕ) : Except Err Unit := do
  let s ← RvmShapes.init K card b
  let s ← kept.foldlM (fun s k => s.step K b k) s
  assignShape (kept.getLastD card) s.mu

end EQ.Solver
