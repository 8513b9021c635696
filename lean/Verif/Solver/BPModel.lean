import Verif.Solver.Model
import Mathlib.Order.WithBot
import Mathlib.Algebra.Order.Floor.Semiring
import Mathlib.Algebra.Order.Archimedean.Real.Basic

/-!
# Model of the basis pursuit de-noising solver of `equadratures/solver.py`

`use_CG` is off in every call of the package and only that case is modelled; `verbose` only prints.
`np.linalg.solve` is an argument that may raise `LinAlgError`.
-/

namespace EQ.Solver
open Matrix EQ.Basis

/-- `np.linalg.solve(M, v)`. -/
abbrev Solve := (n : ℕ) → Mat n n → Vec n → Except Err (Vec n)

/-- The loop variables of `_l1qc_newton`; `fu1`, `fu2`, `fe` and `f` are functions of them. -/
structure L1 (m n : ℕ) where
  x : Vec n
  u : Vec n
  r : Vec m

namespace L1
variable {m n : ℕ}

/-- solver.py:306, 364. -/
def fu1 (s : L1 m n) : Vec n := s.x - s.u
/-- solver.py:307, 365. -/
def fu2 (s : L1 m n) : Vec n := -s.x - s.u
/-- solver.py:308, 367. -/
noncomputable def fe (eps : ℝ) (s : L1 m n) : ℝ := 0.5 * (s.r ⬝ᵥ s.r - eps ^ 2)
/-- solver.py:309, 368: the functional. -/
noncomputable def f (eps tau : ℝ) (s : L1 m n) : ℝ :=
  ∑ i, s.u i - (1 / tau) *
    (∑ i, Real.log (-s.fu1 i) + ∑ i, Real.log (-s.fu2 i) + Real.log (-s.fe eps))

/-- solver.py:360-362: the trial point of the line search. -/
def move (A : Mat m n) (s : L1 m n) (dx du : Vec n) (t : ℝ) : L1 m n :=
  { x := s.x + t • dx, u := s.u + t • du, r := s.r + t • A.mulVec dx }

/-- solver.py:315-317: `ntgz`. -/
noncomputable def ntgz (A : Mat m n) (eps : ℝ) (s : L1 m n) : Vec n :=
  fun i => 1 / s.fu1 i - 1 / s.fu2 i + 1 / s.fe eps * Aᵀ.mulVec s.r i

/-- solver.py:318: `ntgu`. -/
noncomputable def ntgu (tau : ℝ) (s : L1 m n) : Vec n :=
  fun i => -tau - 1 / s.fu1 i - 1 / s.fu2 i

/-- solver.py:321. -/
noncomputable def sig11 (s : L1 m n) : Vec n := fun i => 1 / s.fu1 i ^ 2 + 1 / s.fu2 i ^ 2
/-- solver.py:322. -/
noncomputable def sig12 (s : L1 m n) : Vec n := fun i => -1 / s.fu1 i ^ 2 + 1 / s.fu2 i ^ 2
/-- solver.py:325. -/
noncomputable def w1p (A : Mat m n) (eps tau : ℝ) (s : L1 m n) : Vec n :=
  fun i => s.ntgz A eps i - s.sig12 i / s.sig11 i * s.ntgu tau i

/-- solver.py:323, 327. -/
noncomputable def h11p (A : Mat m n) (eps : ℝ) (s : L1 m n) : Mat n n :=
  Matrix.diagonal (fun i => s.sig11 i - s.sig12 i ^ 2 / s.sig11 i) - (1 / s.fe eps) • (Aᵀ * A) +
    (1 / s.fe eps) ^ 2 • Matrix.vecMulVec (Aᵀ.mulVec s.r) (Aᵀ.mulVec s.r)

/-- solver.py:344. -/
noncomputable def du (tau : ℝ) (s : L1 m n) (dx : Vec n) : Vec n :=
  fun i => 1 / s.sig11 i * s.ntgu tau i - s.sig12 i / s.sig11 i * dx i

/-- solver.py:319, 370, 391: `np.dot(gradf.T, np.hstack([dx, du]))`. -/
noncomputable def slope (A : Mat m n) (eps tau : ℝ) (s : L1 m n) (dx du : Vec n) : ℝ :=
  -(1 / tau) * (∑ i, s.ntgz A eps i * dx i + ∑ i, s.ntgu tau i * du i)

/-- solver.py:347-353: the step lengths at which a constraint becomes active, and the root of the
quadratic. -/
noncomputable def limits (A : Mat m n) (eps : ℝ) (s : L1 m n) (dx du : Vec n) : List ℝ :=
  let aqe := A.mulVec dx ⬝ᵥ A.mulVec dx
  let bqe := 2.0 * (s.r ⬝ᵥ A.mulVec dx)
  let cqe := s.r ⬝ᵥ s.r - eps ^ 2
  (((List.finRange n).filter fun i => dx i - du i > 0).map fun i => -s.fu1 i / (dx i - du i)) ++
  (((List.finRange n).filter fun i => -dx i - du i > 0).map fun i => -s.fu2 i / (-dx i - du i)) ++
  [(-bqe + √(bqe ^ 2 - 4 * aqe * cqe)) / (2.0 * aqe)]

/-- solver.py:351: `smax`. -/
noncomputable def smax (A : Mat m n) (eps : ℝ) (s : L1 m n) (dx du : Vec n) : ℝ :=
  (s.limits A eps dx du).foldl min 1.0

/-- solver.py:356-380: the backtracking line search; `fuel` is the number of attempts left before the
search is given up (`none`: the previous iterate is returned). -/
noncomputable def search (A : Mat m n) (eps tau : ℝ) (s : L1 m n) (dx du : Vec n) :
    ℕ → ℝ → Option (L1 m n)
  | 0, _ => none
  | fuel + 1, t =>
    if (s.move A dx du t).f eps tau ≤ s.f eps tau + 0.01 * t * s.slope A eps tau dx du then
      some (s.move A dx du t)
    else search A eps tau s dx du fuel (0.5 * t)

/-- solver.py:313-398: the Newton loop, with at most `fuel` more passes (`newtonmaxiter = 50`). If
`A dx = 0` the root of the quadratic is `nan`, no trial point passes the test and the previous iterate
is returned after 33 attempts; the test on `cgres` compares norms. -/
noncomputable def newton (solve : Solve) (A : Mat m n) (eps tau newtontol : ℝ) :
    ℕ → L1 m n → Except Err (L1 m n)
  | 0, s => .ok s
  | fuel + 1, s =>
    match solve n (s.h11p A eps) (s.w1p A eps tau) with
    | .error e => .error e
    | .ok dx =>
      let res := (s.h11p A eps).mulVec dx - s.w1p A eps tau
      if √(res ⬝ᵥ res) / √(s.w1p A eps tau ⬝ᵥ s.w1p A eps tau) > 0.5 then .ok s
      else
        let du := s.du tau dx
        if A.mulVec dx ⬝ᵥ A.mulVec dx = 0 then .ok s
        else
          match s.search A eps tau dx du 32 (0.99 * s.smax A eps dx du) with
          | none => .ok s
          | some s' =>
            if -(s.slope A eps tau dx du) / 2 < newtontol then .ok s'
            else newton solve A eps tau newtontol fuel s'

end L1

/-- solver.py:298-398 `_l1qc_newton` with `newtonmaxiter = 50`: the residual is recomputed from the
starting point. -/
noncomputable def l1qcNewton {m n : ℕ} (solve : Solve) (A : Mat m n) (b : Vec m)
    (eps tau newtontol : ℝ) (x u : Vec n) : Except Err (L1 m n) :=
  L1.newton solve A eps tau newtontol 50 { x := x, u := u, r := A.mulVec x - b }

/-- solver.py:287-297: the log-barrier loop with `passes` passes; `tau` grows by the factor
`mu = 10`. -/
noncomputable def barrier {m n : ℕ} (solve : Solve) (A : Mat m n) (b : Vec m) (eps : ℝ) :
    ℕ → ℝ → Vec n → Vec n → Except Err (Vec n)
  | 0, _, x, _ => .ok x
  | k + 1, tau, x, u =>
    match l1qcNewton solve A b eps tau 1e-3 x u with
    | .error e => .error e
    | .ok s => barrier solve A b eps k (tau * 10) s.x s.u

/-- solver.py:226-297 `_bp_denoise(A, b, epsilon)` with the default arguments (no starting point,
`use_CG` off). The case of a zero starting point, where `tau` is infinite, is not modelled
faithfully: it is excluded in the theorems (`b ≠ 0`). -/
noncomputable def bpDenoise {m n : ℕ} (solve : Solve) (A : Mat m n) (b : Vec m) (eps : ℝ) :
    Except Err (Vec n) :=
  match solve m (A * Aᵀ) b with
  | .error e => .error e
  | .ok w =>
    let x0 := Aᵀ.mulVec w
    let big := (List.ofFn fun i => |x0 i|).foldl max 0
    let u : Vec n := fun i => 0.95 * |x0 i| + 0.10 * big
    let tau := max ((2.0 * n + 1) / ∑ i, |x0 i|) 1.0
    let lbiter := ⌈(Real.log (2.0 * n + 1) - Real.log 1e-3 - Real.log tau) / Real.log 10⌉₊
    barrier solve A b eps (lbiter + 1) tau x0 u

/-! ## Cross-validation -/

/-- `int(np.ceil(N/5.0))`. -/
def foldSize (N : ℕ) : ℕ := (N + 4) / 5

/-- solver.py:143: the rows of validation set number `n`. -/
def foldRows (N n : ℕ) : List (Fin N) :=
  (List.range (foldSize N)).filterMap fun i =>
    if h : n * foldSize N + i < N then some ⟨n * foldSize N + i, h⟩ else none

/-- `np.delete(A, indices, 0)`: the rows kept. -/
def trainRows {N : ℕ} (idx : List (Fin N)) : List (Fin N) :=
  (List.finRange N).filter fun i => i ∉ idx

/-- `A[indices]`. -/
def takeRows {N n : ℕ} (A : Mat N n) (idx : List (Fin N)) : Mat idx.length n := fun i => A (idx.get i)

/-- `y[indices].flatten()`. -/
def takeVec {N : ℕ} (y : Vec N) (idx : List (Fin N)) : Vec idx.length := fun i => y (idx.get i)

/-- A de-noising solver: `_bp_denoise`. -/
abbrev Denoise (n : ℕ) := (m : ℕ) → Mat m n → Vec m → ℝ → Except Err (Vec n)

/-- solver.py:142-157: one fold: `none` if it contributes no error (empty or `LinAlgError`). -/
noncomputable def foldError {N n : ℕ} (bp : Denoise n) (A : Mat N n) (y : Vec N) (eta : ℝ)
    (idx : List (Fin N)) : Except Err (Option ℝ) :=
  if idx = [] then .ok none
  else
    match bp _ (takeRows A (trainRows idx)) (takeVec y (trainRows idx)) eta with
    | .error .linAlgError => .ok none
    | .error e => .error e
    | .ok x => .ok (some ((∑ i, |(takeRows A idx).mulVec x i - takeVec y idx i|) / idx.length /
        idx.length))

/-- solver.py:141-157: the five folds of one noise level; `errors` is the list kept from earlier
levels. -/
noncomputable def levelErrors {N n : ℕ} (bp : Denoise n) (A : Mat N n) (y : Vec N) (eta : ℝ) :
    List (List (Fin N)) → List ℝ → Except Err (List ℝ)
  | [], errors => .ok errors
  | idx :: rest, errors =>
    match foldError bp A y eta idx with
    | .error e => .error e
    | .ok none => levelErrors bp A y eta rest errors
    | .ok (some v) => levelErrors bp A y eta rest (errors ++ [v])

/-- solver.py:158-161: the mean error recorded (`⊤` for `np.inf`). -/
noncomputable def recordMean (errors : List ℝ) : WithTop ℝ :=
  if errors = [] then ⊤ else ((errors.sum / errors.length : ℝ) : WithTop ℝ)

/-- solver.py:137-161: the mean errors of all noise levels. The list `errors` is created once, before
the loop. -/
noncomputable def meanErrors {N n : ℕ} (bp : Denoise n) (A : Mat N n) (y : Vec N) :
    List ℝ → List ℝ → Except Err (List (WithTop ℝ))
  | [], _ => .ok []
  | eta :: etas, errors =>
    match levelErrors bp A y eta ((List.range 5).map (foldRows N)) errors with
    | .error e => .error e
    | .ok errors' =>
      match meanErrors bp A y etas errors' with
      | .error e => .error e
      | .ok means => .ok (recordMean errors' :: means)

/-- solver.py:162-171: the candidates are tried in the order `sorted_ind`; `LinAlgError` moves on to
the next, and when all have failed `ValueError` is raised. -/
noncomputable def firstSolvable {N n : ℕ} (bp : Denoise n) (A : Mat N n) (y : Vec N)
    (eta : List ℝ) : List ℕ → Except Err (Vec n)
  | [] => .error .valueError
  | i :: rest =>
    match bp N A y (eta.getD i 0) with
    | .error .linAlgError => firstSolvable bp A y eta rest
    | .error e => .error e
    | .ok x => .ok x

/-- solver.py:126-136: the candidate noise levels; `noise_level` is `None`, a list, or (as a list of
length one) a number. -/
noncomputable def noiseLevels : Option (List ℝ) → List ℝ
  | none => [-8, -7, -6, -5, -4, -3, -2, -1].map fun i : ℤ => (10 : ℝ) ^ i
  | some l => l

/-- solver.py:122-174 `basis_pursuit_denoising`. -/
noncomputable def basisPursuit {N n : ℕ} (argsort : List (WithTop ℝ) → List ℕ) (bp : Denoise n)
    (A : Mat N n) (y : Vec N) (noiseLevel : Option (List ℝ)) : Except Err (Vec n) :=
  match meanErrors bp A y (noiseLevels noiseLevel) [] with
  | .error e => .error e
  | .ok means => firstSolvable bp A y (noiseLevels noiseLevel) (argsort means)

end EQ.Solver
