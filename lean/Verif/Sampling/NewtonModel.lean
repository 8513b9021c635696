import Verif.Sampling.Model
import Mathlib.Analysis.Matrix.PosDef
import Mathlib.Analysis.Matrix.Order
import Mathlib.Analysis.SpecialFunctions.Log.Basic

/-!
# Model of `get_newton_determinant_maximization` (`equadratures/subsampling.py`)

Numbers that are infinite or not a number are kept apart: `objective` has no value where numpy returns `inf` or `nan`.
-/

namespace EQ.Sampling
open EQ.Basis Matrix

/-- What a call may end in: a value, an exception, or never. -/
inductive Outcome (α : Type) where
  | ok (a : α)
  | raises (e : Err)
  | diverges

namespace Newton
variable {m n : ℕ}

/-- subsampling.py:86: `kappa = np.log(gap) * n/m` with `gap = 1.005` (71). -/
noncomputable def kappa (m n : ℕ) : ℝ := Real.log 1.005 * n / m

/-- subsampling.py:90, 95: the matrix `A.T * Z * A` (`_diag`, 165-170). -/
noncomputable def info (A : Matrix (Fin m) (Fin n) ℝ) (z : Fin m → ℝ) : Matrix (Fin n) (Fin n) ℝ := Aᵀ * diagonal z * A

/-- subsampling.py:90, 131: the objective. Where an argument of a logarithm is not positive numpy returns `inf` or `nan`. -/
noncomputable def objective (A : Matrix (Fin m) (Fin n) ℝ) (κ : ℝ) (z : Fin m → ℝ) : Option ℝ :=
  open Classical in
  if 0 < (info A z).det ∧ ∀ i, 0 < z i ∧ 0 < 1.0 - z i then
    some (-Real.log (info A z).det - κ * ∑ i, (Real.log (z i) + Real.log (1.0 - z i)))
  else none

/-- subsampling.py:95-97: the matrix `V`. -/
noncomputable def leverage (A : Matrix (Fin m) (Fin n) ℝ) (z : Fin m → ℝ) : Matrix (Fin m) (Fin m) ℝ := A * (info A z)⁻¹ * Aᵀ

/-- subsampling.py:98-106: the vector `g`. -/
noncomputable def grad (A : Matrix (Fin m) (Fin n) ℝ) (κ : ℝ) (z : Fin m → ℝ) (i : Fin m) : ℝ :=
  -leverage A z i i - κ * (1 / z i - 1 / (1 - z i))

/-- subsampling.py:107: the matrix `H`. -/
noncomputable def hess (A : Matrix (Fin m) (Fin n) ℝ) (κ : ℝ) (z : Fin m → ℝ) : Matrix (Fin m) (Fin m) ℝ :=
  (leverage A z).hadamard (leverage A z) + κ • diagonal fun i => 1 / z i ^ 2 + 1 / (1 - z i) ^ 2

/-- subsampling.py:110-117: the step `dz`. The two least squares problems with the Cholesky factor and its transpose are the
solution of the system with `H`. -/
noncomputable def direction (A : Matrix (Fin m) (Fin n) ℝ) (κ : ℝ) (z : Fin m → ℝ) : Fin m → ℝ :=
  let hg := (hess A κ z)⁻¹ *ᵥ grad A κ z
  let h1 := (hess A κ z)⁻¹ *ᵥ fun _ => 1
  fun i => -hg i + ((∑ j, hg j) / ∑ j, h1 j) * h1 i

/-- subsampling.py:120-124: the first step length. `np.vstack` of an empty array raises. -/
noncomputable def firstStep (z dz : Fin m → ℝ) : Except Err ℝ :=
  open Classical in
  let a1 := ((List.finRange m).filter fun i => dz i < 0).map fun i => 0.99 * -z i / dz i
  let a2 := ((List.finRange m).filter fun i => 0 < dz i).map fun i => (1 - z i) / dz i
  if a1 = [] ∨ a2 = [] then .error .valueError
  else .ok ((a1 ++ a2).foldl min 1.0)

/-- subsampling.py:128-133: the test of the line search for the step length `s`; a comparison with `nan` is false. -/
def accepts (A : Matrix (Fin m) (Fin n) ℝ) (κ : ℝ) (z dz : Fin m → ℝ) (fz : Option ℝ) (s : ℝ) : Prop :=
  ∃ f fp, fz = some f ∧ objective A κ (fun i => z i + s * dz i) = some fp ∧ fp ≤ f + 0.01 * s * ∑ i, grad A κ z i * dz i

/-- subsampling.py:125-135: the line search. The number of halvings, if the loop ends. -/
noncomputable def halvings (A : Matrix (Fin m) (Fin n) ℝ) (κ : ℝ) (z dz : Fin m → ℝ) (fz : Option ℝ) (s : ℝ) : Option ℕ :=
  open Classical in
  if h : ∃ j : ℕ, accepts A κ z dz fz (0.5 ^ j * s) then some (Nat.find h) else none

/-- subsampling.py:93-140: the loop, for the number of iterations left. `np.linalg.inv` raises for a singular matrix, `cholesky`
for infinite entries (`ValueError`) and for a matrix that is not positive definite. -/
noncomputable def loop (A : Matrix (Fin m) (Fin n) ℝ) (κ : ℝ) : ℕ → (Fin m → ℝ) → Option ℝ → Outcome (Fin m → ℝ)
  | 0, z, _ => .ok z
  | t + 1, z, fz =>
    open Classical in
    if (info A z).det = 0 then .raises .linAlgError
    else if ∃ i, z i = 0 ∨ 1 - z i = 0 then .raises .valueError
    else if ¬(hess A κ z).PosDef then .raises .linAlgError
    else
      let dz := direction A κ z
      match firstStep z dz with
      | .error e => .raises e
      | .ok s =>
        match halvings A κ z dz fz s with
        | none => .diverges
        | some j =>
          let zp := fun i => z i + 0.5 ^ j * s * dz i
          if -(∑ i, grad A κ z i * dz i) * 0.5 ≤ 1 / 10 ^ 12 then .ok zp
          else loop A κ t zp (objective A κ zp)

/-- subsampling.py:59-142: the relaxed solution for `k` rows. -/
noncomputable def relaxed (A : Matrix (Fin m) (Fin n) ℝ) (k : ℕ) : Outcome (Fin m → ℝ) :=
  if m < n then .raises .valueError
  else
    let z : Fin m → ℝ := fun _ => k / m
    loop A (kappa m n) 50 z (objective A (kappa m n) z)

/-- subsampling.py:59-152 `get_newton_determinant_maximization`: the positions returned, for `k` up to the number of rows. -/
noncomputable def newton (A : Matrix (Fin m) (Fin n) ℝ) (k : ℕ) : Outcome (List ℕ) :=
  match relaxed A k with
  | .ok z => .ok (newtonSelect (List.ofFn z) k)
  | .raises e => .raises e
  | .diverges => .diverges

end Newton
end EQ.Sampling
