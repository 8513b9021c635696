import Verif.Opt.OmorfLinear
import Mathlib.Analysis.Real.Sqrt

/-!
# Model of the random sampling directions of `equadratures/optimisation.py`

`_random_directions`, used for the sample sets if the option `random-initial` is set. The draws of `np.random.normal` and the
orthogonal factor of `np.linalg.qr` are arguments.
-/

namespace EQ.Opt

variable {n : ℕ}

open Classical in
/-- optimisation.py:429-433: the coordinates at a bound, in order. -/
noncomputable def atBound (lower upper : Pt n) : List (Fin n) := (List.finRange n).filter fun c => lower c = 0 ∨ upper c = 0

open Classical in
/-- optimisation.py:432-434: the other coordinates, in order. -/
noncomputable def offBound (lower upper : Pt n) : List (Fin n) := (List.finRange n).filter fun c => ¬(lower c = 0 ∨ upper c = 0)

open Classical in
/-- optimisation.py:438-439: column `i` of `Q`; `Qred` are the entries of the orthogonal factor. -/
noncomputable def qCol (Qred : ℕ → ℕ → ℝ) (lower upper : Pt n) (i : ℕ) : Pt n := fun c =>
  if lower c = 0 ∨ upper c = 0 then 0 else Qred ((offBound lower upper).idxOf c) i

open Classical in
/-- optimisation.py:448, 450: the direction that leads away from the bound. -/
noncomputable def away (lower : Pt n) (c : Fin n) : ℝ := if lower c = 0 then 1 else -1

/-- A coordinate vector. -/
def along (c : Fin n) (t : ℝ) : Pt n := fun d => if d = c then t else 0

open Classical in
/-- optimisation.py:458-463: a further direction, made from the draw `z`. -/
noncomputable def further (lower upper z : Pt n) : Pt n :=
  let d : Pt n := fun c => if (lower c = 0 ∨ upper c = 0) ∧ z c * away lower c < 0 then z c * -1 else z c
  fun c => d c / √(∑ i, d i ^ 2)

/-- A direction scaled by `_get_scale`. -/
noncomputable def scaled (d : Pt n) (delta : ℝ) (lower upper : Pt n) : Pt n := fun c => getScale d delta lower upper * d c

open Classical in
/-- optimisation.py:424-466 `_random_directions`: column `j` of `direcs`. -/
noncomputable def randCol (Qred : ℕ → ℕ → ℝ) (z : ℕ → Pt n) (del : ℝ) (lower upper : Pt n) (j : ℕ) : Pt n :=
  let k := (offBound lower upper).length
  if j < k then scaled (qCol Qred lower upper j) del lower upper
  else if j < n then
    match (atBound lower upper)[j - k]? with
    | some c => scaled (along c (away lower c)) del lower upper
    | none => 0
  else if j < n + k then -fun c => getScale (-qCol Qred lower upper (j - n)) del lower upper * qCol Qred lower upper (j - n) c
  else if j < 2 * n then
    match (atBound lower upper)[j - n - k]? with
    | some c =>
      let t := if upper c - lower c > del then 2 * away lower c * del else 1/2 * away lower c * (upper c - lower c)
      scaled (along c t) 1 lower upper
    | none => 0
  else scaled (further lower upper (z (j - 2 * n))) del lower upper

/-- The orthogonal factor of a square matrix with `k` rows. -/
def Orthogonal (k : ℕ) (Q : ℕ → ℕ → ℝ) : Prop :=
  ∀ i < k, ∀ j < k, ∑ r ∈ Finset.range k, Q r i * Q r j = if i = j then 1 else 0

/-- optimisation.py:385: the random directions of the outside calls are those of `_random_directions` for some draws. -/
def RandDirs (env : Env n) : Prop := ∀ (s : St n) (num : ℕ), ∃ Q z,
  Orthogonal (offBound (fun c => s.lo c - s.sOld c) fun c => s.hi c - s.sOld c).length Q ∧ (∀ i, z i ≠ 0) ∧
  ∀ i, env.randDirs s num (i + 1) = randCol Q z s.del (fun c => s.lo c - s.sOld c) (fun c => s.hi c - s.sOld c) i

end EQ.Opt
