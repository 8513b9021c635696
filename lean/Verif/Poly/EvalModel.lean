import Verif.Basis.Model
import Mathlib.Data.Real.Basic
import Mathlib.Tactic.Ring
import Mathlib.Tactic.Linarith
import Mathlib.Tactic.NormNum

/-!
# Evaluating models and gradients at points: C157
-/

namespace EQ.Poly
open EQ.Basis

/-! ## Model -/

/-- The loop of `evaluate_model` (`poly.py:953-955`): position `i` of the array, one point after the other. -/
def fillModel (f : List ℝ → ℝ) : List (List ℝ) → ℕ → List ℝ → List ℝ
  | [], _, out => out
  | p :: ps, i, out => fillModel f ps (i + 1) (out.set i (f p))

/-- `evaluate_model` (`poly.py:940-955`): zeros, then the loop. Simplification: the column of the array is a list, and the model returns
one number. -/
def evaluateModel (pts : List (List ℝ)) (f : List ℝ → ℝ) : List ℝ := fillModel f pts 0 (List.replicate pts.length 0)

/-- The inner loop of the `vector` format (`poly.py:934-936`), over the remaining values of `j`: `output_from_gradient_call[j]` raises `IndexError` if
the gradient is too short. -/
def fillRow (g : List ℝ) : List ℕ → ℕ × List ℝ → Except Err (ℕ × List ℝ)
  | [], s => .ok s
  | j :: js, s =>
    match g[j]? with
    | none => .error .indexError
    | some v => fillRow g js (s.1 + 1, s.2.set s.1 v)

/-- The outer loop of the `vector` format (`poly.py:932-936`), over the remaining points. -/
def fillVector (fungrad : List ℝ → List ℝ) (d : ℕ) : List (List ℝ) → ℕ × List ℝ → Except Err (ℕ × List ℝ)
  | [], s => .ok s
  | p :: ps, s =>
    match fillRow (fungrad p) (List.range d) s with
    | .error e => .error e
    | .ok s' => fillVector fungrad d ps s'

/-- The loops of the `matrix` format (`poly.py:921-924`): row `i`, then entry `j` of the row. -/
def fillMatrix (fungrad : List ℝ → List ℝ) (d : ℕ) : List (List ℝ) → Except Err (List (List ℝ))
  | [] => .ok []
  | p :: ps =>
    match fillRow (fungrad p) (List.range d) (0, List.replicate d 0) with
    | .error e => .error e
    | .ok s =>
      match fillMatrix fungrad d ps with
      | .error e => .error e
      | .ok rows => .ok (s.2 :: rows)

/-- The formats of `evaluate_model_gradients`; the comparison `format is 'matrix'` (`poly.py:919,927`) is taken to be one of strings. -/
inductive Format | matrix | vector | other

/-- The two results of `evaluate_model_gradients`. -/
inductive GradValues
  | matrix (rows : List (List ℝ))
  | vector (column : List ℝ)

/-- `evaluate_model_gradients` (`poly.py:902-939`): `points[0,:]` of no points is an `IndexError`. -/
def evaluateModelGradients (pts : List (List ℝ)) (fungrad : List ℝ → List ℝ) (format : Format) : Except Err GradValues :=
  match pts with
  | [] => .error .indexError
  | p :: _ =>
    match format with
    | .matrix => (fillMatrix fungrad p.length pts).map .matrix
    | .vector => (fillVector fungrad p.length pts (0, List.replicate (pts.length * p.length) 0)).map fun s => .vector s.2
    | .other => .error .valueError

/-- What a user gives as `model_grads` to `set_model`. -/
inductive Grads
  | callable (fungrad : List ℝ → List ℝ)
  | values (rows : List (List ℝ))

/-- `Poly.set_model` (`poly.py:416-419`): the gradient values it goes on with. -/
def polyGrads (pts : List (List ℝ)) : Grads → Except Err GradValues
  | .callable g => evaluateModelGradients pts g .matrix
  | .values rows => .ok (.matrix rows)

/-- `Correlations.set_model` (`correlations.py:163-168`): the gradient values passed on. `evaluate_model_gradients` is called with two of its three
arguments (`correlations.py:165`), which is a `TypeError` before anything is evaluated. -/
def corrGrads (_pts : List (List ℝ)) : Option Grads → Except Err (Option GradValues)
  | none => .ok none
  | some (.callable _) => .error .typeError
  | some (.values rows) => .ok (some (.matrix rows))

/-! ## Proofs -/

theorem fillModel_eq (f : List ℝ → ℝ) (pts : List (List ℝ)) (pre : List ℝ) :
    fillModel f pts pre.length (pre ++ List.replicate pts.length 0) = pre ++ pts.map f := by
  induction pts generalizing pre with
  | nil => simp [fillModel]
  | cons p ps ih =>
    rw [fillModel, List.length_cons, List.replicate_succ, List.set_append_right _ _ le_rfl, Nat.sub_self, List.set_cons_zero]
    have := ih (pre ++ [f p])
    simpa using this

/-- C157. The value at position `i` is that of the model at point `i`, for every model and every number of points. -/
theorem c157_model (pts : List (List ℝ)) (f : List ℝ → ℝ) : (evaluateModel pts f).length = pts.length ∧
    ∀ i : ℕ, (evaluateModel pts f)[i]? = pts[i]?.map f := by
  have h : evaluateModel pts f = pts.map f := by simpa [evaluateModel] using fillModel_eq f pts []
  rw [h]
  exact ⟨by simp, by simp⟩

theorem fillRow_ok (g : List ℝ) (d : ℕ) (hd : d ≤ g.length) (pre post : List ℝ) (k j : ℕ) (hj : j + k = d) :
    fillRow g ((List.range d).drop j) (pre.length, pre ++ (List.replicate k 0 ++ post)) =
      .ok (pre.length + k, pre ++ ((g.take d).drop j ++ post)) := by
  induction k generalizing j pre with
  | zero =>
    have : j = d := by omega
    subst this
    rw [List.drop_eq_nil_of_le (by simp), List.drop_eq_nil_of_le (by simp)]
    simp [fillRow]
  | succ k ih =>
    have hlt : j < d := by omega
    have hlt' : j < g.length := by omega
    rw [List.drop_eq_getElem_cons (by simpa using hlt), List.getElem_range, fillRow, List.getElem?_eq_getElem hlt']
    simp only
    rw [List.replicate_succ, List.cons_append, List.set_append_right _ _ le_rfl, Nat.sub_self, List.set_cons_zero]
    have h := ih (pre ++ [g[j]]) (j + 1) (by omega)
    simp only [List.length_append, List.length_singleton, List.append_assoc, List.singleton_append] at h
    rw [h]
    have h2 : (g.take d).drop j = g[j] :: (g.take d).drop (j + 1) := by
      rw [List.drop_eq_getElem_cons (by simp; omega), List.getElem_take]
    rw [h2]
    simp only [List.cons_append, Except.ok.injEq, Prod.mk.injEq, and_true]
    omega

theorem fillRow_error (g : List ℝ) (js : List ℕ) (h : ∃ j ∈ js, g.length ≤ j) (s : ℕ × List ℝ) : fillRow g js s = .error .indexError := by
  induction js generalizing s with
  | nil => simp at h
  | cons a js ih =>
    rw [fillRow]
    by_cases ha : g.length ≤ a
    · rw [List.getElem?_eq_none ha]
    · rw [List.getElem?_eq_getElem (not_le.1 ha)]
      refine ih ?_ _
      obtain ⟨j, hj, hjl⟩ := h
      rcases List.mem_cons.1 hj with rfl | hj
      · exact absurd hjl ha
      · exact ⟨j, hj, hjl⟩

theorem fillMatrix_ok (fungrad : List ℝ → List ℝ) (d : ℕ) (pts : List (List ℝ)) (h : ∀ p ∈ pts, d ≤ (fungrad p).length) :
    fillMatrix fungrad d pts = .ok (pts.map fun p => (fungrad p).take d) := by
  induction pts with
  | nil => rfl
  | cons p ps ih =>
    have h1 := fillRow_ok (fungrad p) d (h p (by simp)) [] [] d 0 (by omega)
    simp only [List.length_nil, List.nil_append, List.append_nil, List.drop_zero, Nat.zero_add] at h1
    rw [fillMatrix, h1]
    simp only
    rw [ih fun q hq => h q (by simp [hq])]
    rfl

theorem fillVector_ok (fungrad : List ℝ → List ℝ) (d : ℕ) (pts : List (List ℝ)) (h : ∀ p ∈ pts, d ≤ (fungrad p).length) (pre : List ℝ) :
    fillVector fungrad d pts (pre.length, pre ++ List.replicate (pts.length * d) 0) =
      .ok (pre.length + pts.length * d, pre ++ (pts.map fun p => (fungrad p).take d).flatten) := by
  induction pts generalizing pre with
  | nil => simp [fillVector]
  | cons p ps ih =>
    have e : List.replicate ((p :: ps).length * d) (0 : ℝ) = List.replicate d 0 ++ List.replicate (ps.length * d) 0 := by
      rw [List.replicate_append_replicate, List.length_cons]
      congr 1
      ring
    have h1 := fillRow_ok (fungrad p) d (h p (by simp)) pre (List.replicate (ps.length * d) 0) d 0 (by omega)
    simp only [List.drop_zero] at h1
    rw [fillVector, e, h1]
    have hl : (pre ++ (fungrad p).take d).length = pre.length + d := by
      rw [List.length_append, List.length_take, Nat.min_eq_left (h p (by simp))]
    have h2 := ih (fun q hq => h q (by simp [hq])) (pre ++ (fungrad p).take d)
    rw [hl, List.append_assoc] at h2
    simp only
    rw [h2]
    simp only [List.map_cons, List.flatten_cons, List.append_assoc, List.length_cons, Except.ok.injEq, Prod.mk.injEq, and_true]
    ring

theorem flatten_getElem? (rows : List (List ℝ)) (d : ℕ) (h : ∀ r ∈ rows, r.length = d) (i j : ℕ) (hj : j < d) :
    rows.flatten[i * d + j]? = rows[i]?.bind (fun r => r[j]?) := by
  induction rows generalizing i with
  | nil => simp
  | cons r rows ih =>
    have hr : r.length = d := h r (by simp)
    rw [List.flatten_cons]
    cases i with
    | zero => rw [Nat.zero_mul, Nat.zero_add, List.getElem?_append_left (by omega)]; rfl
    | succ i =>
      have : (i + 1) * d + j = r.length + (i * d + j) := by rw [hr]; ring
      rw [this, List.getElem?_append_right (by omega), Nat.add_sub_cancel_left, ih fun q hq => h q (by simp [hq])]
      rfl

/-- C157. Gradients at `N` points in `d` dimensions, as a matrix and as a vector: entry `(i, j)` of the matrix, and entry `i d + j` of the vector, is
component `j` of the gradient at point `i`; the sizes are `N` by `d` and `N d`. -/
theorem c157_gradients (pts : List (List ℝ)) (d : ℕ) (fungrad : List ℝ → List ℝ) (hne : pts ≠ []) (hd : ∀ p ∈ pts, p.length = d)
    (hg : ∀ p ∈ pts, d ≤ (fungrad p).length) :
    ∃ rows column, evaluateModelGradients pts fungrad .matrix = .ok (.matrix rows) ∧
      evaluateModelGradients pts fungrad .vector = .ok (.vector column) ∧
      rows.length = pts.length ∧ (∀ r ∈ rows, r.length = d) ∧ column.length = pts.length * d ∧
      ∀ i j, (hi : i < pts.length) → j < d →
        rows[i]?.bind (fun r => r[j]?) = (fungrad pts[i])[j]? ∧ column[i * d + j]? = (fungrad pts[i])[j]? := by
  obtain ⟨p, ps, rfl⟩ := List.exists_cons_of_ne_nil hne
  have hp : p.length = d := hd p (by simp)
  set R := (p :: ps).map fun q => (fungrad q).take d with hR
  have hRl : ∀ r ∈ R, r.length = d := by
    intro r hr
    obtain ⟨q, hq, rfl⟩ := List.mem_map.1 hr
    rw [List.length_take, Nat.min_eq_left (hg q hq)]
  have hm : ∀ i j, (hi : i < (p :: ps).length) → j < d → R[i]?.bind (fun r => r[j]?) = (fungrad (p :: ps)[i])[j]? := by
    intro i j hi hj
    rw [hR, List.getElem?_map, List.getElem?_eq_getElem hi]
    simp only [Option.map_some, Option.bind_some]
    rw [List.getElem?_take, if_pos hj]
  refine ⟨R, R.flatten, ?_, ?_, by simp [hR], hRl, ?_, fun i j hi hj => ⟨hm i j hi hj, ?_⟩⟩
  · simp only [evaluateModelGradients, hp]
    rw [fillMatrix_ok _ _ _ hg]; rfl
  · have h := fillVector_ok fungrad d (p :: ps) hg []
    simp only [List.length_nil, List.nil_append] at h
    simp only [evaluateModelGradients, hp]
    rw [h]; rfl
  · rw [List.length_flatten, List.map_congr_left hRl, List.map_const', List.sum_replicate, smul_eq_mul]
    simp [hR]
  · rw [flatten_getElem? R d hRl i j hj]
    exact hm i j hi hj

/-- C157. A gradient function that returns too few components at some point is refused in both formats: no entry is left at its initial zero. -/
theorem c157_short (pts : List (List ℝ)) (d : ℕ) (fungrad : List ℝ → List ℝ) (hd : ∀ p ∈ pts, p.length = d)
    (hg : ∃ p ∈ pts, (fungrad p).length < d) (format : Format) (hf : format ≠ .other) :
    evaluateModelGradients pts fungrad format = .error .indexError := by
  have key : ∀ p, (fungrad p).length < d → ∀ s, fillRow (fungrad p) (List.range d) s = .error .indexError := fun p hp s =>
    fillRow_error _ _ ⟨(fungrad p).length, List.mem_range.2 hp, le_rfl⟩ s
  -- a row is either complete or refused
  have dich : ∀ p s, (fillRow (fungrad p) (List.range d) s = .error .indexError) ∨ ∃ s', fillRow (fungrad p) (List.range d) s = .ok s' := by
    intro p s
    generalize List.range d = js
    induction js generalizing s with
    | nil => exact Or.inr ⟨s, rfl⟩
    | cons a js ih =>
      rw [fillRow]
      cases (fungrad p)[a]? with
      | none => exact Or.inl rfl
      | some v => exact ih _
  have hm : ∀ l : List (List ℝ), (∃ p ∈ l, (fungrad p).length < d) → fillMatrix fungrad d l = .error .indexError := by
    intro l hl
    induction l with
    | nil => simp at hl
    | cons q l ih =>
      rw [fillMatrix]
      rcases dich q (0, List.replicate d 0) with h | ⟨s', h⟩
      · rw [h]
      · rw [h]
        obtain ⟨p, hp, hlt⟩ := hl
        rcases List.mem_cons.1 hp with rfl | hp
        · rw [key p hlt] at h; cases h
        · simp only
          rw [ih ⟨p, hp, hlt⟩]
  have hv : ∀ l : List (List ℝ), (∃ p ∈ l, (fungrad p).length < d) → ∀ s, fillVector fungrad d l s = .error .indexError := by
    intro l hl
    induction l with
    | nil => simp at hl
    | cons q l ih =>
      intro s
      rw [fillVector]
      rcases dich q s with h | ⟨s', h⟩
      · rw [h]
      · rw [h]
        obtain ⟨p, hp, hlt⟩ := hl
        rcases List.mem_cons.1 hp with rfl | hp
        · rw [key p hlt] at h; cases h
        · exact ih ⟨p, hp, hlt⟩ _
  cases pts with
  | nil => simp at hg
  | cons q l =>
    have hq : q.length = d := hd q (by simp)
    cases format with
    | matrix => simp only [evaluateModelGradients, hq]; rw [hm _ hg]; rfl
    | vector => simp only [evaluateModelGradients, hq]; rw [hv _ hg]; rfl
    | other => exact absurd rfl hf

/-- C157, the part of the polynomials that holds: giving `Poly.set_model` a gradient function is the same as giving the matrix of its values at the
points, and a correlated polynomial passes a matrix on unchanged. Missing: gradient functions for correlated polynomials, see
`c157_correlated_violated`. -/
theorem c157_callable_partial (pts : List (List ℝ)) (d : ℕ) (fungrad : List ℝ → List ℝ) (hne : pts ≠ []) (hd : ∀ p ∈ pts, p.length = d)
    (hg : ∀ p ∈ pts, (fungrad p).length = d) :
    polyGrads pts (.callable fungrad) = polyGrads pts (.values (pts.map fungrad)) ∧
    corrGrads pts (some (.values (pts.map fungrad))) = (polyGrads pts (.callable fungrad)).map some := by
  have h : polyGrads pts (.callable fungrad) = .ok (.matrix (pts.map fungrad)) := by
    obtain ⟨p, ps, rfl⟩ := List.exists_cons_of_ne_nil hne
    simp only [polyGrads, evaluateModelGradients, hd p (by simp)]
    rw [fillMatrix_ok _ _ _ fun q hq => (hg q hq).ge]
    simp only [Except.map, Except.ok.injEq, GradValues.matrix.injEq]
    apply List.map_congr_left
    intro q hq
    rw [← hg q hq, List.take_length]
  exact ⟨h, by rw [h]; rfl⟩

/-- C157 is false for correlated polynomials: every gradient function is refused with a `TypeError`, whatever the points. -/
theorem c157_correlated_violated (pts : List (List ℝ)) (fungrad : List ℝ → List ℝ) : corrGrads pts (some (.callable fungrad)) = .error .typeError ∧
    ∀ r, corrGrads pts (some (.callable fungrad)) ≠ .ok r := ⟨rfl, fun _ h => by cases h⟩

/-- Non-vacuity of C157: the gradient of `x y` at two points. -/
example : evaluateModelGradients [[1, 2], [3, 4]] (fun p => [p.getD 1 0, p.getD 0 0]) .vector = .ok (.vector [2, 1, 4, 3]) ∧
    (∀ p ∈ [[(1 : ℝ), 2], [3, 4]], p.length = 2) ∧
    evaluateModelGradients [[1, 2], [3, 4]] (fun p => p.take 1) .matrix = .error .indexError := by
  refine ⟨rfl, by simp, rfl⟩

end EQ.Poly
