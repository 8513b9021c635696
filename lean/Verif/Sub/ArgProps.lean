import Verif.Sub.RidgeModel

/-!
# The methods of `Subspaces` (C234)

The names are strings and the object may be without a subspace. Samples are of floating-point type, `bootstrap` is off (C143).
-/

namespace EQ.Sub
open EQ.Basis EQ.Poly EQ.Param

variable {m : ℕ}

/-- The arguments `full_space_poly` (with its points and model evaluations), `sample_points` with `sample_outputs`, and `polynomial_degree`. -/
structure Args (m : ℕ) where
  poly : Option (Fitted × (k : ℕ) × Matrix (Fin (k + 1)) (Fin m) ℝ × (Fin (k + 1) → ℝ))
  samples : Option ((k : ℕ) × Matrix (Fin (k + 1)) (Fin m) ℝ × (Fin (k + 1) → ℝ))
  degree : ℕ

/-- What the constructor leaves behind: `method`, and `_subspace` and `_eigenvalues` if they were assigned. -/
structure Obj (m : ℕ) where
  method : String
  subspace : Option (Matrix (Fin m) (Fin m) ℝ)
  eigenvalues : Option (Fin m → ℝ)

/-- `str.lower`, for the letters of ASCII. No other character becomes a letter of the names below. -/
def lower (s : String) : List Char := s.toList.map Char.toLower

/-- subspaces.py:58-72: without a polynomial one is fitted to the samples; `None.shape` without samples. -/
noncomputable def activeOf (E : External m) (a : Args m) : Except Err (Matrix (Fin m) (Fin m) ℝ × (Fin m → ℝ)) :=
  match a.poly with
  | some (F, ⟨_, X, ys⟩) => (activeOfPoly E F X ys).map fun s => (s.W, s.eigenvalues)
  | none => match a.samples with
    | none => .error .attributeError
    | some ⟨_, X, ys⟩ => (activeOfSamples E a.degree X ys).map fun s => (s.W, s.eigenvalues)

/-- subspaces.py:45-74 `__init__`. `project` stands for `_get_variable_projection` (line 74; C99), for the standardised samples and the outputs; it begins with the
shape of the samples (line 197), an `AttributeError` if there are none. -/
noncomputable def Obj.new (E : External m) (project : (k : ℕ) → Matrix (Fin (k + 1)) (Fin m) ℝ → (Fin (k + 1) → ℝ) → Except Err (Matrix (Fin m) (Fin m) ℝ))
    (method : String) (a : Args m) : Except Err (Obj m) :=
  if lower method = "active-subspace".toList ∨ lower method = "active-subspaces".toList then
    match activeOf E a with
    | .error e => .error e
    | .ok (W, e) => .ok ⟨"active-subspace", some W, some e⟩
  else if method = "variable-projection" then
    match a.samples with
    | none => .error .attributeError
    | some ⟨k, X, ys⟩ => match project k (Data.standardise .float X) ys with
      | .error e => .error e
      | .ok W => .ok ⟨method, some W, none⟩
  else .ok ⟨method, none, none⟩

/-- subspaces.py:115-126 `get_subspace`. -/
def Obj.getSubspace (o : Obj m) : Except Err (Matrix (Fin m) (Fin m) ℝ) :=
  match o.subspace with
  | none => .error .attributeError
  | some W => .ok W

/-- subspaces.py:100-114 `get_eigenvalues`: `none` is the value `None`. -/
def Obj.getEigenvalues (o : Obj m) : Except Err (Option (Fin m → ℝ)) :=
  if o.method = "active-subspace" then
    match o.eigenvalues with
    | none => .error .attributeError
    | some e => .ok (some e)
  else .ok none

/-- The documented names: the same letters, small or capital. -/
def SameLetters (s t : String) : Prop := List.Forall₂ (fun a b : Char => a.toLower = b.toLower) s.toList t.toList

theorem lower_iff (s t : String) (ht : t.toList.map Char.toLower = t.toList) : lower s = t.toList ↔ SameLetters s t := by
  unfold lower SameLetters
  rw [← ht, ← List.forall₂_eq_eq_eq, List.forall₂_map_left_iff, List.forall₂_map_right_iff]
  rw [show t.toList.map Char.toLower = t.toList from ht]

variable (E : External m) (project : (k : ℕ) → Matrix (Fin (k + 1)) (Fin m) ℝ → (Fin (k + 1) → ℝ) → Except Err (Matrix (Fin m) (Fin m) ℝ))

/-- **C234, active subspaces.** For the name `active-subspace` or `active-subspaces`, written with small or capital letters, the constructor computes the active
subspace of the polynomial that is passed, or else of the polynomial of the given degree fitted to the samples (the samples are then required); if that succeeds,
`get_subspace` and `get_eigenvalues` return it. Given a polynomial, the samples and the degree play no role. -/
theorem c234_active_partial (method : String) (h : SameLetters method "active-subspace" ∨ SameLetters method "active-subspaces") (a : Args m) :
    (∀ F k X ys, a.poly = some (F, ⟨k, X, ys⟩) → match activeOfPoly E F X ys with
      | .error e => Obj.new E project method a = .error e
      | .ok s => ∃ o, Obj.new E project method a = .ok o ∧ o.getSubspace = .ok s.W ∧ o.getEigenvalues = .ok (some s.eigenvalues)) ∧
    (∀ k X ys, a.poly = none → a.samples = some ⟨k, X, ys⟩ → match activeOfSamples E a.degree X ys with
      | .error e => Obj.new E project method a = .error e
      | .ok s => ∃ o, Obj.new E project method a = .ok o ∧ o.getSubspace = .ok s.W ∧ o.getEigenvalues = .ok (some s.eigenvalues)) ∧
    (a.poly = none → a.samples = none → Obj.new E project method a = .error .attributeError) := by
  have h' : lower method = "active-subspace".toList ∨ lower method = "active-subspaces".toList :=
    h.imp (lower_iff _ _ (by decide)).2 (lower_iff _ _ (by decide)).2
  refine ⟨fun F k X ys hp => ?_, fun k X ys hp hs => ?_, fun hp hs => ?_⟩
  · cases hA : activeOfPoly E F X ys with
    | error e =>
      unfold Obj.new activeOf
      simp only [if_pos h', hp, hA, Except.map]
    | ok s =>
      refine ⟨⟨"active-subspace", some s.W, some s.eigenvalues⟩, ?_, rfl, rfl⟩
      unfold Obj.new activeOf
      simp only [if_pos h', hp, hA, Except.map]
  · cases hA : activeOfSamples E a.degree X ys with
    | error e =>
      unfold Obj.new activeOf
      simp only [if_pos h', hp, hs, hA, Except.map]
    | ok s =>
      refine ⟨⟨"active-subspace", some s.W, some s.eigenvalues⟩, ?_, rfl, rfl⟩
      unfold Obj.new activeOf
      simp only [if_pos h', hp, hs, hA, Except.map]
  · unfold Obj.new activeOf
    simp only [if_pos h', hp, hs]

/-- Names of the first method. -/
example : SameLetters "Active-Subspace" "active-subspace" ∧ SameLetters "ACTIVE-SUBSPACES" "active-subspaces" ∧ SameLetters "active-subspace" "active-subspace" := by
  refine ⟨?_, ?_, ?_⟩ <;> unfold SameLetters <;> decide

theorem vp_not_active : ¬ (lower "variable-projection" = "active-subspace".toList ∨ lower "variable-projection" = "active-subspaces".toList) := by
  decide

/-- **C234, variable projection.** For the name `variable-projection` the samples are required; the constructor passes them on, standardised, with the outputs, and
`get_subspace` returns the result; `get_eigenvalues` returns `None`. -/
theorem c234_projection_partial (a : Args m) :
    (∀ k X ys, a.samples = some ⟨k, X, ys⟩ → match project k (Data.standardise .float X) ys with
      | .error e => Obj.new E project "variable-projection" a = .error e
      | .ok W => ∃ o, Obj.new E project "variable-projection" a = .ok o ∧ o.getSubspace = .ok W ∧ o.getEigenvalues = .ok none) ∧
    (a.samples = none → Obj.new E project "variable-projection" a = .error .attributeError) := by
  refine ⟨fun k X ys hs => ?_, fun hs => ?_⟩
  · cases hP : project k (Data.standardise .float X) ys with
    | error e =>
      unfold Obj.new
      simp only [if_neg vp_not_active, hs, hP, if_true]
    | ok W =>
      refine ⟨⟨"variable-projection", some W, none⟩, ?_, rfl, by unfold Obj.getEigenvalues; rw [if_neg (show ¬ "variable-projection" = "active-subspace" by decide)]⟩
      unfold Obj.new
      simp only [if_neg vp_not_active, hs, hP, if_true]
  · unfold Obj.new
    simp only [if_neg vp_not_active, hs, if_true]

/-- **C234 is violated.** No other name is refused: whatever is passed, with or without samples, the constructor succeeds, `get_subspace` then raises an
`AttributeError`, and `get_eigenvalues` returns `None`. This holds for `Variable-Projection` too, although capitals are accepted in the name of the other method. -/
theorem c234_names_violated :
    (∀ (method : String) (a : Args m), ¬ SameLetters method "active-subspace" → ¬ SameLetters method "active-subspaces" → method ≠ "variable-projection" →
      ∃ o, Obj.new E project method a = .ok o ∧ o.getSubspace = .error .attributeError ∧ o.getEigenvalues = .ok none) ∧
    SameLetters "Variable-Projection" "variable-projection" ∧
    ∀ a : Args m, ∃ o, Obj.new E project "Variable-Projection" a = .ok o ∧ o.getSubspace = .error .attributeError := by
  have key : ∀ (method : String) (a : Args m), ¬ SameLetters method "active-subspace" → ¬ SameLetters method "active-subspaces" → method ≠ "variable-projection" →
      ∃ o, Obj.new E project method a = .ok o ∧ o.getSubspace = .error .attributeError ∧ o.getEigenvalues = .ok none := by
    intro method a h1 h2 h3
    have h1' : ¬ lower method = "active-subspace".toList := fun h => h1 ((lower_iff _ _ (by decide)).1 h)
    have h2' : ¬ lower method = "active-subspaces".toList := fun h => h2 ((lower_iff _ _ (by decide)).1 h)
    refine ⟨⟨method, none, none⟩, ?_, rfl, ?_⟩
    · unfold Obj.new
      rw [if_neg (by tauto), if_neg h3]
    · unfold Obj.getEigenvalues
      rw [if_neg]
      rintro rfl
      exact h1' (by decide)
  refine ⟨key, by unfold SameLetters; decide, fun a => ?_⟩
  obtain ⟨o, h1, h2, -⟩ := key "Variable-Projection" a (by unfold SameLetters; decide) (by unfold SameLetters; decide) (by decide)
  exact ⟨o, h1, h2⟩

end EQ.Sub
