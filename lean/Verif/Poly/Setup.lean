import Verif.Basis.Model

/-!
# Construction of a `Poly`: solver and mesh dispatch, and the source of the gradient data

C50, C79, C80. Strings are lists of characters, as in `Verif.Basis.Model`.
-/

namespace EQ.Poly
open EQ.Basis

/-! ## Model -/

/-- The solver functions `Solver.__init__` chooses from (solver.py:35-53). -/
inductive SolverKind where
  | basisPursuit | leastSquares | minimumNorm | orthogonalSystem | constrainedLeastSquares
  | leastAbsoluteResidual | huber | elasticNet | rvm
  deriving DecidableEq

/-- solver.py:21-58 `Solver.__init__`: the branch on the lower-cased method name. -/
def solverFor (method : List Char) : Except Err SolverKind :=
  let m := lower method
  if m = "compressed-sensing".toList ∨ m = "compressive-sensing".toList then .ok .basisPursuit
  else if m = "least-squares".toList then .ok .leastSquares
  else if m = "minimum-norm".toList then .ok .minimumNorm
  else if m = "numerical-integration".toList then .ok .orthogonalSystem
  else if m = "least-squares-with-gradients".toList then .ok .constrainedLeastSquares
  else if m = "least-absolute-residual".toList then .ok .leastAbsoluteResidual
  else if m = "huber".toList then .ok .huber
  else if m = "elastic-net".toList then .ok .elasticNet
  else if m = "relevance-vector-machine".toList then .ok .rvm
  else .error .valueError

/-- poly.py:93-108: the default mesh; the comparison is case sensitive and there is no final
`else`, so for other names the attribute stays undefined (`none`). -/
def defaultMesh (method basisType : List Char) : Option (List Char) :=
  if method = "numerical-integration".toList ∨ method = "integration".toList then some basisType
  else if method = "least-squares".toList ∨ method = "least-absolute-residual".toList ∨
    method = "huber".toList ∨ method = "elastic-net".toList then some "tensor-grid".toList
  else if method = "least-squares-with-gradients".toList then some "tensor-grid".toList
  else if method = "compressed-sensing".toList ∨ method = "compressive-sensing".toList then
    some "monte-carlo".toList
  else if method = "minimum-norm".toList then some "monte-carlo".toList
  else if method = "relevance-vector-machine".toList then some "monte-carlo".toList
  else none

/-- The meshes of quadrature.py. -/
inductive MeshKind where
  | tensorGrid | sparseGrid | monteCarlo | induced | userDefined
  deriving DecidableEq

/-- quadrature.py:16-36, 61-62: the mesh is chosen by its lower-cased name; otherwise
`error_message` raises a `ValueError`. -/
def meshFor (mesh : List Char) : Except Err MeshKind :=
  let m := lower mesh
  if m = "tensor-grid".toList ∨ m = "univariate".toList then .ok .tensorGrid
  else if m = "sparse-grid".toList then .ok .sparseGrid
  else if m = "monte-carlo".toList then .ok .monteCarlo
  else if m = "induced".toList then .ok .induced
  else if m = "user-defined".toList then .ok .userDefined
  else .error .valueError

/-- poly.py:92-144 (the dispatch of `Poly.__init__` for a declared method): default mesh, override
by the `mesh` argument, override by sample points, then the solver, then the mesh. An undefined
`self.mesh` is an `AttributeError`. The computations behind each choice are modelled elsewhere. -/
def polySetup (method basisType : List Char) (meshArg : Option (List Char)) (samplePoints : Bool) :
    Except Err (SolverKind × MeshKind) :=
  let mesh := if samplePoints then some "user-defined".toList
    else match meshArg with
      | some m => some m
      | none => defaultMesh method basisType
  match solverFor method with
  | .error e => .error e
  | .ok s =>
    match mesh with
    | none => .error .attributeError
    | some m =>
      match meshFor m with
      | .error e => .error e
      | .ok k => .ok (s, k)

/-- The attributes `set_model` reads and writes, for a method with `gradient_flag = 1`:
`outputs` and `gradients` from `sampling_args`, and the evaluations kept by earlier calls. -/
structure GradObj (Y G : Type) where
  outputs : Option Y
  gradients : Option G
  evalG : Option G

/-- poly.py:400-430 and 494-505 for `gradient_flag = 1`: the new object and what the solver is
called with (values and gradient values, before weighting). `self.gradients` exists only if it
was given, and `self._gradient_evaluations` only after a branch that sets it; reading a missing
attribute, or `None.shape`, is an `AttributeError`. -/
def GradObj.setModel {Y G : Type} (s : GradObj Y G) (model : Option Y) (grads : Option G) :
    GradObj Y G × Except Err (Y × G) :=
  match model, s.outputs with
  | none, some y =>
    (s, match s.evalG with
      | some g => .ok (y, g)
      | none => .error .attributeError)
  | none, none => (s, .error .attributeError)
  | some y, _ =>
    match grads with
    | some g => ({ s with evalG := some g }, .ok (y, g))
    | none =>
      match s.gradients with
      | some g => ({ s with evalG := some g }, .ok (y, g))
      | none => (s, .error .attributeError)

/-! ## C50 -/

/-- Specification: the documented names with the solver each one stands for. -/
def solverTable : List (List Char × SolverKind) :=
  [("compressed-sensing".toList, .basisPursuit), ("compressive-sensing".toList, .basisPursuit),
   ("least-squares".toList, .leastSquares), ("minimum-norm".toList, .minimumNorm),
   ("numerical-integration".toList, .orthogonalSystem),
   ("least-squares-with-gradients".toList, .constrainedLeastSquares),
   ("least-absolute-residual".toList, .leastAbsoluteResidual), ("huber".toList, .huber),
   ("elastic-net".toList, .elasticNet), ("relevance-vector-machine".toList, .rvm)]

/-- C50, solver side: every spelling of a documented name, in any letter case, selects the solver
of the table. -/
theorem c50_solver_partial (n : List Char) (k : SolverKind) (h : (n, k) ∈ solverTable)
    (method : List Char) (hm : lower method = n) : solverFor method = .ok k := by
  unfold solverFor
  rw [hm]
  simp only [solverTable, List.mem_cons, Prod.mk.injEq, List.not_mem_nil, or_false] at h
  rcases h with ⟨rfl, rfl⟩ | ⟨rfl, rfl⟩ | ⟨rfl, rfl⟩ | ⟨rfl, rfl⟩ | ⟨rfl, rfl⟩ | ⟨rfl, rfl⟩ |
    ⟨rfl, rfl⟩ | ⟨rfl, rfl⟩ | ⟨rfl, rfl⟩ | ⟨rfl, rfl⟩ <;> simp

/-- C50, rejection: any other string raises `ValueError` in the construction, whatever the other
arguments are. -/
theorem c50_unknown_rejected (method : List Char) (h : lower method ∉ solverTable.map Prod.fst)
    (basisType : List Char) (meshArg : Option (List Char)) (samplePoints : Bool) :
    polySetup method basisType meshArg samplePoints = .error .valueError := by
  have : solverFor method = .error .valueError := by
    have hn : ∀ n, n ∈ solverTable.map Prod.fst → lower method ≠ n := fun n hn e => h (e ▸ hn)
    unfold solverFor
    simp only
    rw [if_neg (not_or.2 ⟨hn _ (by decide), hn _ (by decide)⟩), if_neg (hn _ (by decide)),
      if_neg (hn _ (by decide)), if_neg (hn _ (by decide)), if_neg (hn _ (by decide)),
      if_neg (hn _ (by decide)), if_neg (hn _ (by decide)), if_neg (hn _ (by decide)),
      if_neg (hn _ (by decide))]
  unfold polySetup
  simp only [this]

/-- C50 is false for `Poly`: `integration` has a branch in `Poly` but no solver, and names in
another letter case have a solver but no mesh. -/
theorem c50_dispatch_violated :
    (∀ bt, defaultMesh "integration".toList bt = some bt) ∧
    (∀ bt m p, polySetup "integration".toList bt m p = .error .valueError) ∧
    solverFor "Least-Squares".toList = .ok .leastSquares ∧
    (∀ bt, polySetup "Least-Squares".toList bt none false = .error .attributeError) := by
  have h2 : solverFor "Least-Squares".toList = .ok .leastSquares := by decide
  refine ⟨fun bt => by simp [defaultMesh], fun bt m p => ?_, h2, fun bt => ?_⟩
  · exact c50_unknown_rejected _ (by decide) _ _ _
  · unfold polySetup
    have : defaultMesh "Least-Squares".toList bt = none := by simp [defaultMesh]
    simp only [h2, this]
    rfl

example : ("least-squares".toList, SolverKind.leastSquares) ∈ solverTable ∧
    lower "LEAST-Squares".toList = "least-squares".toList := by decide

/-! ## C80 -/

/-- Specification: the mesh names of the documentation. -/
def meshTable : List (List Char × MeshKind) :=
  [("tensor-grid".toList, .tensorGrid), ("univariate".toList, .tensorGrid),
   ("sparse-grid".toList, .sparseGrid), ("monte-carlo".toList, .monteCarlo),
   ("induced".toList, .induced), ("user-defined".toList, .userDefined)]

theorem meshFor_table (n : List Char) (k : MeshKind) (h : (n, k) ∈ meshTable)
    (m : List Char) (hm : lower m = n) : meshFor m = .ok k := by
  unfold meshFor
  rw [hm]
  simp only [meshTable, List.mem_cons, Prod.mk.injEq, List.not_mem_nil, or_false] at h
  rcases h with ⟨rfl, rfl⟩ | ⟨rfl, rfl⟩ | ⟨rfl, rfl⟩ | ⟨rfl, rfl⟩ | ⟨rfl, rfl⟩ | ⟨rfl, rfl⟩ <;> simp

theorem table_lower (n : List Char) (k : SolverKind) (h : (n, k) ∈ solverTable) : lower n = n := by
  simp only [solverTable, List.mem_cons, Prod.mk.injEq, List.not_mem_nil, or_false] at h
  rcases h with ⟨rfl, rfl⟩ | ⟨rfl, rfl⟩ | ⟨rfl, rfl⟩ | ⟨rfl, rfl⟩ | ⟨rfl, rfl⟩ | ⟨rfl, rfl⟩ |
    ⟨rfl, rfl⟩ | ⟨rfl, rfl⟩ | ⟨rfl, rfl⟩ | ⟨rfl, rfl⟩ <;> decide

/-- C80, the part that holds, for every documented method `n`:
sample points always give the user-defined mesh; a documented mesh name in any letter case gives
that mesh; without either, every method except numerical integration works for every basis type,
and numerical integration works for the basis types that are mesh names. Missing: numerical
integration on the other basis types, see `c80_integration_violated`. -/
theorem c80_setup_partial (n : List Char) (k : SolverKind) (h : (n, k) ∈ solverTable)
    (bt : List Char) :
    (∀ m, polySetup n bt m true = .ok (k, .userDefined)) ∧
    (∀ m m' q, (m', q) ∈ meshTable → lower m = m' → polySetup n bt (some m) false = .ok (k, q)) ∧
    (n ≠ "numerical-integration".toList → ∃ q, (q = .tensorGrid ∨ q = .monteCarlo) ∧
      polySetup n bt none false = .ok (k, q)) ∧
    (n = "numerical-integration".toList → ∀ m' q, (m', q) ∈ meshTable → lower bt = m' →
      polySetup n bt none false = .ok (k, q)) := by
  have hs := c50_solver_partial n k h n (table_lower n k h)
  refine ⟨fun m => ?_, fun m m' q hq hm => ?_, fun hn => ?_, fun hn m' q hq hm => ?_⟩
  · have hu : meshFor "user-defined".toList = .ok .userDefined := by decide
    simp only [polySetup, hs, if_true, hu]
  · simp only [polySetup, hs, meshFor_table m' q hq m hm, Bool.false_eq_true, if_false]
  · have ht : meshFor "tensor-grid".toList = .ok .tensorGrid := by decide
    have hmc : meshFor "monte-carlo".toList = .ok .monteCarlo := by decide
    simp only [solverTable, List.mem_cons, Prod.mk.injEq, List.not_mem_nil, or_false] at h
    simp only [polySetup, hs, Bool.false_eq_true, if_false]
    have : defaultMesh n bt = some "tensor-grid".toList ∨
        defaultMesh n bt = some "monte-carlo".toList := by
      rcases h with ⟨rfl, rfl⟩ | ⟨rfl, rfl⟩ | ⟨rfl, rfl⟩ | ⟨rfl, rfl⟩ | ⟨rfl, rfl⟩ | ⟨rfl, rfl⟩ |
        ⟨rfl, rfl⟩ | ⟨rfl, rfl⟩ | ⟨rfl, rfl⟩ | ⟨rfl, rfl⟩ <;> simp [defaultMesh] at hn ⊢
    rcases this with e | e
    · exact ⟨.tensorGrid, .inl rfl, by simp only [e, ht]⟩
    · exact ⟨.monteCarlo, .inr rfl, by simp only [e, hmc]⟩
  · subst hn
    have : defaultMesh "numerical-integration".toList bt = some bt := by simp [defaultMesh]
    simp only [polySetup, hs, this, meshFor_table m' q hq bt hm, Bool.false_eq_true, if_false]

/-- C80 is false: numerical integration with any basis type that is not a mesh name, for example
`total-order`, ends in a `ValueError`. -/
theorem c80_integration_violated :
    (∀ bt, lower bt ∉ meshTable.map Prod.fst →
      polySetup "numerical-integration".toList bt none false = .error .valueError) ∧
    (∀ bt ∈ ["total-order".toList, "hyperbolic-basis".toList, "euclidean-degree".toList],
      lower bt ∉ meshTable.map Prod.fst) := by
  refine ⟨fun bt h => ?_, by decide⟩
  have h1 : solverFor "numerical-integration".toList = .ok .orthogonalSystem := by decide
  have h2 : defaultMesh "numerical-integration".toList bt = some bt := by simp [defaultMesh]
  have h3 : meshFor bt = .error .valueError := by
    have hn : ∀ n, n ∈ meshTable.map Prod.fst → lower bt ≠ n := fun n hn e => h (e ▸ hn)
    unfold meshFor
    simp only
    rw [if_neg (not_or.2 ⟨hn _ (by decide), hn _ (by decide)⟩), if_neg (hn _ (by decide)),
      if_neg (hn _ (by decide)), if_neg (hn _ (by decide)), if_neg (hn _ (by decide))]
  simp only [polySetup, h1, h2, h3, Bool.false_eq_true, if_false]

/-! ## C79 -/

/-- A history of `set_model` calls. -/
def GradObj.run {Y G : Type} (s : GradObj Y G) (calls : List (Option Y × Option G)) : GradObj Y G :=
  calls.foldl (fun s c => (s.setModel c.1 c.2).1) s

/-- The data given at construction never change. -/
theorem GradObj.run_data {Y G : Type} (calls : List (Option Y × Option G)) (s : GradObj Y G) :
    (s.run calls).outputs = s.outputs ∧ (s.run calls).gradients = s.gradients := by
  induction calls generalizing s with
  | nil => exact ⟨rfl, rfl⟩
  | cons c calls ih =>
    have h := ih (s.setModel c.1 c.2).1
    have h' : (s.setModel c.1 c.2).1.outputs = s.outputs ∧
        (s.setModel c.1 c.2).1.gradients = s.gradients := by
      unfold GradObj.setModel
      rcases c with ⟨_ | y, _ | g⟩ <;> rcases s with ⟨_ | _, _ | _, _⟩ <;> exact ⟨rfl, rfl⟩
    exact ⟨h.1.trans h'.1, h.2.trans h'.2⟩

/-- C79, the part that holds: after any history of calls, `set_model(model, ...)` with a model
uses that model, with the gradients of this call if given and otherwise the sample gradients given
at construction; it raises if there are none. Missing: `set_model()` without a model, see
`c79_sample_gradients_violated`. -/
theorem c79_gradient_source_partial {Y G : Type} (outputs : Option Y) (gradients : Option G)
    (calls : List (Option Y × Option G)) (y : Y) (grads : Option G) :
    let s := GradObj.run ⟨outputs, gradients, none⟩ calls
    (s.setModel (some y) grads).2 =
      match grads.or gradients with
      | some g => .ok (y, g)
      | none => .error .attributeError := by
  intro s
  have h : s.gradients = gradients := (GradObj.run_data calls _).2
  unfold GradObj.setModel
  cases grads with
  | some g => rfl
  | none =>
    simp only [h, Option.none_or]
    cases gradients <;> rfl

/-- C79 is false for `set_model()`: with sample outputs and sample gradients on a new object it
raises, and after a call for another model it silently combines the sample outputs with that
model's gradients. -/
theorem c79_sample_gradients_violated {Y G : Type} (y y' : Y) (g g' : G) (hg : g ≠ g') :
    ((⟨some y, some g, none⟩ : GradObj Y G).setModel none none).2 = .error .attributeError ∧
    (let s := GradObj.run (⟨some y, some g, none⟩ : GradObj Y G) [(some y', some g')]
     (s.setModel none none).2 = .ok (y, g') ∧ (s.setModel none none).2 ≠ .ok (y, g)) := by
  refine ⟨rfl, rfl, ?_⟩
  simp [GradObj.run, GradObj.setModel, hg.symm]

example : ((GradObj.run (⟨some 1, some 2, none⟩ : GradObj ℕ ℕ) [(none, none), (some 5, some 6)]).setModel
    (some 3) none).2 = .ok (3, 2) := rfl

end EQ.Poly
