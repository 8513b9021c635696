import Verif.Param.EndProps

/-!
# Jacobi matrices and their eigenvectors as a user gets them: C159
-/

namespace EQ.Param
open EQ.Basis

/-! ## Model -/

/-- What `get_jacobi_matrix` returns: a number for order one, otherwise an array. -/
inductive JacobiValue
  | scalar (v : ℝ)
  | array (n : ℕ) (M : Matrix (Fin n) (Fin n) ℝ)

/-- `Parameter.get_recurrence_coefficients` (`parameter.py:205-214`): the distributions evaluate `int(order)`
(`recurrence_utils.py:47,115`, `analytical.py:72`), which is a `TypeError` for the default `None`. -/
def getRecurrence (P : RuleParam) : Option ℕ → Except Err Table
  | none => .error .typeError
  | some n => .ok (P.coeffs n)

/-- `Parameter.get_jacobi_matrix` without a table (`parameter.py:240-274`). For order zero line 262 writes to an empty array. -/
noncomputable def getJacobiMatrix (P : RuleParam) (order : Option ℕ) : Except Err JacobiValue :=
  match getRecurrence P order with
  | .error e => .error e
  | .ok ab =>
    match order with
    | none => .error .typeError
    | some 0 => .error .indexError
    | some 1 => .ok (.scalar (ab 0).1)
    | some (n + 2) => .ok (.array (n + 2) (jacobiMatrix ab (n + 2)))

/-- `Parameter.get_jacobi_eigenvectors` (`parameter.py:215-239`) of a parameter of order `own`. Without an argument `eigVecs` is never bound. `eigh`
refuses a number with a `ValueError`. The columns are in reversed sorted order. -/
noncomputable def getJacobiEigenvectors (E : EighArgsort) (P : RuleParam) (own : ℕ) (order : Option ℕ) :
    Except Err (Σ n, Matrix (Fin n) (Fin n) ℝ) :=
  match order with
  | none =>
    match getJacobiMatrix P (some (own + 1)) with
    | .error e => .error e
    | .ok _ => .error .unboundLocalError
  | some o =>
    match getJacobiMatrix P (some o) with
    | .error e => .error e
    | .ok (.scalar _) => .error .valueError
    | .ok (.array n J) => .ok ⟨n, fun i k => (E.eigh J).2 i (E.argsort (E.eigh J).1 (Fin.rev k))⟩

/-! ## Properties -/

/-- C159, the part that holds: for two or more rows the columns are orthonormal eigenvectors of the Jacobi matrix that `get_jacobi_matrix` returns,
with strictly decreasing eigenvalues. The eigenvalues are the points of the Gauss rule of the same table, in decreasing order, and the
squares of the first components its weights (times the first squared norm). Component `i` is the orthonormal polynomial of degree `i` at the
point, times the first component. Missing: the default order, and order one; see `c159_default_violated` and `c159_one_violated`. -/
theorem c159_eigenvectors_partial {E : EighArgsort} (hE : EighArgsortOK E) (P : RuleParam) (own n : ℕ)
    (hb : ∀ k, 1 ≤ k → k ≤ n + 1 → 0 < (P.coeffs (n + 2) k).2) :
    ∃ (J V : Matrix (Fin (n + 2)) (Fin (n + 2)) ℝ) (D : Fin (n + 2) → ℝ),
      getJacobiMatrix P (some (n + 2)) = .ok (.array (n + 2) J) ∧
      getJacobiEigenvectors E P own (some (n + 2)) = .ok ⟨n + 2, V⟩ ∧
      V.transpose * V = 1 ∧ J * V = V * Matrix.diagonal D ∧ StrictAnti D ∧
      (∀ i k, V i k = V 0 k * (opoly (P.coeffs (n + 2)) i).eval (D k)) ∧
      gaussRule E P (P.coeffs (n + 2)) (P.coeffs (n + 2)) (n + 1) =
        List.ofFn fun u => (D (Fin.rev u), (P.coeffs (n + 2) 0).2 * V 0 (Fin.rev u) ^ 2) := by
  set ab := P.coeffs (n + 2) with hab
  set J := jacobiMatrix ab (n + 2) with hJ
  have hc : EighContract J (E.eigh J).1 (E.eigh J).2 := hE.eigh J (jacobiMatrix_symm _ _)
  have gf := gaussFacts ab (n + 1) hb _ _ hc
  have hid := perm_eq_id gf.strict (hE.argsort (E.eigh J).1)
  set V : Matrix (Fin (n + 2)) (Fin (n + 2)) ℝ := fun i k => (E.eigh J).2 i (Fin.rev k) with hV
  refine ⟨J, V, fun k => (E.eigh J).1 (Fin.rev k), rfl, ?_, ?_, ?_, ?_, ?_, ?_⟩
  · simp only [getJacobiEigenvectors, getJacobiMatrix, getRecurrence]
    simp only [← hab, ← hJ, hid, hV]
  · ext i j
    have h := congrFun (congrFun hc.orth (Fin.rev i)) (Fin.rev j)
    rw [Matrix.mul_apply, Matrix.one_apply] at h
    rw [Matrix.mul_apply, Matrix.one_apply]
    simp only [Fin.rev_inj] at h
    exact h
  · ext i j
    have h := congrFun (congrFun hc.eig i) (Fin.rev j)
    rw [Matrix.mul_apply, Matrix.mul_diagonal] at h
    rw [Matrix.mul_apply, Matrix.mul_diagonal]
    exact h
  · intro i j hij
    exact gf.strict (Fin.rev_lt_rev.2 hij)
  · intro i k
    exact gf.entries (Fin.rev k) i
  · simp only [gaussRule]
    congr 1
    funext u
    have h := rule_eq ab (n + 1) hb _ _ hc (E.argsort (E.eigh J).1) (hE.argsort _) u
    simp only [hV, Fin.rev_rev]
    exact Prod.ext h.1 h.2

/-- C159 is false for the documented defaults: without an order the coefficients and the Jacobi matrix raise a `TypeError`, the eigenvectors an
`UnboundLocalError`, for every parameter. -/
theorem c159_default_violated (E : EighArgsort) (P : RuleParam) (own : ℕ) : getRecurrence P none = .error .typeError ∧
    getJacobiMatrix P none = .error .typeError ∧ getJacobiEigenvectors E P own none = .error .unboundLocalError := by
  refine ⟨rfl, rfl, ?_⟩
  cases own <;> rfl

/-- C159 is false for order one: the matrix is a number and its eigenvector is refused. -/
theorem c159_one_violated (E : EighArgsort) (P : RuleParam) (own : ℕ) : getJacobiMatrix P (some 1) = .ok (.scalar (P.coeffs 1 0).1) ∧
    getJacobiEigenvectors E P own (some 1) = .error .valueError := ⟨rfl, rfl⟩

/-- Non-vacuity of C159: the Legendre table and routines that meet the contracts. -/
example : ∃ (V : Matrix (Fin 3) (Fin 3) ℝ), getJacobiEigenvectors someEighArgsort ⟨fun o => rows (jacobiCoeffs 0 0 (-1) 1 o), none, none, 0⟩ 5 (some 3) =
    .ok ⟨3, V⟩ ∧ V.transpose * V = 1 := by
  obtain ⟨J, V, D, -, h, hV, -⟩ := c159_eigenvectors_partial someEighArgsort_ok ⟨fun o => rows (jacobiCoeffs 0 0 (-1) 1 o), none, none, 0⟩ 5 1
    (fun k h1 h2 => (c17_jacobi_positive 0 0 (-1) 1 (by norm_num) (by norm_num) (by norm_num) 3).2.2.1 k h1 (by omega))
  exact ⟨V, h, hV⟩

end EQ.Param
