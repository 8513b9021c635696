import Verif.Sampling.SampleProps

/-!
# The choice of a subsampling algorithm and the mesh it leaves (C176)
-/

namespace EQ.Sampling
open EQ.Basis

/-! ## Model -/

/-- What `subsampling.py:11-26` stores in `self.algorithm`; `zero` is the number 0 of line 26. -/
inductive Algorithm | all | qr | svd | newton | lu | zero
  deriving DecidableEq

/-- subsampling.py:11-28 `Subsampling.__init__` and `get_subsampling_method`: an unknown name leaves the attribute unset. -/
def chooseAlgorithm (name : Option (List Char)) : Except Err Algorithm :=
  match name with
  | none => .ok .all
  | some s =>
    if lower s = "qr".toList then .ok .qr
    else if lower s = "svd".toList then .ok .svd
    else if lower s = "newton".toList then .ok .newton
    else if lower s = "lu".toList then .ok .lu
    else if lower s = "random".toList then .ok .zero
    else .error .attributeError

/-- The routines called: the pivots of a QR factorisation of `Aᵀ` (subsampling.py:39), those of the columns `V[:, 0:k]` of its singular value decomposition (47-49), the permutation
matrix of the LU factorisation (57), and the determinant maximisation (60-151). -/
structure Routines where
  qrPivots : List (List ℝ) → List ℕ
  svdPivots : List (List ℝ) → ℕ → List ℕ
  luMatrix : List (List ℝ) → List (List ℝ)
  newton : List (List ℝ) → ℕ → Except Err (List ℕ)

/-- The call `self.subsampling_algorithm_function(A, m_refined)` (poly.py:251; subsampling.py:29-151). `len` of a number (33) and the call of a number are
`TypeError`s. -/
noncomputable def runAlgorithm (R : Routines) (A : List (List ℝ)) (k : ℕ) : Algorithm → Except Err (List ℕ)
  | .all => .error .typeError
  | .qr => .ok (takePivots (R.qrPivots A) k)
  | .svd => .ok (takePivots (R.svdPivots A k) k)
  | .newton => R.newton A k
  | .lu => .ok (luPivots (R.luMatrix A) k)
  | .zero => .error .typeError

/-- poly.py:211-219 and 243-258: the algorithm is chosen first, then the mesh `(pts, wts)` is built, then its rows are selected if a name was given. `A` is
the weighted matrix (poly.py:244-246), `k` the rounded number of rows (250); both belong to the mesh. -/
noncomputable def meshKept (R : Routines) (name : Option (List Char)) (pts : List (List ℝ)) (wts : List ℝ) (A : List (List ℝ)) (k : ℕ) :
    Except Err (List (List ℝ) × List ℝ) :=
  match chooseAlgorithm name with
  | .error e => .error e
  | .ok alg =>
    match name with
    | none => .ok (pts, wts)
    | some _ =>
      match runAlgorithm R A k alg with
      | .error e => .error e
      | .ok z => .ok (subsample pts wts z)

/-! ## Specification -/

/-- What the factorisations promise for a matrix with `m` rows: pivots are the positions of all rows in some order, and the LU matrix is that of a permutation. -/
structure Routines.Contract (R : Routines) (A : List (List ℝ)) (m : ℕ) : Prop where
  qr : (R.qrPivots A).Perm (List.range m)
  svd : ∀ k, (R.svdPivots A k).Perm (List.range m)
  lu : ∃ π : Equiv.Perm (Fin m), R.luMatrix A = permMatrix π

/-- `k` different rows of the mesh, with their weights multiplied by one factor so that the sum is one. -/
def KeepsRows (pts : List (List ℝ)) (wts : List ℝ) (k : ℕ) (p : List (List ℝ)) (w : List ℝ) : Prop :=
  ∃ z : List ℕ, z.length = k ∧ z.Nodup ∧ (∀ i ∈ z, i < pts.length) ∧ p = z.map (fun i => pts.getD i []) ∧ w.sum = 1 ∧ (∀ x ∈ w, 0 < x) ∧
    ∃ c, 0 < c ∧ w = z.map fun i => c * wts.getD i 0

/-! ## Lemmas -/

theorem keeps (pts : List (List ℝ)) (wts : List ℝ) (hl : wts.length = pts.length) (hpos : ∀ w ∈ wts, 0 < w) (z : List ℕ) (k : ℕ) (hk : 0 < k)
    (h : z.length = k ∧ z.Nodup ∧ ∀ i ∈ z, i < pts.length) : KeepsRows pts wts k (subsample pts wts z).1 (subsample pts wts z).2 := by
  obtain ⟨h1, h2, h3⟩ := h
  have hne : z ≠ [] := by rintro rfl; simp at h1; omega
  obtain ⟨a, b, c, d, r, hr, e⟩ := c25_renormalised pts wts z hne (fun i hi => by rw [hl]; exact h3 i hi) hpos
  refine ⟨z, h1, h2, h3, rfl, c, d, r, hr, ?_⟩
  apply List.ext_getElem (by simpa using b)
  intro j hj1 hj2
  have hj : j < z.length := by simpa using hj2
  have := (e j hj).2
  rw [List.getD_eq_getElem?_getD, List.getElem?_eq_getElem (by simpa using hj1), Option.getD_some] at this
  simpa using this

theorem choose_of {s n : List Char} (h : lower s = n) (a : Algorithm) (hn : (if n = "qr".toList then .ok .qr
    else if n = "svd".toList then .ok .svd else if n = "newton".toList then .ok .newton else if n = "lu".toList then .ok .lu
    else if n = "random".toList then .ok .zero else .error .attributeError : Except Err Algorithm) = .ok a) : chooseAlgorithm (some s) = .ok a := by
  subst h
  exact hn

/-! ## Properties -/

/-- **C176 (part).** Without a name the mesh is kept whole. For the names `qr`, `svd` and `lu`, in any letter case, exactly `k` different rows are kept, with
their weights in proportion and of sum one; for `newton` the rows are those of the determinant maximisation. Missing: names that are not documented; see the
violations. -/
theorem c176_choice_partial (R : Routines) (pts : List (List ℝ)) (wts : List ℝ) (hl : wts.length = pts.length) (hpos : ∀ w ∈ wts, 0 < w)
    (A : List (List ℝ)) (hR : R.Contract A pts.length) (k : ℕ) (hk : 0 < k) (hkm : k ≤ pts.length) :
    meshKept R none pts wts A k = .ok (pts, wts) ∧
    (∀ s, lower s ∈ ["qr".toList, "svd".toList, "lu".toList] → ∃ p w, meshKept R (some s) pts wts A k = .ok (p, w) ∧ KeepsRows pts wts k p w) ∧
    (∀ s z, lower s = "newton".toList → R.newton A k = .ok z → meshKept R (some s) pts wts A k = .ok (subsample pts wts z)) := by
  refine ⟨rfl, fun s hs => ?_, fun s z hs hz => ?_⟩
  · simp only [List.mem_cons, List.not_mem_nil, or_false] at hs
    unfold meshKept
    rcases hs with hs | hs | hs
    · rw [choose_of hs .qr rfl]
      exact ⟨_, _, rfl, keeps pts wts hl hpos _ k hk (c25_pivots_distinct _ _ k hR.qr hkm)⟩
    · rw [choose_of hs .svd rfl]
      exact ⟨_, _, rfl, keeps pts wts hl hpos _ k hk (c25_pivots_distinct _ _ k (hR.svd k) hkm)⟩
    · rw [choose_of hs .lu rfl]
      obtain ⟨π, hπ⟩ := hR.lu
      refine ⟨_, _, rfl, keeps pts wts hl hpos _ k hk ?_⟩
      rw [hπ]
      exact c25_lu_distinct π k hkm
  · unfold meshKept
    rw [choose_of hs .newton rfl]
    simp only [runAlgorithm, hz]

/-- **C176 fails** for names that are not documented: `random` passes the choice and raises a `TypeError` only after the mesh has been built; every other name
raises an `AttributeError`. -/
theorem c176_unknown_violated (R : Routines) (pts : List (List ℝ)) (wts : List ℝ) (A : List (List ℝ)) (k : ℕ) (s : List Char)
    (h : lower s ∉ ["qr".toList, "svd".toList, "newton".toList, "lu".toList]) :
    (lower s = "random".toList → (∃ a, chooseAlgorithm (some s) = .ok a) ∧ meshKept R (some s) pts wts A k = .error .typeError) ∧
    (lower s ≠ "random".toList → chooseAlgorithm (some s) = .error .attributeError ∧ meshKept R (some s) pts wts A k = .error .attributeError) := by
  simp only [List.mem_cons, List.not_mem_nil, or_false, not_or] at h
  obtain ⟨h1, h2, h3, h4⟩ := h
  have e : chooseAlgorithm (some s) = if lower s = "random".toList then .ok .zero else .error .attributeError := by
    exact (if_neg h1).trans ((if_neg h2).trans ((if_neg h3).trans (if_neg h4)))
  constructor
  · intro hr
    rw [if_pos hr] at e
    refine ⟨⟨_, e⟩, ?_⟩
    unfold meshKept
    rw [e]
    rfl
  · intro hr
    rw [if_neg hr] at e
    refine ⟨e, ?_⟩
    unfold meshKept
    rw [e]

/-- Routines that keep the order of the rows meet the contract; `QR` is a spelling of a documented name, `cur` is not documented. -/
example : (∃ R : Routines, R.Contract [[1], [2]] 2) ∧ lower "QR".toList = "qr".toList ∧
    lower "cur".toList ∉ ["qr".toList, "svd".toList, "newton".toList, "lu".toList] := by
  refine ⟨⟨⟨fun _ => List.range 2, fun _ _ => List.range 2, fun _ => permMatrix (m := 2) 1, fun _ _ => .ok []⟩, ⟨.refl _, fun _ => .refl _, 1, rfl⟩⟩, ?_, ?_⟩ <;>
    decide

end EQ.Sampling
