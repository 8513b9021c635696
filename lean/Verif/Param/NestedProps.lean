import Verif.Param.SampledProps
import Verif.Param.ClassicalProps

/-!
# Raising the order keeps the polynomials: C229
-/

namespace EQ.Param

open Polynomial EQ.ParamSpec

/-- The table of a law given by samples, row by row. -/
theorem customCoeffs_row (x w : List ℝ) (m k : ℕ) (h : k ≤ m) : customCoeffs x w m k = customT (customData x w) k := by
  rw [customT]
  by_cases hm : m = 0
  · obtain rfl : k = 0 := by omega
    subst hm
    simp [customCoeffs, customSt]
  · rw [customCoeffs, if_neg (by omega)]
    exact customSt_stable (customData x w) k (m + 1) (by omega)

/-- Two tables that agree up to a row give the same values of the polynomials up to there. -/
theorem orthoTables_congr (ab ab' : Table) (m m' n : ℕ) (hn : n < m) (hn' : n < m') (h : ∀ k, k ≤ n → ab k = ab' k) (x : ℝ) :
    (orthoTables ab m x).poly n = (orthoTables ab' m' x).poly n ∧ (orthoTables ab m x).deriv n = (orthoTables ab' m' x).deriv n ∧
    (orthoTables ab m x).dderiv n = (orthoTables ab' m' x).dderiv n := by
  have e : opoly ab n = opoly ab' n := opoly_congr ab ab' n (fun k hk => by rw [h k (by omega)]) fun k _ hk => by rw [h k hk]
  obtain ⟨a1, a2, a3⟩ := orthoTables_eq ab m x n hn
  obtain ⟨b1, b2, b3⟩ := orthoTables_eq ab' m' x n hn'
  rw [a1, a2, a3, b1, b2, b3, e]
  exact ⟨rfl, rfl, rfl⟩

/-- The columns of values, first and second derivatives of the polynomials up to degree `order` at a point, as lists
(`parameter.py:275-337`, called with `order`). -/
noncomputable def polyColumns (coeffs : ℕ → Table) (order : ℕ) (x : ℝ) : List (ℝ × ℝ × ℝ) :=
  (List.range (order + 1)).map fun n =>
    let T := orthoTables (coeffs (order + 1)) (order + 1) x
    (T.poly n, T.deriv n, T.dderiv n)

/-- Columns of tables that agree on the common rows. -/
theorem polyColumns_take (coeffs : ℕ → Table) (m m' : ℕ) (hm : m ≤ m') (h : ∀ k, k ≤ m → coeffs (m + 1) k = coeffs (m' + 1) k) (x : ℝ) :
    (polyColumns coeffs m' x).take (m + 1) = polyColumns coeffs m x := by
  rw [polyColumns, polyColumns, ← List.map_take, List.take_range, Nat.min_eq_left (by omega)]
  apply List.map_congr_left
  intro n hn
  have hn := List.mem_range.1 hn
  obtain ⟨a, b, c⟩ := orthoTables_congr (coeffs (m' + 1)) (coeffs (m + 1)) (m' + 1) (m + 1) n (by omega) hn (fun k hk => (h k (by omega)).symm) x
  simp only [a, b, c]

/-- **C229.** Asking a uniform, beta or Chebyshev parameter for a higher order adds rows to its recurrence coefficients and to the values and derivatives of
its polynomials, and leaves all the rows of the lower order as they are. -/
theorem c229_jacobi (d : JacobiDist) (m m' : ℕ) (hm : m ≤ m') (x : ℝ) :
    (d.coeffs m').take (m + 1) = d.coeffs m ∧
    (polyColumns (fun order => rows (d.coeffs order)) m' x).take (m + 1) = polyColumns (fun order => rows (d.coeffs order)) m x := by
  have e : ∀ a b, a ≤ b → (d.coeffs b).take (a + 1) = d.coeffs a := fun a b h => by
    rw [JacobiDist.coeffs, JacobiDist.coeffs, jacobiCoeffs, jacobiCoeffs, ← List.map_take, List.take_range, Nat.min_eq_left (by omega)]
  refine ⟨e m m' hm, polyColumns_take _ m m' hm (fun k hk => ?_) x⟩
  rw [← e (m + 1) (m' + 1) (by omega)]
  simp only [rows, List.getD]
  rw [List.getElem?_take_of_lt (by omega)]

/-- The linear polynomial of the uniform law on `[-1, 1]` at the point `1` is `√3`, whether it is asked for with order 1 or with a higher order. -/
example (m : ℕ) (hm : 1 ≤ m) : ((polyColumns (fun order => rows ((⟨-1, 1, 0, 0, 0, 1 / 3⟩ : JacobiDist).coeffs order)) m 1).take 2).getD 1 (0, 0, 0) =
    (√3, √3, 0) := by
  rw [(c229_jacobi _ 1 m hm 1).2]
  simp [polyColumns, orthoTables, rows, JacobiDist.coeffs, jacobiCoeffs, jacobiRow, List.range_succ]
  norm_num

/-- The same for the laws whose coefficients are computed from samples of the density. -/
theorem c229_sampled (xs ws : List ℝ) (m m' : ℕ) (hm : m ≤ m') (x : ℝ) :
    (∀ k, k ≤ m → customCoeffs xs ws m k = customCoeffs xs ws m' k) ∧
    (polyColumns (customCoeffs xs ws) m' x).take (m + 1) = polyColumns (customCoeffs xs ws) m x := by
  refine ⟨fun k hk => by rw [customCoeffs_row _ _ _ _ hk, customCoeffs_row _ _ _ _ (by omega)], polyColumns_take _ m m' hm (fun k hk => ?_) x⟩
  rw [customCoeffs_row _ _ _ _ (by omega), customCoeffs_row _ _ _ _ (by omega)]

/-- Two equally heavy samples: the second row for order 1 has the entry `1`. For order 0 the array has a second row as well, which is not filled, so only the
rows up to the order are meant. -/
example : customCoeffs [-1, 1] [1, 1] 1 1 = (0, 1) ∧ customCoeffs [-1, 1] [1, 1] 0 1 = (0, 0) := by
  constructor
  · simp [customCoeffs, customData, customStep, List.range_succ]
  · simp [customCoeffs]

/-- The gamma and Hermite tables of the library. -/
theorem c229_classical (a A B : ℝ) (m m' : ℕ) (hm : m ≤ m') :
    (∀ l l', laguerreCoeffs a m = .ok l → laguerreCoeffs a m' = .ok l' → l'.take (m + 1) = l) ∧
    (∀ l l', hermiteCoeffs A B m = .ok l → hermiteCoeffs A B m' = .ok l' → l'.take m = l) := by
  constructor
  · intro l l' h h'
    rw [laguerreCoeffs] at h h'
    split at h
    · cases h
    · rw [if_neg (by assumption)] at h'
      cases h; cases h'
      rw [← List.map_take, List.take_range, Nat.min_eq_left (by omega)]
  · intro l l' h h'
    rw [hermiteCoeffs] at h h'
    split at h
    · cases h
    · rw [if_neg (by omega)] at h'
      cases h; cases h'
      rw [← List.map_take, List.take_range, Nat.min_eq_left (by omega)]

/-- Both tables exist. -/
example : ∃ l l', laguerreCoeffs 0 1 = .ok l ∧ laguerreCoeffs 0 3 = .ok l' ∧ l'.take 2 = l ∧ l.length = 2 := by
  refine ⟨_, _, by rw [laguerreCoeffs, if_neg (by norm_num)], by rw [laguerreCoeffs, if_neg (by norm_num)], ?_, by simp⟩
  exact (c229_classical 0 0 0 1 3 (by norm_num)).1 _ _ (by rw [laguerreCoeffs, if_neg (by norm_num)]) (by rw [laguerreCoeffs, if_neg (by norm_num)])

end EQ.Param
