import Verif.Param.SupportLemmas
import Verif.Param.StieltjesLemmas

/-!
# Property theorems for univariate parameters (C10–C20, C76–C78)
-/

namespace EQ.Param
open Polynomial Finset EQ.ParamSpec

/-! ## Bridges (helper lemmas) -/

theorem rows_jacobiCoeffs (a b l u : ℝ) (order k : ℕ) (h : k ≤ order) :
    rows (jacobiCoeffs a b l u order) k = jacobiRow a b l u k := by
  have : k < (List.range (order + 1)).length := by simp; omega
  simp [rows, jacobiCoeffs, List.getD_eq_getElem?_getD, h]

theorem jacobiCoeffs_length (a b l u : ℝ) (order : ℕ) :
    (jacobiCoeffs a b l u order).length = order + 1 := by simp [jacobiCoeffs]

theorem opoly_rows (a b l u : ℝ) (order n : ℕ) (h : n ≤ order) :
    opoly (rows (jacobiCoeffs a b l u order)) n = opoly (jtab a b l u) n :=
  opoly_congr _ _ n (fun k hk => by rw [rows_jacobiCoeffs _ _ _ _ _ _ (by omega)])
    (fun k _ hk => by rw [rows_jacobiCoeffs _ _ _ _ _ _ (by omega)])

theorem jacobiMatrix_rows (a b l u : ℝ) (order n : ℕ) (h : n ≤ order + 1) :
    jacobiMatrix (rows (jacobiCoeffs a b l u order)) n = jacobiMatrix (jtab a b l u) n :=
  jacobiMatrix_congr _ _ n fun k hk => rows_jacobiCoeffs _ _ _ _ _ _ (by omega)

/-- A two-row table used in the examples: the uniform law on `[0, 1]`. -/
noncomputable def legendre01 : Table := jtab 0 0 0 1

theorem legendre01_pos (k : ℕ) (hk : 1 ≤ k) : 0 < (legendre01 k).2 :=
  jtab_pos (by norm_num) (by norm_num) (by norm_num) k hk

/-! ## C10 -/

/-- C10. Row `n` of the univariate table is a polynomial of exact degree `n` in the point, with
leading coefficient `∏ 1/√b_k > 0`; row `0` is the constant `1`. -/
theorem c10_polynomials (ab : Table) (order : ℕ)
    (hb : ∀ k, 1 ≤ k → k < order → 0 < (ab k).2) :
    ∃ P : ℕ → ℝ[X], P 0 = 1 ∧ ∀ n, n < order →
      (P n).natDegree = n ∧
      (P n).leadingCoeff = ∏ k ∈ Icc 1 n, 1 / √(ab k).2 ∧ 0 < (P n).leadingCoeff ∧
      ∀ x, (orthoTables ab order x).poly n = (P n).eval x := by
  refine ⟨opoly ab, rfl, fun n hn => ?_⟩
  have hb' : ∀ k, 1 ≤ k → k ≤ n → 0 < (ab k).2 := fun k h1 h2 => hb k h1 (by omega)
  obtain ⟨hd, hl⟩ := opoly_degree ab n hb'
  refine ⟨hd, by simp [hl], ?_, fun x => (orthoTables_eq ab order x n hn).1⟩
  rw [hl]
  apply Finset.prod_pos
  intro k hk
  rw [mem_Icc] at hk
  exact inv_pos.mpr (Real.sqrt_pos.mpr (hb' k hk.1 hk.2))

example : ∀ k, 1 ≤ k → k < 5 → 0 < (legendre01 k).2 := fun k h _ => legendre01_pos k h

/-! ## C11 -/

/-- C11. The derivative tables hold the true first and second derivatives, at every point and
for every row, whatever the coefficients. -/
theorem c11_derivatives (ab : Table) (order n : ℕ) (hn : n < order) (x : ℝ) :
    HasDerivAt (fun t => (orthoTables ab order t).poly n) ((orthoTables ab order x).deriv n) x ∧
    HasDerivAt (fun t => (orthoTables ab order t).deriv n) ((orthoTables ab order x).dderiv n) x := by
  have e1 : (fun t => (orthoTables ab order t).poly n) = fun t => (opoly ab n).eval t :=
    funext fun t => (orthoTables_eq ab order t n hn).1
  have e2 : (fun t => (orthoTables ab order t).deriv n) =
      fun t => (derivative (opoly ab n)).eval t :=
    funext fun t => (orthoTables_eq ab order t n hn).2.1
  rw [e1, e2, (orthoTables_eq ab order x n hn).2.1, (orthoTables_eq ab order x n hn).2.2]
  exact ⟨Polynomial.hasDerivAt _ x, Polynomial.hasDerivAt _ x⟩

example : (orthoTables (fun _ => (0, 1)) 4 2).poly 3 = 4 ∧
    (orthoTables (fun _ => (0, 1)) 4 2).deriv 3 = 10 := by
  rw [(orthoTables_eq _ 4 2 3 (by norm_num)).1, (orthoTables_eq _ 4 2 3 (by norm_num)).2.1]
  constructor <;> (simp [opoly]; norm_num)

/-! ## C12 -/

/-- C12. The Jacobi matrix: `a_i` on the diagonal, `√b` beside it, zero elsewhere, symmetric;
and it carries the recurrence of the evaluated polynomials. -/
theorem c12_jacobi_matrix (ab : Table) (n : ℕ)
    (hb : ∀ k, 1 ≤ k → k ≤ n + 1 → 0 < (ab k).2) :
    (jacobiMatrix ab (n + 1)).IsSymm ∧
    (∀ i : Fin (n + 1), jacobiMatrix ab (n + 1) i i = (ab i).1) ∧
    (∀ i j : Fin (n + 1), (i : ℕ) + 1 = j → jacobiMatrix ab (n + 1) i j = √(ab j).2) ∧
    (∀ i j : Fin (n + 1), (i : ℕ) + 1 < j → jacobiMatrix ab (n + 1) i j = 0) ∧
    ∀ (x : ℝ) (i : Fin (n + 1)),
      x * (orthoTables ab (n + 2) x).poly i =
        (jacobiMatrix ab (n + 1)).mulVec (fun j => (orthoTables ab (n + 2) x).poly j) i +
        (if (i : ℕ) = n then √(ab (n + 1)).2 * (orthoTables ab (n + 2) x).poly (n + 1) else 0) := by
  refine ⟨jacobiMatrix_symm ab (n + 1), fun i => ?_, fun i j h => ?_, fun i j h => ?_, ?_⟩
  · rw [jacobiMatrix, jacobiEntries_eq ab _ (by omega) i i i.2 i.2, if_pos rfl]
  · rw [jacobiMatrix, jacobiEntries_eq ab _ (by omega) i j i.2 j.2, if_neg (by omega), if_pos h]
  · rw [jacobiMatrix, jacobiEntries_eq ab _ (by omega) i j i.2 j.2, if_neg (by omega),
      if_neg (by omega), if_neg (by omega)]
  · intro x i
    have h := jacobi_opoly ab n x hb i i.2
    have e : (jacobiMatrix ab (n + 1)).mulVec (fun j => (orthoTables ab (n + 2) x).poly j) i =
        ∑ j ∈ range (n + 1), jacobiEntries ab (n + 1) i j * (opoly ab j).eval x := by
      rw [Finset.sum_range]
      simp only [Matrix.mulVec, dotProduct, jacobiMatrix]
      refine sum_congr rfl fun j _ => ?_
      rw [(orthoTables_eq ab (n + 2) x j (by omega)).1]
    rw [e, h, (orthoTables_eq ab (n + 2) x i (by omega)).1,
      (orthoTables_eq ab (n + 2) x (n + 1) (by omega)).1]
    ring

example : ∀ k, 1 ≤ k → k ≤ 3 → 0 < (legendre01 k).2 := fun k h _ => legendre01_pos k h

/-! ## C13 -/

/-- C13. For every admissible output of `eigh` and `argsort`: the points are strictly
increasing, the weights positive and summing to the zeroth coefficient, and weight `u` is the
one of point `u`: both come from one unit eigenvector of the Jacobi matrix. -/
theorem c13_gauss_weights (ab : Table) (n : ℕ) (hb : ∀ k, 1 ≤ k → k ≤ n → 0 < (ab k).2)
    (h0 : 0 < (ab 0).2)
    (D : Fin (n + 1) → ℝ) (V : Matrix (Fin (n + 1)) (Fin (n + 1)) ℝ)
    (hE : EighContract (jacobiMatrix ab (n + 1)) D V)
    (σ : Equiv.Perm (Fin (n + 1))) (hσ : ArgsortContract D σ) :
    StrictMono (quadratureOfEigh ab D V σ).p ∧
    (∀ u, 0 < (quadratureOfEigh ab D V σ).w u) ∧
    ∑ u, (quadratureOfEigh ab D V σ).w u = (ab 0).2 ∧
    ∀ u, ∃ v : Fin (n + 1) → ℝ, dotProduct v v = 1 ∧
      (jacobiMatrix ab (n + 1)).mulVec v = (quadratureOfEigh ab D V σ).p u • v ∧
      (quadratureOfEigh ab D V σ).w u = (ab 0).2 * (v 0) ^ 2 := by
  have G := gaussFacts ab n hb D V hE
  have R := rule_eq ab n hb D V hE σ hσ
  refine ⟨fun i j hij => ?_, fun u => ?_, ?_, fun u => ⟨fun i => V i u, ?_, ?_, (R u).2⟩⟩
  · rw [(R i).1, (R j).1]; exact G.strict hij
  · rw [(R u).2]
    have := G.first_ne u
    positivity
  · simp only [fun u => (R u).2]
    rw [← mul_sum]
    have := G.orthRows 0 0
    rw [if_pos rfl] at this
    have e : ∑ k, V 0 k ^ 2 = ∑ k, V 0 k * V 0 k := sum_congr rfl fun k _ => by ring
    rw [e, this, mul_one]
  · have := congrFun (congrFun hE.orth u) u
    rw [Matrix.mul_apply, Matrix.one_apply_eq] at this
    exact this
  · rw [(R u).1]
    funext i
    have := congrFun (congrFun hE.eig i) u
    rw [Matrix.mul_apply, Matrix.mul_diagonal] at this
    simp only [Matrix.mulVec, dotProduct, Pi.smul_apply, smul_eq_mul]
    rw [this, mul_comm]

/-- The hypotheses about `eigh` and `argsort` can be met for every table. -/
theorem c13_eigh_reachable (ab : Table) (n : ℕ) :
    ∃ D V σ, EighContract (jacobiMatrix ab (n + 1)) D V ∧ ArgsortContract D σ := by
  obtain ⟨D, V, h⟩ := eigh_exists (jacobiMatrix ab (n + 1)) (jacobiMatrix_symm _ _)
  exact ⟨D, V, 1, h, ⟨by simpa using h.mono⟩⟩

example : ∃ D V σ, EighContract (jacobiMatrix legendre01 4) D V ∧ ArgsortContract D σ :=
  c13_eigh_reachable _ 3

/-! ## C14 -/

/-- C14. The rule with `n+1` points makes the first `n+1` polynomials discretely orthogonal and
integrates every polynomial of degree at most `2(n+1) - 1` exactly, for every linear functional
for which the evaluated polynomials are orthogonal (`P i` is any polynomial with the values in
row `i`). -/
theorem c14_gauss_exact (ab : Table) (n : ℕ) (hb : ∀ k, 1 ≤ k → k ≤ n + 1 → 0 < (ab k).2)
    (D : Fin (n + 1) → ℝ) (V : Matrix (Fin (n + 1)) (Fin (n + 1)) ℝ)
    (hE : EighContract (jacobiMatrix ab (n + 1)) D V)
    (σ : Equiv.Perm (Fin (n + 1))) (hσ : ArgsortContract D σ) :
    (∀ i j, i ≤ n → j ≤ n →
      ∑ u, (quadratureOfEigh ab D V σ).w u *
        ((orthoTables ab (n + 2) ((quadratureOfEigh ab D V σ).p u)).poly i *
         (orthoTables ab (n + 2) ((quadratureOfEigh ab D V σ).p u)).poly j) =
        if i = j then (ab 0).2 else 0) ∧
    ∀ (P : ℕ → ℝ[X]) (_ : ∀ i, i ≤ n + 1 → ∀ x, (P i).eval x = (orthoTables ab (n + 2) x).poly i)
      (L : ℝ[X] →ₗ[ℝ] ℝ)
      (_ : ∀ i j, i ≤ n + 1 → j ≤ n + 1 → L (P i * P j) = if i = j then (ab 0).2 else 0)
      (f : ℝ[X]), f.natDegree ≤ 2 * (n + 1) - 1 →
      ∑ u, (quadratureOfEigh ab D V σ).w u * f.eval ((quadratureOfEigh ab D V σ).p u) = L f := by
  have hb' : ∀ k, 1 ≤ k → k ≤ n → 0 < (ab k).2 := fun k h1 h2 => hb k h1 (by omega)
  have R := rule_eq ab n hb' D V hE σ hσ
  simp only [fun u => (R u).1, fun u => (R u).2]
  constructor
  · intro i j hi hj
    have h := discrete_orthonormal ab n hb' D V hE i j (by omega) (by omega)
    have e : ∑ u, (ab 0).2 * V 0 u ^ 2 * ((orthoTables ab (n + 2) (D u)).poly i *
        (orthoTables ab (n + 2) (D u)).poly j) =
        (ab 0).2 * ∑ u, V 0 u ^ 2 * ((opoly ab i).eval (D u) * (opoly ab j).eval (D u)) := by
      rw [mul_sum]
      refine sum_congr rfl fun u _ => ?_
      rw [(orthoTables_eq ab (n + 2) (D u) i (by omega)).1,
        (orthoTables_eq ab (n + 2) (D u) j (by omega)).1]
      ring
    rw [e, h]
    split_ifs <;> simp
  · intro P hP L hL f hf
    have hPo : ∀ i, i ≤ n + 1 → P i = opoly ab i := fun i hi => Polynomial.funext fun x => by
      rw [hP i hi x, (orthoTables_eq ab (n + 2) x i (by omega)).1]
    refine gauss_exact ab n hb D V hE (ab 0).2 L (fun i j hi hj => ?_) f (by omega)
    rw [← hPo i (by omega), ← hPo j hj]
    exact hL i j (by omega) hj

/-- C14 for a concrete law: the `n+1`-point rule of a Beta-type parameter (uniform: both shapes
`1`; Chebyshev: both `1/2`) gives the expectation of every polynomial of degree `≤ 2n+1`. -/
theorem c14_gauss_exact_beta (A B l u : ℝ) (hA : 0 < A) (hB : 0 < B) (hlu : l < u) (n : ℕ)
    (D : Fin (n + 1) → ℝ) (V : Matrix (Fin (n + 1)) (Fin (n + 1)) ℝ)
    (hE : EighContract (jacobiMatrix (rows (jacobiCoeffs (B - 1) (A - 1) l u (n + 1))) (n + 1)) D V)
    (σ : Equiv.Perm (Fin (n + 1))) (hσ : ArgsortContract D σ)
    (f : ℝ[X]) (hf : f.natDegree ≤ 2 * n + 1) :
    ∑ v, (quadratureOfEigh (rows (jacobiCoeffs (B - 1) (A - 1) l u (n + 2))) D V σ).w v *
      f.eval ((quadratureOfEigh (rows (jacobiCoeffs (B - 1) (A - 1) l u (n + 2))) D V σ).p v) =
      betaE A B l u (fun x => f.eval x) := by
  rw [jacobiMatrix_rows _ _ _ _ _ _ (by omega)] at hE
  have hb := beta_tab_pos hA hB hlu
  have R := rule_eq (jtab (B - 1) (A - 1) l u) n (fun k h1 _ => hb k h1) D V hE σ hσ
  have h1 : ∀ v, (quadratureOfEigh (rows (jacobiCoeffs (B - 1) (A - 1) l u (n + 2))) D V σ).p v =
      D v := fun v => (R v).1
  have h2 : ∀ v, (quadratureOfEigh (rows (jacobiCoeffs (B - 1) (A - 1) l u (n + 2))) D V σ).w v =
      1 * V 0 v ^ 2 := fun v => by
    have e : (rows (jacobiCoeffs (B - 1) (A - 1) l u (n + 2)) 0).2 = 1 := by
      rw [rows_jacobiCoeffs _ _ _ _ _ _ (by omega)]; simp [jacobiRow]; norm_num
    have e' : (jtab (B - 1) (A - 1) l u 0).2 = 1 := by simp [jtab, jacobiRow]; norm_num
    have := (R v).2
    simp only [quadratureOfEigh] at this ⊢
    rw [e'] at this
    rw [e, this]
  simp only [h1, h2]
  exact gauss_exact (jtab (B - 1) (A - 1) l u) n (fun k h1 _ => hb k h1) D V hE 1
    (betaL hA hB hlu) (fun i j _ _ => beta_orth hA hB hlu (max i j) i j (le_max_left _ _)
      (le_max_right _ _)) f hf

example : ∃ (D : Fin 3 → ℝ) (V : Matrix (Fin 3) (Fin 3) ℝ),
    EighContract (jacobiMatrix (rows (jacobiCoeffs (3 - 1) (2 - 1) 0 1 3)) 3) D V ∧
    ArgsortContract D 1 := by
  obtain ⟨D, V, h⟩ := eigh_exists _ (jacobiMatrix_symm (rows (jacobiCoeffs (3 - 1) (2 - 1) 0 1 3)) 3)
  exact ⟨D, V, h, ⟨by simpa using h.mono⟩⟩

/-! ## C15 -/

/-- C15 for uniform parameters, whatever bounds were given: the one-point rule sits at the mean
of the law the parameter describes, with weight one. -/
theorem c15_single_point_uniform_partial (lower upper : Option ℝ)
    (hlu : (mkUniform lower upper).lower < (mkUniform lower upper).upper) :
    onePointRule lower upper (mkUniform lower upper).mean =
      (uniformE (mkUniform lower upper).lower (mkUniform lower upper).upper (fun x => x), 1) := by
  rw [uniformE_eq_betaE, beta_mean one_pos one_pos hlu]
  rcases lower with _ | l <;> rcases upper with _ | u <;>
    simp only [onePointRule, mkUniform]
  · norm_num
  · norm_num
  · norm_num
  · have e : (u - l) / 2.0 + l = l + (u - l) * (1 / (1 + 1)) := by norm_num; ring
    have e' : 0.5 * (u + l) = l + (u - l) * (1 / (1 + 1)) := by norm_num; ring
    rw [e, e', ite_self]
    norm_num

/-- C15, the general rule the code follows: the reported mean if a bound is missing or zero. -/
theorem c15_single_point_missing_bound_partial (lower upper : Option ℝ) (mean : ℝ)
    (h : lower = none ∨ lower = some 0 ∨ upper = none ∨ upper = some 0) :
    onePointRule lower upper mean = (mean, 1) := by
  rcases lower with _ | l <;> rcases upper with _ | u <;> simp [onePointRule, falsy] <;> norm_num
  · simp only [reduceCtorEq, Option.some.injEq, false_or] at h
    rcases h with h | h <;> simp [h]

/-- C15 is false for Beta parameters: with shapes `2, 3` the one-point rule on `[1, 2]` sits at
`1.5` and on `[0, 2]` at `0.4`, but the means are `1.4` and `0.8`. -/
theorem c15_single_point_violated :
    (∃ d, mkBeta 1 2 2 3 = some d ∧
      onePointRule (some 1) (some 2) d.mean ≠ (betaE 2 3 1 2 (fun x => x), 1)) ∧
    (∃ d, mkBeta 0 2 2 3 = some d ∧
      onePointRule (some 0) (some 2) d.mean ≠ (betaE 2 3 0 2 (fun x => x), 1)) := by
  refine ⟨⟨_, if_pos (by norm_num), ?_⟩, ⟨_, if_pos (by norm_num), ?_⟩⟩
  · rw [beta_mean (by norm_num) (by norm_num) (by norm_num)]
    simp [onePointRule, falsy]; norm_num
  · rw [beta_mean (by norm_num) (by norm_num) (by norm_num)]
    simp [onePointRule, falsy]; norm_num

example : (mkUniform (some 1) (some 3)).lower < (mkUniform (some 1) (some 3)).upper := by
  norm_num [mkUniform]

/-! ## C16 -/

/-- C16, Radau: for every table with positive coefficients and every end point that is not a
root of the last but one polynomial, the end point is a point of the rule and the rule (with
`n = N+2` points) is exact to degree `2n - 2`. -/
theorem c16_radau (ab : Table) (e : ℝ) (N : ℕ) (hb : ∀ k, 1 ≤ k → k ≤ N + 1 → 0 < (ab k).2)
    (hne : (orthoTables ab (N + 2) e).poly (N + 1) ≠ 0)
    (D : Fin (N + 2) → ℝ) (V : Matrix (Fin (N + 2)) (Fin (N + 2)) ℝ)
    (hE : EighContract (jacobiMatrix (radauTable ab e N) (N + 2)) D V)
    (σ : Equiv.Perm (Fin (N + 2))) (hσ : ArgsortContract D σ) :
    (∃ u, (quadratureOfEigh (radauTable ab e N) D V σ).p u = e) ∧
    ∀ (P : ℕ → ℝ[X]) (_ : ∀ i, i ≤ N + 1 → ∀ x, (P i).eval x = (orthoTables ab (N + 2) x).poly i)
      (L : ℝ[X] →ₗ[ℝ] ℝ)
      (_ : ∀ i j, i ≤ N + 1 → j ≤ N + 1 → L (P i * P j) = if i = j then (ab 0).2 else 0)
      (f : ℝ[X]), f.natDegree ≤ 2 * (N + 2) - 2 →
      ∑ u, (quadratureOfEigh (radauTable ab e N) D V σ).w u *
        f.eval ((quadratureOfEigh (radauTable ab e N) D V σ).p u) = L f := by
  rw [(orthoTables_eq ab (N + 2) e (N + 1) (by omega)).1] at hne
  obtain ⟨hnode, hex⟩ := radau_rule ab e N hb hne D V hE
  have hbT : ∀ k, 1 ≤ k → k ≤ N + 1 → 0 < (radauTable ab e N k).2 := by
    intro k h1 h2
    have : (radauTable ab e N k).2 = (ab k).2 := by
      simp only [radauTable]
      by_cases hk : k = N + 1
      · subst hk; simp
      · rw [Function.update_of_ne hk]
    rw [this]; exact hb k h1 h2
  have h0 : (radauTable ab e N 0).2 = (ab 0).2 := by
    simp only [radauTable]; rw [Function.update_of_ne (by omega)]
  have R := rule_eq (radauTable ab e N) (N + 1) hbT D V hE σ hσ
  simp only [fun u => (R u).1, fun u => (R u).2, h0]
  refine ⟨hnode, fun P hP L hL f hf => hex (ab 0).2 L (fun i j hi hj => ?_) f (by omega)⟩
  have hPo : ∀ i, i ≤ N + 1 → P i = opoly ab i := fun i hi => Polynomial.funext fun x => by
    rw [hP i hi x, (orthoTables_eq ab (N + 2) x i (by omega)).1]
  rw [← hPo i hi, ← hPo j hj]
  exact hL i j hi hj

/-- Value of the orthonormal polynomial at an end of the support of a Beta law. -/
theorem beta_end_ne (A B l u : ℝ) (hA : 0 < A) (hB : 0 < B) (hlu : l < u) (n : ℕ) :
    (opoly (jtab (B - 1) (A - 1) l u) n).eval l ≠ 0 ∧
    (opoly (jtab (B - 1) (A - 1) l u) n).eval u ≠ 0 := by
  have hb := beta_tab_pos hA hB hlu
  have s := mpoly_sign (jtab (B - 1) (A - 1) l u) n (fun k h _ => hb k h) 1 one_pos
    (betaL hA hB hlu) (beta_orth hA hB hlu n) l u (beta_pos_lower hA hB hlu)
    (beta_pos_upper hA hB hlu) n le_rfl
  constructor
  · intro h
    rw [← mpoly_root _ _ (fun k h _ => hb k h)] at h
    rw [h, mul_zero] at s
    exact lt_irrefl _ s.2
  · intro h
    rw [← mpoly_root _ _ (fun k h _ => hb k h)] at h
    rw [h] at s
    exact lt_irrefl _ s.1

/-- C16, Radau, for the Beta-type laws: no side condition is left. Both end points work, for
every order, all shapes and bounds, and the rule gives expectations exactly to degree
`2n - 2`. -/
theorem c16_radau_beta (A B l u : ℝ) (hA : 0 < A) (hB : 0 < B) (hlu : l < u) (N : ℕ)
    (e : ℝ) (he : e = l ∨ e = u)
    (D : Fin (N + 2) → ℝ) (V : Matrix (Fin (N + 2)) (Fin (N + 2)) ℝ)
    (hE : EighContract (jacobiMatrix
      (radauTable (rows (jacobiCoeffs (B - 1) (A - 1) l u (N + 1))) e N) (N + 2)) D V)
    (σ : Equiv.Perm (Fin (N + 2))) (hσ : ArgsortContract D σ) :
    let R := quadratureOfEigh (radauTable (rows (jacobiCoeffs (B - 1) (A - 1) l u (N + 1))) e N) D V σ
    (∃ v, R.p v = e) ∧
    ∀ f : ℝ[X], f.natDegree ≤ 2 * (N + 2) - 2 →
      ∑ v, R.w v * f.eval (R.p v) = betaE A B l u (fun x => f.eval x) := by
  intro R
  have hrow : ∀ k, k ≤ N + 1 → rows (jacobiCoeffs (B - 1) (A - 1) l u (N + 1)) k =
      jtab (B - 1) (A - 1) l u k := fun k hk => rows_jacobiCoeffs _ _ _ _ _ _ hk
  have hop : ∀ i, i ≤ N + 1 → opoly (rows (jacobiCoeffs (B - 1) (A - 1) l u (N + 1))) i =
      opoly (jtab (B - 1) (A - 1) l u) i := fun i hi => opoly_rows _ _ _ _ _ _ hi
  have hne : (orthoTables (rows (jacobiCoeffs (B - 1) (A - 1) l u (N + 1))) (N + 2) e).poly
      (N + 1) ≠ 0 := by
    rw [(orthoTables_eq _ (N + 2) e (N + 1) (by omega)).1, hop _ le_rfl]
    rcases he with rfl | rfl
    · exact (beta_end_ne A B _ u hA hB hlu _).1
    · exact (beta_end_ne A B l _ hA hB hlu _).2
  obtain ⟨h1, h2⟩ := c16_radau _ e N (fun k hk1 hk2 => by
    rw [hrow k hk2]; exact beta_tab_pos hA hB hlu k hk1) hne D V hE σ hσ
  refine ⟨h1, fun f hf => ?_⟩
  refine h2 (opoly (jtab (B - 1) (A - 1) l u)) (fun i hi x => ?_) (betaL hA hB hlu)
    (fun i j hi hj => ?_) f hf
  · rw [(orthoTables_eq _ (N + 2) x i (by omega)).1, hop i hi]
  · rw [beta_orth hA hB hlu (N + 1) i j hi hj, hrow 0 (by omega)]
    simp [jtab, jacobiRow]; norm_num

/-- C16, Lobatto, for the Beta-type laws: both ends of the support are points of the rule
(`n = N+2` points), which is exact to degree `2n - 3`. The modified coefficients are well
defined (non-zero determinant, positive `b`). -/
theorem c16_lobatto_beta (A B l u : ℝ) (hA : 0 < A) (hB : 0 < B) (hlu : l < u) (N : ℕ)
    (D : Fin (N + 2) → ℝ) (V : Matrix (Fin (N + 2)) (Fin (N + 2)) ℝ)
    (hE : EighContract (jacobiMatrix
      (lobattoTable (rows (jacobiCoeffs (B - 1) (A - 1) l u (N + 1))) l u N) (N + 2)) D V)
    (σ : Equiv.Perm (Fin (N + 2))) (hσ : ArgsortContract D σ) :
    let T := lobattoTable (rows (jacobiCoeffs (B - 1) (A - 1) l u (N + 1))) l u N
    let R := quadratureOfEigh T D V σ
    0 < (T (N + 1)).2 ∧ (∃ v, R.p v = l) ∧ (∃ v, R.p v = u) ∧
    ∀ f : ℝ[X], f.natDegree ≤ 2 * (N + 2) - 3 →
      ∑ v, R.w v * f.eval (R.p v) = betaE A B l u (fun x => f.eval x) := by
  intro T R
  set ab := rows (jacobiCoeffs (B - 1) (A - 1) l u (N + 1)) with hab
  have hrow : ∀ k, k ≤ N + 1 → ab k = jtab (B - 1) (A - 1) l u k :=
    fun k hk => rows_jacobiCoeffs _ _ _ _ _ _ hk
  have hbj := beta_tab_pos hA hB hlu
  have hb : ∀ k, 1 ≤ k → k ≤ N + 1 → 0 < (ab k).2 := fun k h1 h2 => by
    rw [hrow k h2]; exact hbj k h1
  have hmp : ∀ i, i ≤ N + 1 → mpoly ab i = mpoly (jtab (B - 1) (A - 1) l u) i := fun i hi =>
    mpoly_congr _ _ i fun k hk => hrow k (by omega)
  have hop : ∀ i, i ≤ N + 1 → opoly ab i = opoly (jtab (B - 1) (A - 1) l u) i :=
    fun i hi => opoly_rows _ _ _ _ _ _ hi
  have sgn : ∀ n, n ≤ N + 1 → 0 < (mpoly ab n).eval u ∧ 0 < (-1) ^ n * (mpoly ab n).eval l :=
    fun n hn => by
      rw [hmp n hn]
      exact mpoly_sign _ n (fun k h _ => hbj k h) 1 one_pos
        (betaL hA hB hlu) (beta_orth hA hB hlu n) l u (beta_pos_lower hA hB hlu)
        (beta_pos_upper hA hB hlu) n le_rfl
  obtain ⟨hdet, hpos⟩ := lobatto_defined ab l u N hlu (sgn (N + 1) le_rfl).1 (sgn (N + 1) le_rfl).2
    (sgn N (by omega)).1 (sgn N (by omega)).2
  obtain ⟨n1, n2, hex⟩ := lobatto_rule ab l u N hb hdet hpos D V hE
  have hTlow : ∀ k, k < N + 1 → T k = ab k := fun k hk => by
    simp only [T, lobattoTable]; rw [Function.update_of_ne (by omega)]
  have hbT : ∀ k, 1 ≤ k → k ≤ N + 1 → 0 < (T k).2 := by
    intro k h1 h2
    rcases Nat.lt_or_ge k (N + 1) with h3 | h3
    · rw [hTlow k h3]; exact hb k h1 h2
    · obtain rfl : k = N + 1 := by omega
      exact hpos
  have Rr := rule_eq T (N + 1) hbT D V hE σ hσ
  have h0 : (T 0).2 = 1 := by
    rw [hTlow 0 (by omega), hrow 0 (by omega)]; simp [jtab, jacobiRow]; norm_num
  refine ⟨hpos, ?_, ?_, fun f hf => ?_⟩
  · obtain ⟨k, hk⟩ := n1; exact ⟨k, by rw [← hk]; exact (Rr k).1⟩
  · obtain ⟨k, hk⟩ := n2; exact ⟨k, by rw [← hk]; exact (Rr k).1⟩
  · have := hex 1 (betaL hA hB hlu) (fun i j hi hj => by
      rw [hop i hi, hop j hj]; exact beta_orth hA hB hlu (N + 1) i j hi hj) f (by omega)
    rw [betaL_apply] at this
    rw [← this]
    refine sum_congr rfl fun v _ => ?_
    change (quadratureOfEigh T D V σ).w v * f.eval ((quadratureOfEigh T D V σ).p v) = _
    rw [(Rr v).1, (Rr v).2, h0]

example (A B : ℝ) : ∃ D V σ, EighContract (jacobiMatrix
    (lobattoTable (rows (jacobiCoeffs (B - 1) (A - 1) 0 1 3)) 0 1 2) 4) D V ∧ ArgsortContract D σ :=
  c13_eigh_reachable _ 3
example (A B : ℝ) : ∃ D V σ, EighContract (jacobiMatrix
    (radauTable (rows (jacobiCoeffs (B - 1) (A - 1) 0 1 3)) 1 2) 4) D V ∧ ArgsortContract D σ :=
  c13_eigh_reachable _ 3

/-! ## C17 -/

/-- C17. For `a, b > -1` and `lower < upper`: the table has `order + 1` rows, the zeroth
coefficient is `1`, every further one is positive, and no denominator occurring in the formulas
vanishes. -/
theorem c17_jacobi_positive (a b l u : ℝ) (ha : -1 < a) (hb : -1 < b) (hlu : l < u) (order : ℕ) :
    (jacobiCoeffs a b l u order).length = order + 1 ∧
    (rows (jacobiCoeffs a b l u order) 0).2 = 1 ∧
    (∀ n, 1 ≤ n → n ≤ order → 0 < (rows (jacobiCoeffs a b l u order) n).2) ∧
    a + b + 2 ≠ 0 ∧
    (∀ n : ℕ, 1 ≤ n → (2 * (n : ℝ) + a + b) * (2 * ((n : ℝ) + 1) + a + b) ≠ 0 ∧
      (2 * (n : ℝ) + a + b) ^ 2 * (2 * (n : ℝ) + a + b + 1) ≠ 0) ∧
    (∀ n : ℕ, 2 ≤ n → 2 * (n : ℝ) + a + b - 1 ≠ 0) := by
  refine ⟨jacobiCoeffs_length _ _ _ _ _, ?_, fun n h1 h2 => ?_, by intro h; linarith,
    fun n hn => ?_, fun n hn => ?_⟩
  · rw [rows_jacobiCoeffs _ _ _ _ _ _ (by omega)]; simp [jacobiRow]; norm_num
  · rw [rows_jacobiCoeffs _ _ _ _ _ _ h2]; exact jtab_pos ha hb hlu n h1
  · have : (1 : ℝ) ≤ n := by exact_mod_cast hn
    have h1 : 0 < 2 * (n : ℝ) + a + b := by linarith
    have h2 : 0 < 2 * ((n : ℝ) + 1) + a + b := by linarith
    have h3 : 0 < 2 * (n : ℝ) + a + b + 1 := by linarith
    constructor <;> positivity
  · have : (2 : ℝ) ≤ n := by exact_mod_cast hn
    intro h; linarith

example : (-1 : ℝ) < -0.5 ∧ (0 : ℝ) < 2 := by norm_num

/-! ## C18, C76, C77 -/

/-- C76. For every Beta parameter the library accepts and all bounds: the evaluated polynomials
are orthonormal for the Beta law with these shapes on `[lower, upper]`. -/
theorem c76_beta_orthonormal (l u A B : ℝ) (hlu : l < u) (d : JacobiDist)
    (hd : mkBeta l u A B = some d) (order i j : ℕ) (hi : i < order) (hj : j < order) :
    betaE A B l u (fun x => (orthoTables (rows (d.coeffs order)) order x).poly i *
      (orthoTables (rows (d.coeffs order)) order x).poly j) = if i = j then 1 else 0 := by
  unfold mkBeta at hd
  split_ifs at hd with hAB
  obtain rfl := Option.some.inj hd
  have hA : 0 < A := by linarith [hAB.1]
  have hB : 0 < B := by linarith [hAB.2]
  rw [← beta_orthonormal hA hB hlu i j]
  congr 1
  funext x
  simp only [JacobiDist.coeffs]
  rw [(orthoTables_eq _ order x i hi).1, (orthoTables_eq _ order x j hj).1,
    opoly_rows _ _ _ _ _ _ hi.le, opoly_rows _ _ _ _ _ _ hj.le]

/-- C76, rejected inputs: a shape below one gives no parameter. -/
theorem c76_beta_rejected (l u A B : ℝ) (h : A < 1 ∨ B < 1) : mkBeta l u A B = none := by
  unfold mkBeta
  rw [if_neg]
  rintro ⟨h1, h2⟩
  rcases h with h | h <;> linarith

example : ∃ d, mkBeta (-1) 3 2 5 = some d := ⟨_, if_pos (by norm_num)⟩

/-- C18. For every pair of bounds `lower < upper` (or missing bounds, meaning `[0, 1]`) the
polynomials of a uniform parameter are orthonormal for the uniform law. -/
theorem c18_uniform_orthonormal (lower upper : Option ℝ)
    (hlu : (mkUniform lower upper).lower < (mkUniform lower upper).upper)
    (order i j : ℕ) (hi : i < order) (hj : j < order) :
    uniformE (mkUniform lower upper).lower (mkUniform lower upper).upper (fun x =>
      (orthoTables (rows ((mkUniform lower upper).coeffs order)) order x).poly i *
      (orthoTables (rows ((mkUniform lower upper).coeffs order)) order x).poly j) =
      if i = j then 1 else 0 := by
  rw [uniformE_eq_betaE, ← beta_orthonormal one_pos one_pos hlu i j]
  congr 1
  funext x
  have ha : (mkUniform lower upper).shapeParameterA = 1 - 1 := by simp [mkUniform]
  have hb : (mkUniform lower upper).shapeParameterB = 1 - 1 := by simp [mkUniform]
  simp only [JacobiDist.coeffs]
  rw [(orthoTables_eq _ order x i hi).1, (orthoTables_eq _ order x j hj).1,
    opoly_rows _ _ _ _ _ _ hi.le, opoly_rows _ _ _ _ _ _ hj.le, ha, hb]

/-- C18: which law that is. -/
theorem c18_uniform_support (l u : ℝ) :
    ((mkUniform (some l) (some u)).lower = l ∧ (mkUniform (some l) (some u)).upper = u) ∧
    (mkUniform none none).lower = 0 ∧ (mkUniform none none).upper = 1 := by
  simp [mkUniform]

example : (mkUniform (some (-1)) (some 2)).lower < (mkUniform (some (-1)) (some 2)).upper := by
  norm_num [mkUniform]

/-- C77. The polynomials of a Chebyshev parameter are orthonormal for the arcsine law on
`[lower, upper]`. -/
theorem c77_chebyshev_orthonormal (l u : ℝ) (hlu : l < u) (order i j : ℕ) (hi : i < order)
    (hj : j < order) :
    arcsineE l u (fun x => (orthoTables (rows ((mkChebyshev l u).coeffs order)) order x).poly i *
      (orthoTables (rows ((mkChebyshev l u).coeffs order)) order x).poly j) =
      if i = j then 1 else 0 := by
  rw [arcsineE_eq_betaE hlu, ← beta_orthonormal (by norm_num : (0 : ℝ) < 1 / 2)
    (by norm_num : (0 : ℝ) < 1 / 2) hlu i j]
  congr 1
  funext x
  have e : (-0.5 : ℝ) = 1 / 2 - 1 := by norm_num
  simp only [JacobiDist.coeffs, mkChebyshev]
  rw [(orthoTables_eq _ order x i hi).1, (orthoTables_eq _ order x j hj).1,
    opoly_rows _ _ _ _ _ _ hi.le, opoly_rows _ _ _ _ _ _ hj.le, e]

example : (-1 : ℝ) < 1 := by norm_num

/-! ## C78 -/

/-- C78. All Gauss points of a Beta-type parameter lie strictly between its bounds. -/
theorem c78_points_inside (A B l u : ℝ) (hA : 0 < A) (hB : 0 < B) (hlu : l < u) (n : ℕ)
    (D : Fin (n + 1) → ℝ) (V : Matrix (Fin (n + 1)) (Fin (n + 1)) ℝ)
    (hE : EighContract (jacobiMatrix (rows (jacobiCoeffs (B - 1) (A - 1) l u (n + 1))) (n + 1)) D V)
    (σ : Equiv.Perm (Fin (n + 1))) (hσ : ArgsortContract D σ) (v : Fin (n + 1)) :
    l < (quadratureOfEigh (rows (jacobiCoeffs (B - 1) (A - 1) l u (n + 2))) D V σ).p v ∧
    (quadratureOfEigh (rows (jacobiCoeffs (B - 1) (A - 1) l u (n + 2))) D V σ).p v < u := by
  rw [jacobiMatrix_rows _ _ _ _ _ _ (by omega)] at hE
  have hb := beta_tab_pos hA hB hlu
  have R := (rule_eq (jtab (B - 1) (A - 1) l u) n (fun k h1 _ => hb k h1) D V hE σ hσ v).1
  have h1 : (quadratureOfEigh (rows (jacobiCoeffs (B - 1) (A - 1) l u (n + 2))) D V σ).p v =
      D v := R
  rw [h1]
  have hL : ∀ i j, i ≤ n → j ≤ n + 1 → betaL hA hB hlu (opoly (jtab (B - 1) (A - 1) l u) i *
      opoly (jtab (B - 1) (A - 1) l u) j) = if i = j then 1 else 0 :=
    fun i j _ hj => beta_orth hA hB hlu (n + 1) i j (by omega) hj
  have s1 := node_sign _ n (fun k h1 _ => hb k h1) D V hE 1 one_pos (betaL hA hB hlu) hL
    (X - C l) (by simp) (beta_pos_lower hA hB hlu) v
  have s2 := node_sign _ n (fun k h1 _ => hb k h1) D V hE 1 one_pos (betaL hA hB hlu) hL
    (C u - X) ((natDegree_sub_le _ _).trans (by simp)) (beta_pos_upper hA hB hlu) v
  constructor
  · simpa using s1
  · simpa using s2

example : ∃ D V σ, EighContract (jacobiMatrix (rows (jacobiCoeffs (3 - 1) (2 - 1) 0 1 4)) 4) D V ∧
    ArgsortContract D σ := c13_eigh_reachable _ 3

/-! ## C19 -/

/-- C19. For every finite set of samples with non-negative weights (not all zero) and every
order below the number of distinct samples of non-zero weight: the polynomials are orthonormal
for the discrete law with probabilities `w / Σ w`. The table has `order + 2` rows. -/
theorem c19_custom_orthonormal (x w : List ℝ) (hlen : x.length = w.length)
    (hw : ∀ v ∈ w, 0 ≤ v) (hs : w.sum ≠ 0) (order m : ℕ) (horder : 1 ≤ order)
    (hm : m ≤ order + 1)
    (hd : m < (((x.zip w).filter fun q => q.2 ≠ 0).map Prod.fst).toFinset.card) :
    (∀ k, 1 ≤ k → k ≤ m → 0 < (customCoeffs x w order k).2) ∧
    ∀ i j, i ≤ m → j ≤ m →
      sampleE (x.zip w) (fun t => (orthoTables (customCoeffs x w order) (m + 1) t).poly i *
        (orthoTables (customCoeffs x w order) (m + 1) t).poly j) = if i = j then 1 else 0 := by
  have hsum : 0 < w.sum := lt_of_le_of_ne (List.sum_nonneg hw) (Ne.symm hs)
  have hz : x.zip (w.map fun v => v / w.sum) = (x.zip w).map fun q => (q.1, q.2 / w.sum) := by
    rw [List.zip_map_right]; rfl
  have hpos : ∀ q ∈ customData x w, 0 < q.2 := by
    intro q hq
    rw [customData, hz, List.mem_filter, List.mem_map] at hq
    obtain ⟨⟨p, hp, rfl⟩, hne⟩ := hq
    have h1 : 0 ≤ p.2 := hw _ (List.of_mem_zip hp).2
    have h2 : p.2 ≠ 0 := by
      intro h; simp [h] at hne
    exact div_pos (lt_of_le_of_ne h1 (Ne.symm h2)) hsum
  have hset : (customData x w).map Prod.fst =
      ((x.zip w).filter fun q => q.2 ≠ 0).map Prod.fst := by
    rw [customData, hz, List.filter_map, List.map_map]
    congr 1
    apply List.filter_congr
    intro q _
    simp [hs]
  obtain ⟨h1, h2⟩ := customT_orthonormal (customData x w) hpos m (by rw [hset]; exact hd)
  have hrow : ∀ k, k ≤ m → customCoeffs x w order k = customT (customData x w) k :=
    fun k hk => customCoeffs_eq x w order k horder (by omega)
  refine ⟨fun k hk1 hk2 => by rw [hrow k hk2]; exact h1 k hk1 hk2, fun i j hi hj => ?_⟩
  have hop : ∀ i, i ≤ m → opoly (customCoeffs x w order) i = opoly (customT (customData x w)) i :=
    fun i hi => opoly_congr _ _ i (fun k hk => by rw [hrow k (by omega)])
      (fun k _ hk => by rw [hrow k (by omega)])
  have key : ∀ f : ℝ[X], sampleE (x.zip w) (fun t => f.eval t) = dsum (customData x w) f := by
    intro f
    rw [dsum_customData, sampleE]
    have : ((x.zip w).map Prod.snd) = w := by
      rw [List.map_snd_zip]; omega
    rw [this, div_eq_mul_inv, ← List.sum_map_mul_right]
    congr 1
    apply List.map_congr_left
    intro q _
    rw [div_eq_mul_inv]; ring
  have h1m : dsum (customData x w) 1 = 1 := by
    rw [← key, sampleE]
    simp only [eval_one, mul_one]
    have : ((x.zip w).map Prod.snd) = w := by
      rw [List.map_snd_zip]; omega
    rw [this, div_self hs]
  have h := h2 i j hi hj
  rw [h1m, ← key] at h
  rw [← h]
  congr 1
  funext t
  rw [(orthoTables_eq _ (m + 1) t i (by omega)).1, (orthoTables_eq _ (m + 1) t j (by omega)).1,
    hop i hi, hop j hj, eval_mul]

example : (∀ v ∈ ([1, 0, 2, 1] : List ℝ), 0 ≤ v) ∧ ([1, 0, 2, 1] : List ℝ).sum ≠ 0 ∧
    2 < (((([0, 1, 2, 3] : List ℝ).zip [1, 0, 2, 1]).filter fun q => q.2 ≠ 0).map
      Prod.fst).toFinset.card := by
  refine ⟨by simp, by norm_num, ?_⟩
  have : ((([0, 1, 2, 3] : List ℝ).zip [1, 0, 2, 1]).filter fun q => q.2 ≠ 0).map Prod.fst =
      [0, 2, 3] := by
    simp
  rw [this, List.toFinset_card_of_nodup]
  · simp
  · norm_num

/-! ## C20 -/

/-- C20 for uniform parameters: reported mean and variance are the coefficients `a_0`, `b_1`. -/
theorem c20_uniform_moments_partial (lower upper : Option ℝ) (order : ℕ) (h : 1 ≤ order) :
    (mkUniform lower upper).mean = (rows ((mkUniform lower upper).coeffs order) 0).1 ∧
    (mkUniform lower upper).variance = (rows ((mkUniform lower upper).coeffs order) 1).2 := by
  simp only [JacobiDist.coeffs]
  rw [rows_jacobiCoeffs _ _ _ _ _ _ (by omega), rows_jacobiCoeffs _ _ _ _ _ _ h]
  rcases lower with _ | l <;> rcases upper with _ | u <;>
    simp [mkUniform, jacobiRow] <;> norm_num <;> constructor <;> ring

/-- C20 for Beta and Chebyshev parameters on the default support `[0, 1]`. -/
theorem c20_unit_moments_partial (A B : ℝ) (order : ℕ) (h : 1 ≤ order) :
    (∀ d, mkBeta 0 1 A B = some d →
      d.mean = (rows (d.coeffs order) 0).1 ∧ d.variance = (rows (d.coeffs order) 1).2) ∧
    (mkChebyshev 0 1).mean = (rows ((mkChebyshev 0 1).coeffs order) 0).1 ∧
    (mkChebyshev 0 1).variance = (rows ((mkChebyshev 0 1).coeffs order) 1).2 := by
  constructor
  · intro d hd
    unfold mkBeta at hd
    split_ifs at hd with hAB
    obtain rfl := Option.some.inj hd
    simp only [JacobiDist.coeffs]
    rw [rows_jacobiCoeffs _ _ _ _ _ _ (by omega), rows_jacobiCoeffs _ _ _ _ _ _ h]
    have h1 : 0 < A + B := by linarith [hAB.1, hAB.2]
    have e : B - 1 + (A - 1) + 2 = A + B := by ring
    simp only [jacobiRow, if_true, one_ne_zero, if_false]
    rw [e]
    constructor
    · field_simp; ring
    · have e1 : (2 * ((1 : ℕ) + 1 - 1 : ℝ) + (B - 1) + (A - 1)) = A + B := by push_cast; ring
      rw [e1]
      congr 1
      push_cast; ring
  · simp only [JacobiDist.coeffs]
    rw [rows_jacobiCoeffs _ _ _ _ _ _ (by omega), rows_jacobiCoeffs _ _ _ _ _ _ h]
    simp [mkChebyshev, jacobiRow]
    norm_num

/-- C20 is false off `[0, 1]`: a Beta parameter with shapes `2, 3` on `[1, 2]` reports mean `0.4`
while its polynomials and quadrature have mean `1.4`; a Chebyshev parameter on `[-1, 1]` reports
mean `0.5` and variance `1/8` against `0` and `1/2`. -/
theorem c20_moments_violated :
    (∃ d, mkBeta 1 2 2 3 = some d ∧ d.mean = 0.4 ∧ (rows (d.coeffs 1) 0).1 = 1.4 ∧
      betaE 2 3 1 2 (fun x => x) = 1.4) ∧
    (mkChebyshev (-1) 1).mean = 0.5 ∧ (rows ((mkChebyshev (-1) 1).coeffs 1) 0).1 = 0 ∧
    (mkChebyshev (-1) 1).variance = 1 / 8 ∧
    (rows ((mkChebyshev (-1) 1).coeffs 1) 1).2 = 1 / 2 := by
  refine ⟨⟨_, if_pos (by norm_num), by norm_num, ?_, ?_⟩, ?_⟩
  · simp only [JacobiDist.coeffs]
    rw [rows_jacobiCoeffs _ _ _ _ _ _ (by omega)]
    simp [jacobiRow]; norm_num
  · rw [beta_mean (by norm_num) (by norm_num) (by norm_num)]; norm_num
  · simp only [JacobiDist.coeffs]
    rw [rows_jacobiCoeffs _ _ _ _ _ _ (by omega), rows_jacobiCoeffs _ _ _ _ _ _ (by omega)]
    simp [mkChebyshev, jacobiRow]; norm_num

end EQ.Param
