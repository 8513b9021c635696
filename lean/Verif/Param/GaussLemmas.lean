import Verif.Param.Lemmas
import Mathlib.LinearAlgebra.Matrix.NonsingularInverse
import Mathlib.Order.Hom.Set
import Mathlib.Algebra.Polynomial.Div

/-!
# Helper lemmas: eigenvectors of Jacobi matrices
-/

namespace EQ.Param
open Polynomial Finset

/-- Row sums of the Jacobi matrix against a vector. -/
theorem jacobi_row (ab : Table) (n : ℕ) (v : ℕ → ℝ) (i : ℕ) (hi : i < n + 1) :
    ∑ j ∈ range (n + 1), jacobiEntries ab (n + 1) i j * v j =
      (if 1 ≤ i then √(ab i).2 * v (i - 1) else 0) + (ab i).1 * v i +
      (if i + 1 < n + 1 then √(ab (i + 1)).2 * v (i + 1) else 0) := by
  have h : ∀ j ∈ range (n + 1), jacobiEntries ab (n + 1) i j * v j =
      (if j = i - 1 ∧ 1 ≤ i then √(ab i).2 * v (i - 1) else 0) +
      (if j = i then (ab i).1 * v i else 0) +
      (if j = i + 1 then √(ab (i + 1)).2 * v (i + 1) else 0) := by
    intro j hj
    rw [mem_range] at hj
    rw [jacobiEntries_eq ab (n + 1) (by omega) i j hi hj]
    by_cases h1 : i = j
    · subst h1
      have : ¬ (i = i - 1 ∧ 1 ≤ i) := by omega
      simp [this]
    · by_cases h2 : i + 1 = j
      · subst h2
        have : ¬ (i + 1 = i - 1 ∧ 1 ≤ i) := by omega
        simp [this]
      · by_cases h3 : j + 1 = i
        · subst h3
          have e2 : ¬ (j = j + 1 + 1) := by omega
          have e4 : ¬ (j + 1 + 1 = j) := by omega
          simp [e2, e4]
        · have e1 : ¬ (j = i - 1 ∧ 1 ≤ i) := by omega
          have e2 : ¬ (j = i) := by omega
          have e3 : ¬ (j = i + 1) := by omega
          simp [h1, h2, h3, e1, e2, e3]
  rw [sum_congr rfl h, sum_add_distrib, sum_add_distrib]
  congr 1
  · congr 1
    · by_cases h1 : 1 ≤ i
      · simp only [h1, and_true]
        rw [sum_ite_eq' (range (n + 1)) (i - 1), if_pos (by rw [mem_range]; omega)]
        simp
      · simp [h1]
    · rw [sum_ite_eq' (range (n + 1)) i, if_pos (by rw [mem_range]; omega)]
  · by_cases h1 : i + 1 < n + 1
    · rw [sum_ite_eq' (range (n + 1)) (i + 1), if_pos (by rw [mem_range]; omega), if_pos h1]
    · rw [if_neg h1]
      apply sum_eq_zero
      intro j hj
      rw [mem_range] at hj
      rw [if_neg (by omega)]

theorem opoly_step (ab : Table) (n : ℕ) (x : ℝ) (h : 0 < (ab (n + 1)).2) :
    √(ab (n + 1)).2 * (opoly ab (n + 1)).eval x = (x - (ab n).1) * (opoly ab n).eval x -
      (if 1 ≤ n then √(ab n).2 * (opoly ab (n - 1)).eval x else 0) := by
  have hs : √(ab (n + 1)).2 ≠ 0 := Real.sqrt_ne_zero'.2 h
  cases n with
  | zero =>
    simp only [opoly, eval_mul, eval_C, eval_sub, eval_X, eval_one]
    field_simp
    simp
  | succ n =>
    simp only [opoly, eval_mul, eval_C, eval_sub, eval_X]
    field_simp
    simp

/-- The Jacobi matrix carries the recurrence. -/
theorem jacobi_opoly (ab : Table) (n : ℕ) (x : ℝ) (hb : ∀ k, 1 ≤ k → k ≤ n + 1 → 0 < (ab k).2)
    (i : ℕ) (hi : i < n + 1) :
    ∑ j ∈ range (n + 1), jacobiEntries ab (n + 1) i j * (opoly ab j).eval x =
      x * (opoly ab i).eval x -
        (if i = n then √(ab (n + 1)).2 * (opoly ab (n + 1)).eval x else 0) := by
  rw [jacobi_row ab n (fun j => (opoly ab j).eval x) i hi]
  have h := opoly_step ab i x (hb (i + 1) (by omega) (by omega))
  by_cases hin : i = n
  · subst hin
    rw [if_neg (by omega : ¬ i + 1 < i + 1), if_pos rfl, h]; ring
  · rw [if_pos (by omega : i + 1 < n + 1), if_neg hin, h]; ring

/-- An eigenvector is its first entry times the vector of polynomial values. -/
theorem eigvec_entries (ab : Table) (n : ℕ) (hb : ∀ k, 1 ≤ k → k ≤ n → 0 < (ab k).2)
    (v : ℕ → ℝ) (lam : ℝ)
    (hv : ∀ i, i < n + 1 → ∑ j ∈ range (n + 1), jacobiEntries ab (n + 1) i j * v j = lam * v i) :
    ∀ i, i < n + 1 → v i = v 0 * (opoly ab i).eval lam := by
  intro i
  induction i using Nat.strong_induction_on with
  | _ i ih =>
    intro hi
    match i with
    | 0 => simp [opoly]
    | i + 1 =>
      have h1 := hv i (by omega)
      rw [jacobi_row ab n v i (by omega), if_pos (by omega : i + 1 < n + 1)] at h1
      have hpos := hb (i + 1) (by omega) (by omega)
      have hs : √(ab (i + 1)).2 ≠ 0 := Real.sqrt_ne_zero'.2 hpos
      have h2 := opoly_step ab i lam hpos
      have hi0 := ih i (by omega) (by omega)
      apply mul_left_cancel₀ hs
      have : √(ab (i + 1)).2 * (v 0 * (opoly ab (i + 1)).eval lam) =
          v 0 * (√(ab (i + 1)).2 * (opoly ab (i + 1)).eval lam) := by ring
      rw [this, h2]
      by_cases hi1 : 1 ≤ i
      · rw [if_pos hi1] at h1 ⊢
        have him := ih (i - 1) (by omega) (by omega)
        rw [him, hi0] at h1
        linear_combination h1
      · rw [if_neg hi1] at h1 ⊢
        rw [hi0] at h1
        linear_combination h1

theorem eigvec_root (ab : Table) (n : ℕ) (hb : ∀ k, 1 ≤ k → k ≤ n + 1 → 0 < (ab k).2)
    (v : ℕ → ℝ) (lam : ℝ)
    (hv : ∀ i, i < n + 1 → ∑ j ∈ range (n + 1), jacobiEntries ab (n + 1) i j * v j = lam * v i)
    (h0 : v 0 ≠ 0) : (opoly ab (n + 1)).eval lam = 0 := by
  have hent := eigvec_entries ab n (fun k h1 h2 => hb k h1 (by omega)) v lam hv
  have h1 := hv n (by omega)
  have h2 : ∑ j ∈ range (n + 1), jacobiEntries ab (n + 1) n j * v j =
      v 0 * ∑ j ∈ range (n + 1), jacobiEntries ab (n + 1) n j * (opoly ab j).eval lam := by
    rw [mul_sum]
    apply sum_congr rfl
    intro j hj
    rw [hent j (mem_range.1 hj)]; ring
  rw [h2, jacobi_opoly ab n lam hb n (by omega), if_pos rfl, hent n (by omega)] at h1
  have hs : √(ab (n + 1)).2 ≠ 0 := Real.sqrt_ne_zero'.2 (hb (n + 1) (by omega) le_rfl)
  have : v 0 * √(ab (n + 1)).2 * (opoly ab (n + 1)).eval lam = 0 := by linear_combination -h1
  rcases mul_eq_zero.1 this with h | h
  · exact absurd h (mul_ne_zero h0 hs)
  · exact h

/-- Consequences of the `eigh` contract for a Jacobi matrix, in one place. -/
structure GaussFacts (ab : Table) (n : ℕ) (D : Fin (n + 1) → ℝ)
    (V : Matrix (Fin (n + 1)) (Fin (n + 1)) ℝ) : Prop where
  entries : ∀ k i, V i k = V 0 k * (opoly ab i).eval (D k)
  first_ne : ∀ k, V 0 k ≠ 0
  strict : StrictMono D
  orthRows : ∀ i j, ∑ k, V i k * V j k = if i = j then 1 else 0

theorem eig_vector {ab : Table} {n : ℕ} {D : Fin (n + 1) → ℝ}
    {V : Matrix (Fin (n + 1)) (Fin (n + 1)) ℝ}
    (h : EighContract (jacobiMatrix ab (n + 1)) D V) (k : Fin (n + 1)) :
    ∃ v : ℕ → ℝ, (∀ i : Fin (n + 1), v i = V i k) ∧
      ∀ i, i < n + 1 → ∑ j ∈ range (n + 1), jacobiEntries ab (n + 1) i j * v j = D k * v i := by
  refine ⟨fun i => if hi : i < n + 1 then V ⟨i, hi⟩ k else 0, fun i => dif_pos i.2, ?_⟩
  intro i hi
  have h1 := congrFun (congrFun h.eig ⟨i, hi⟩) k
  rw [Matrix.mul_apply, Matrix.mul_diagonal] at h1
  rw [Finset.sum_range]
  simp only [hi, dif_pos, Fin.is_lt, Fin.eta]
  rw [mul_comm (D k), ← h1]
  rfl

theorem gaussFacts (ab : Table) (n : ℕ) (hb : ∀ k, 1 ≤ k → k ≤ n → 0 < (ab k).2)
    (D : Fin (n + 1) → ℝ) (V : Matrix (Fin (n + 1)) (Fin (n + 1)) ℝ)
    (h : EighContract (jacobiMatrix ab (n + 1)) D V) : GaussFacts ab n D V := by
  have hent : ∀ k i, V i k = V 0 k * (opoly ab i).eval (D k) := by
    intro k i
    obtain ⟨v, hv, he⟩ := eig_vector h k
    have := eigvec_entries ab n hb v (D k) he i i.2
    rw [hv i] at this
    rw [this]
    congr 1
    exact hv 0
  have hVV : V * V.transpose = 1 := mul_eq_one_comm.1 h.orth
  have hrows : ∀ i j, ∑ k, V i k * V j k = if i = j then 1 else 0 := by
    intro i j
    have := congrFun (congrFun hVV i) j
    rw [Matrix.mul_apply, Matrix.one_apply] at this
    exact this
  have hcols : ∀ i j, ∑ k, V k i * V k j = if i = j then 1 else 0 := by
    intro i j
    have := congrFun (congrFun h.orth i) j
    rw [Matrix.mul_apply, Matrix.one_apply] at this
    exact this
  have hne : ∀ k, V 0 k ≠ 0 := by
    intro k h0
    have := hcols k k
    rw [if_pos rfl] at this
    have hz : ∀ i, V i k = 0 := fun i => by rw [hent k i, h0, zero_mul]
    simp [hz] at this
  refine ⟨hent, hne, ?_, hrows⟩
  apply h.mono.strictMono_of_injective
  intro i j hij
  by_contra hne'
  have h1 := hcols i j
  rw [if_neg hne'] at h1
  have h2 : ∑ k, V k i * V k j = V 0 i * V 0 j * ∑ k : Fin (n + 1), ((opoly ab k).eval (D i)) ^ 2 := by
    rw [mul_sum]
    apply sum_congr rfl
    intro k _
    rw [hent i k, hent j k, ← hij]; ring
  rw [h2] at h1
  have h3 : 0 < ∑ k : Fin (n + 1), ((opoly ab k).eval (D i)) ^ 2 := by
    apply sum_pos' (fun k _ => sq_nonneg _)
    refine ⟨0, mem_univ _, ?_⟩
    simp [opoly]
  have := mul_ne_zero (mul_ne_zero (hne i) (hne j)) h3.ne'
  exact this h1

theorem perm_eq_id {n : ℕ} {D : Fin n → ℝ} (hD : StrictMono D) {σ : Equiv.Perm (Fin n)}
    (hσ : ArgsortContract D σ) : ∀ i, σ i = i := by
  have hmono : StrictMono σ := by
    have : Monotone σ := fun i j hij => hD.le_iff_le.1 (hσ.sorted hij)
    exact this.strictMono_of_injective σ.injective
  have e : hmono.orderIsoOfSurjective σ σ.surjective = OrderIso.refl _ := Subsingleton.elim _ _
  intro i
  have := congrArg (fun f => f i) e
  simpa using this

/-- The rule computed by the code: positions line up in spite of the two reversals. -/
theorem rule_eq (ab : Table) (n : ℕ) (hb : ∀ k, 1 ≤ k → k ≤ n → 0 < (ab k).2)
    (D : Fin (n + 1) → ℝ) (V : Matrix (Fin (n + 1)) (Fin (n + 1)) ℝ)
    (h : EighContract (jacobiMatrix ab (n + 1)) D V) (σ : Equiv.Perm (Fin (n + 1)))
    (hσ : ArgsortContract D σ) (u : Fin (n + 1)) :
    (quadratureOfEigh ab D V σ).p u = D u ∧
    (quadratureOfEigh ab D V σ).w u = (ab 0).2 * (V 0 u) ^ 2 := by
  have hid := perm_eq_id (gaussFacts ab n hb D V h).strict hσ
  simp [quadratureOfEigh, hid]

/-- Discrete orthonormality of the first `n+1` polynomials. -/
theorem discrete_orthonormal (ab : Table) (n : ℕ) (hb : ∀ k, 1 ≤ k → k ≤ n → 0 < (ab k).2)
    (D : Fin (n + 1) → ℝ) (V : Matrix (Fin (n + 1)) (Fin (n + 1)) ℝ)
    (h : EighContract (jacobiMatrix ab (n + 1)) D V) (i j : ℕ) (hi : i < n + 1) (hj : j < n + 1) :
    ∑ k, (V 0 k) ^ 2 * ((opoly ab i).eval (D k) * (opoly ab j).eval (D k))
      = if i = j then 1 else 0 := by
  have g := gaussFacts ab n hb D V h
  have h1 := g.orthRows ⟨i, hi⟩ ⟨j, hj⟩
  simp only [Fin.mk.injEq] at h1
  rw [← h1]
  apply sum_congr rfl
  intro k _
  have e1 := g.entries k ⟨i, hi⟩
  have e2 := g.entries k ⟨j, hj⟩
  simp only at e1 e2
  rw [e1, e2]; ring

theorem nodes_are_roots (ab : Table) (n : ℕ) (hb : ∀ k, 1 ≤ k → k ≤ n + 1 → 0 < (ab k).2)
    (D : Fin (n + 1) → ℝ) (V : Matrix (Fin (n + 1)) (Fin (n + 1)) ℝ)
    (h : EighContract (jacobiMatrix ab (n + 1)) D V) (k : Fin (n + 1)) :
    (opoly ab (n + 1)).eval (D k) = 0 := by
  obtain ⟨v, hv, he⟩ := eig_vector h k
  apply eigvec_root ab n hb v (D k) he
  have := (gaussFacts ab n (fun k h1 h2 => hb k h1 (by omega)) D V h).first_ne k
  rw [← hv 0] at this
  exact this

theorem roots_are_nodes (ab : Table) (n : ℕ) (hb : ∀ k, 1 ≤ k → k ≤ n + 1 → 0 < (ab k).2)
    (D : Fin (n + 1) → ℝ) (V : Matrix (Fin (n + 1)) (Fin (n + 1)) ℝ)
    (h : EighContract (jacobiMatrix ab (n + 1)) D V) (x : ℝ)
    (hx : (opoly ab (n + 1)).eval x = 0) : ∃ k, D k = x := by
  -- `p(x)` is an eigenvector; expand it in the columns of `V`
  let u : Fin (n + 1) → ℝ := fun i => (opoly ab i).eval x
  have hJu : (jacobiMatrix ab (n + 1)).mulVec u = x • u := by
    funext i
    have := jacobi_opoly ab n x hb i i.2
    rw [hx] at this
    simp only [mul_zero, ite_self, sub_zero] at this
    rw [Finset.sum_range] at this
    simp only [Matrix.mulVec, dotProduct, jacobiMatrix, Pi.smul_apply, smul_eq_mul, u]
    exact this
  have hVV : V * V.transpose = 1 := mul_eq_one_comm.1 h.orth
  let c := V.transpose.mulVec u
  have hu : V.mulVec c = u := by
    simp only [c, Matrix.mulVec_mulVec, hVV, Matrix.one_mulVec]
  have hDc : ∀ k, D k * c k = x * c k := by
    intro k
    have h1 : V.mulVec ((Matrix.diagonal D).mulVec c) = V.mulVec (x • c) := by
      rw [Matrix.mulVec_mulVec, ← h.eig, ← Matrix.mulVec_mulVec, hu, hJu, Matrix.mulVec_smul, hu]
    have h2 := congrArg V.transpose.mulVec h1
    simp only [Matrix.mulVec_mulVec, ← Matrix.mul_assoc, h.orth, Matrix.one_mul, Matrix.one_mulVec] at h2
    have := congrFun h2 k
    rwa [Matrix.mulVec_diagonal] at this
  by_contra hno
  push Not at hno
  have hc : c = 0 := by
    funext k
    have := hDc k
    have h3 : (D k - x) * c k = 0 := by linear_combination this
    rcases mul_eq_zero.1 h3 with h4 | h4
    · exact absurd (sub_eq_zero.1 h4) (hno k)
    · exact h4
  rw [hc, Matrix.mulVec_zero] at hu
  have := congrFun hu 0
  simp [u, opoly] at this

/-- Polynomials of degree at most `m` are combinations of `opoly 0 .. opoly m`. -/
theorem opoly_span (ab : Table) (m : ℕ) (hb : ∀ k, 1 ≤ k → k ≤ m → 0 < (ab k).2) :
    ∀ f : ℝ[X], f.natDegree ≤ m →
      ∃ c : ℕ → ℝ, f = ∑ i ∈ range (m + 1), C (c i) * opoly ab i := by
  induction m with
  | zero =>
    intro f hf
    refine ⟨fun _ => f.coeff 0, ?_⟩
    simp only [zero_add, range_one, sum_singleton, opoly, mul_one]
    exact eq_C_of_natDegree_le_zero hf
  | succ m ih =>
    intro f hf
    obtain ⟨hd, hl⟩ := opoly_degree ab (m + 1) hb
    have hl0 : (opoly ab (m + 1)).leadingCoeff ≠ 0 := by
      rw [hl]
      apply Finset.prod_ne_zero_iff.2
      intro k hk
      rw [mem_Icc] at hk
      exact inv_ne_zero (Real.sqrt_ne_zero'.2 (hb k hk.1 hk.2))
    let t := f.coeff (m + 1) / (opoly ab (m + 1)).leadingCoeff
    have hg : (f - C t * opoly ab (m + 1)).natDegree ≤ m := by
      rw [natDegree_le_iff_coeff_eq_zero]
      intro N hN
      rw [coeff_sub, coeff_C_mul]
      by_cases hN1 : N = m + 1
      · subst hN1
        have : (opoly ab (m + 1)).coeff (m + 1) = (opoly ab (m + 1)).leadingCoeff := by
          rw [leadingCoeff, hd]
        rw [this]
        simp only [t]
        field_simp
        ring
      · rw [coeff_eq_zero_of_natDegree_lt (by omega), coeff_eq_zero_of_natDegree_lt (by omega)]
        simp
    obtain ⟨c, hc⟩ := ih (fun k h1 h2 => hb k h1 (by omega)) _ hg
    refine ⟨fun i => if i = m + 1 then t else c i, ?_⟩
    rw [sum_range_succ]
    simp only [if_true]
    have : ∑ i ∈ range (m + 1), C (if i = m + 1 then t else c i) * opoly ab i
        = ∑ i ∈ range (m + 1), C (c i) * opoly ab i := by
      apply sum_congr rfl
      intro i hi
      rw [mem_range] at hi
      rw [if_neg (by omega)]
    rw [this, ← hc]
    ring

end EQ.Param
