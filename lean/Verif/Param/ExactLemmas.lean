import Verif.Param.GaussLemmas
import Mathlib.Algebra.Polynomial.FieldDivision
import Mathlib.Algebra.Polynomial.Module.Basic

/-!
# Helper lemmas: exactness of Gauss, Radau and Lobatto rules
-/

namespace EQ.Param
open Polynomial Finset

/-- Discrete sum as a linear functional on polynomials. -/
noncomputable def qsum {n : ℕ} (w D : Fin n → ℝ) : ℝ[X] →ₗ[ℝ] ℝ :=
  ∑ k, w k • (leval (D k))

theorem qsum_apply {n : ℕ} (w D : Fin n → ℝ) (f : ℝ[X]) :
    qsum w D f = ∑ k, w k * f.eval (D k) := by
  simp [qsum, LinearMap.sum_apply, leval]

theorem bilin_zero (ab : Table) (L : ℝ[X] →ₗ[ℝ] ℝ) (m n : ℕ)
    (hm : ∀ k, 1 ≤ k → k ≤ m → 0 < (ab k).2) (hn : ∀ k, 1 ≤ k → k ≤ n → 0 < (ab k).2)
    (h : ∀ i j, i ≤ m → j ≤ n → L (opoly ab i * opoly ab j) = 0)
    (f g : ℝ[X]) (hf : f.natDegree ≤ m) (hg : g.natDegree ≤ n) : L (f * g) = 0 := by
  obtain ⟨c, rfl⟩ := opoly_span ab m hm f hf
  obtain ⟨d, rfl⟩ := opoly_span ab n hn g hg
  rw [sum_mul_sum, map_sum]
  apply sum_eq_zero
  intro i hi
  rw [map_sum]
  apply sum_eq_zero
  intro j hj
  rw [mem_range] at hi hj
  have : C (c i) * opoly ab i * (C (d j) * opoly ab j) =
      (c i * d j) • (opoly ab i * opoly ab j) := by
    rw [smul_eq_C_mul, C_mul]; ring
  rw [this, map_smul, h i j (by omega) (by omega), smul_zero]

/-- Division by an orthogonal polynomial. -/
theorem div_opoly (ab : Table) (m : ℕ) (hb : ∀ k, 1 ≤ k → k ≤ m → 0 < (ab k).2) (f : ℝ[X]) (q : ℕ)
    (hf : f.natDegree ≤ m + q) :
    ∃ s r : ℝ[X], f = s * opoly ab m + r ∧ s.natDegree ≤ q ∧ r.natDegree ≤ m - 1 := by
  obtain ⟨hd, hl⟩ := opoly_degree ab m hb
  have hl0 : (opoly ab m).leadingCoeff ≠ 0 := by
    rw [hl]
    apply Finset.prod_ne_zero_iff.2
    intro k hk
    rw [mem_Icc] at hk
    exact inv_ne_zero (Real.sqrt_ne_zero'.2 (hb k hk.1 hk.2))
  have hp0 : opoly ab m ≠ 0 := leadingCoeff_ne_zero.1 hl0
  refine ⟨f / opoly ab m, f % opoly ab m, ?_, ?_, ?_⟩
  · rw [mul_comm]; exact (EuclideanDomain.div_add_mod _ _).symm
  · rw [Polynomial.div_def]
    refine le_trans (natDegree_C_mul_le _ _) ?_
    rw [natDegree_divByMonic _ (monic_mul_leadingCoeff_inv hp0),
      natDegree_mul_C (inv_ne_zero hl0), hd]
    omega
  · rcases Nat.eq_zero_or_pos m with rfl | hm
    · have : f % opoly ab 0 = 0 := by simp [opoly]
      simp [this]
    · have := natDegree_mod_lt f (q := opoly ab m) (by omega)
      omega

/-- `n+1` points: exact up to degree `2n`, from orthonormality of `p_0 .. p_n` on both sides. -/
theorem exact_even (ab : Table) (n : ℕ) (hb : ∀ k, 1 ≤ k → k ≤ n → 0 < (ab k).2)
    (Q L : ℝ[X] →ₗ[ℝ] ℝ) (h : ∀ i j, i ≤ n → j ≤ n → Q (opoly ab i * opoly ab j)
      = L (opoly ab i * opoly ab j))
    (f : ℝ[X]) (hf : f.natDegree ≤ 2 * n) : Q f = L f := by
  obtain ⟨s, r, rfl, hs, hr⟩ := div_opoly ab n hb f n (by omega)
  have hB : ∀ f g : ℝ[X], f.natDegree ≤ n → g.natDegree ≤ n → (Q - L) (f * g) = 0 :=
    fun f g hf hg => bilin_zero ab (Q - L) n n hb hb
      (fun i j hi hj => by simp [h i j hi hj]) f g hf hg
  have h1 := hB s (opoly ab n) hs (opoly_degree ab n hb).1.le
  have h2 := hB r 1 (by omega) (by simp)
  rw [mul_one] at h2
  have : (Q - L) (s * opoly ab n + r) = 0 := by rw [map_add, h1, h2, add_zero]
  simpa [sub_eq_zero] using this

/-- Exact up to degree `2n+1` when `p_{n+1}` vanishes at the nodes of `Q` and is
`L`-orthogonal to lower degrees. -/
theorem exact_odd (ab : Table) (n q : ℕ) (hq : q ≤ n) (hb : ∀ k, 1 ≤ k → k ≤ n + 1 → 0 < (ab k).2)
    (Q L : ℝ[X] →ₗ[ℝ] ℝ)
    (h : ∀ i, i ≤ n → Q (opoly ab i) = L (opoly ab i))
    (hQ : ∀ i, i ≤ q → Q (opoly ab i * opoly ab (n + 1)) = 0)
    (hL : ∀ i, i ≤ q → L (opoly ab i * opoly ab (n + 1)) = 0)
    (f : ℝ[X]) (hf : f.natDegree ≤ n + 1 + q) : Q f = L f := by
  obtain ⟨s, r, rfl, hs, hr⟩ := div_opoly ab (n + 1) hb f q hf
  have hb' : ∀ m, m ≤ n → ∀ k, 1 ≤ k → k ≤ m → 0 < (ab k).2 :=
    fun m hm k h1 h2 => hb k h1 (by omega)
  have hs0 : ∀ T : ℝ[X] →ₗ[ℝ] ℝ, (∀ i, i ≤ q → T (opoly ab i * opoly ab (n + 1)) = 0) →
      T (s * opoly ab (n + 1)) = 0 := by
    intro T hT
    obtain ⟨c, rfl⟩ := opoly_span ab q (hb' q hq) s hs
    rw [sum_mul, map_sum]
    apply sum_eq_zero
    intro i hi
    rw [mem_range] at hi
    rw [mul_assoc, ← smul_eq_C_mul, map_smul, hT i (by omega), smul_zero]
  have hr0 : Q r = L r := by
    obtain ⟨c, rfl⟩ := opoly_span ab n (hb' n le_rfl) r (by omega)
    rw [map_sum, map_sum]
    apply sum_congr rfl
    intro i hi
    rw [mem_range] at hi
    rw [← smul_eq_C_mul, map_smul, map_smul, h i (by omega)]
  rw [map_add, map_add, hs0 Q hQ, hs0 L hL, hr0]

/-! ## Monic loop -/

/-- Monic polynomials of the recurrence at `x`. -/
noncomputable def monicVal (ab : Table) (x : ℝ) : ℕ → ℝ
  | 0 => 1
  | 1 => x - (ab 0).1
  | n + 2 => (x - (ab (n + 1)).1) * monicVal ab x (n + 1) - (ab (n + 1)).2 * monicVal ab x n

theorem monicLoop_eq (ab : Table) (x : ℝ) (m : ℕ) :
    monicLoop ab x (m + 1) = (monicVal ab x m, monicVal ab x (m + 1)) := by
  induction m with
  | zero => simp [monicLoop, monicVal]
  | succ m ih =>
    unfold monicLoop at ih ⊢
    rw [List.range_succ, List.foldl_append, ih]
    simp [monicVal]

/-- Scaling between monic and orthonormal values. -/
theorem monicVal_opoly (ab : Table) (x : ℝ) : ∀ n, (∀ k, 1 ≤ k → k ≤ n → 0 < (ab k).2) →
    monicVal ab x n = (∏ k ∈ Icc 1 n, √(ab k).2) * (opoly ab n).eval x := by
  intro n
  induction n using Nat.strong_induction_on with
  | _ n ih =>
    match n with
    | 0 => intro _; simp [monicVal, opoly]
    | 1 =>
      intro h
      have hs : √(ab 1).2 ≠ 0 := Real.sqrt_ne_zero'.2 (h 1 le_rfl le_rfl)
      simp only [monicVal, opoly, eval_mul, eval_C, eval_sub, eval_X, Icc_self, prod_singleton]
      field_simp
    | n + 2 =>
      intro h
      have h1 := ih (n + 1) (by omega) (fun k a b => h k a (by omega))
      have h0 := ih n (by omega) (fun k a b => h k a (by omega))
      have hs := opoly_step ab (n + 1) x (h (n + 2) (by omega) le_rfl)
      simp only [monicVal]
      rw [h1, h0, prod_Icc_succ_top (by omega : 1 ≤ n + 1 + 1), prod_Icc_succ_top (by omega : 1 ≤ n + 1)]
      rw [if_pos (by omega), Nat.add_sub_cancel] at hs
      have hsq : (ab (n + 1)).2 = √(ab (n + 1)).2 * √(ab (n + 1)).2 :=
        (Real.mul_self_sqrt (h (n + 1) (by omega) (by omega)).le).symm
      rw [mul_assoc ((∏ k ∈ Icc 1 n, √(ab k).2) * √(ab (n + 1)).2), hs]
      generalize √(ab (n + 1)).2 = t at *
      rw [hsq]
      ring

theorem opoly_congr (ab ab' : Table) : ∀ n, (∀ k, k < n → (ab k).1 = (ab' k).1) →
    (∀ k, 1 ≤ k → k ≤ n → (ab k).2 = (ab' k).2) → opoly ab n = opoly ab' n := by
  intro n
  induction n using Nat.strong_induction_on with
  | _ n ih =>
    match n with
    | 0 => intros; rfl
    | 1 => intro h1 h2; simp only [opoly]; rw [h1 0 (by omega), h2 1 le_rfl le_rfl]
    | n + 2 =>
      intro h1 h2
      simp only [opoly]
      rw [h1 (n + 1) (by omega), h2 (n + 2) (by omega) le_rfl, h2 (n + 1) (by omega) (by omega),
        ih (n + 1) (by omega) (fun k hk => h1 k (by omega)) (fun k a b => h2 k a (by omega)),
        ih n (by omega) (fun k hk => h1 k (by omega)) (fun k a b => h2 k a (by omega))]

end EQ.Param
