import Mathlib.Analysis.SpecialFunctions.Integrals.Basic
import Mathlib.MeasureTheory.Integral.IntervalIntegral.IntegrationByParts
import Mathlib.Analysis.Calculus.Deriv.Polynomial
import Mathlib.Algebra.Polynomial.Roots
import Mathlib.Tactic

/-!
# Helper lemmas: the inequalities of Chebyshev, Markov and Stieltjes

Partial sums of the weights of a Gauss rule enclose the distribution function at the nodes.
-/

namespace EQ.Sampling.Markov
open Polynomial MeasureTheory intervalIntegral

/-- A monotone function crosses a level. -/
theorem crossing (F : ℝ → ℝ) (hF : Monotone F) (a b W : ℝ) (hab : a ≤ b) :
    ∃ s, a ≤ s ∧ s ≤ b ∧ (∀ x, a ≤ x → x ≤ b → x < s → F x ≤ W) ∧ (∀ x, a ≤ x → x ≤ b → s < x → W ≤ F x) := by
  set S : Set ℝ := {x | x = a ∨ (a ≤ x ∧ x ≤ b ∧ F x < W)} with hS
  have hne : S.Nonempty := ⟨a, Or.inl rfl⟩
  have hub : ∀ x ∈ S, x ≤ b := by
    rintro x (rfl | ⟨_, h, _⟩)
    · exact hab
    · exact h
  have hbdd : BddAbove S := ⟨b, hub⟩
  refine ⟨sSup S, le_csSup hbdd (Or.inl rfl), csSup_le hne hub, ?_, ?_⟩
  · intro x h1 h2 h3
    obtain ⟨y, hy, hxy⟩ := exists_lt_of_lt_csSup hne h3
    rcases hy with rfl | ⟨_, _, hy⟩
    · linarith
    · exact (hF hxy.le).trans hy.le
  · intro x h1 h2 h3
    by_contra h
    push Not at h
    exact absurd (le_csSup hbdd (Or.inr ⟨h1, h2, h⟩)) (not_le.2 h3)

/-- Every polynomial has an antiderivative that vanishes at a given point. -/
theorem antideriv (Q : ℝ[X]) (c : ℝ) : ∃ A : ℝ[X], derivative A = Q ∧ A.eval c = 0 ∧ A.natDegree ≤ Q.natDegree + 1 := by
  let B : ℝ[X] := ∑ i ∈ Finset.range (Q.natDegree + 1), C (Q.coeff i / (i + 1)) * X ^ (i + 1)
  have hB : derivative B = Q := by
    conv_rhs => rw [Q.as_sum_range_C_mul_X_pow]
    simp only [B, derivative_sum]
    refine Finset.sum_congr rfl fun i _ => ?_
    rw [derivative_C_mul_X_pow]
    congr 2
    have : ((i : ℝ) + 1) ≠ 0 := by positivity
    push_cast
    field_simp
  have hd : B.natDegree ≤ Q.natDegree + 1 := by
    refine natDegree_sum_le_of_forall_le _ _ fun i hi => ?_
    rw [Finset.mem_range] at hi
    exact (natDegree_C_mul_X_pow_le _ _).trans (by omega)
  refine ⟨B - C (B.eval c), ?_, by simp, ?_⟩
  · rw [derivative_sub, derivative_C, sub_zero, hB]
  · exact (natDegree_sub_le _ _).trans (by simp [hd])

section
variable {m : ℕ} (D w : Fin (m + 1) → ℝ) (ρ : ℝ → ℝ)

/-- The distribution function. -/
noncomputable def cdf (x : ℝ) : ℝ := ∫ t in (-1 : ℝ)..x, ρ t

/-- The distribution function of the rule. -/
noncomputable def stepF (x : ℝ) : ℝ := ∑ i, if D i ≤ x then w i else 0

variable (hρ : Continuous ρ) (h0 : ∀ x, 0 ≤ ρ x)

include hρ in
theorem cdf_deriv (x : ℝ) : HasDerivAt (cdf ρ) (ρ x) x :=
  integral_hasDerivAt_right (hρ.intervalIntegrable _ _) (hρ.stronglyMeasurableAtFilter _ _) hρ.continuousAt

include hρ in
theorem cdf_cont : Continuous (cdf ρ) := continuous_iff_continuousAt.2 fun x => (cdf_deriv ρ hρ x).continuousAt

include hρ h0 in
theorem cdf_mono : Monotone (cdf ρ) := by
  apply monotone_of_deriv_nonneg
  · exact fun x => (cdf_deriv ρ hρ x).differentiableAt
  · intro x; rw [(cdf_deriv ρ hρ x).deriv]; exact h0 x

theorem stepF_mono (hw : ∀ i, 0 ≤ w i) : Monotone (stepF D w) := by
  intro x y hxy
  refine Finset.sum_le_sum fun i _ => ?_
  by_cases h : D i ≤ x
  · rw [if_pos h, if_pos (h.trans hxy)]
  · rw [if_neg h]; split_ifs
    · exact hw i
    · exact le_rfl

theorem integral_ind (Q : ℝ[X]) (d : ℝ) (h1 : -1 ≤ d) (h2 : d ≤ 1) (v : ℝ) :
    IntervalIntegrable (fun x => Q.eval x * if d ≤ x then v else 0) volume (-1) 1 ∧
    ∫ x in (-1 : ℝ)..1, Q.eval x * (if d ≤ x then v else 0) = v * ∫ x in d..1, Q.eval x := by
  have i1 : IntervalIntegrable (fun x => Q.eval x * if d ≤ x then v else 0) volume (-1) d := by
    refine (intervalIntegrable_const (c := (0 : ℝ))).congr_ae ?_
    rw [Filter.EventuallyEq, ae_restrict_iff' measurableSet_uIoc]
    have : ∀ᵐ x : ℝ, x ≠ d := by simp [ae_iff]
    filter_upwards [this] with x hx hx2
    rw [Set.uIoc_of_le h1] at hx2
    rw [if_neg (not_le.2 (lt_of_le_of_ne hx2.2 hx)), mul_zero]
  have i2 : IntervalIntegrable (fun x => Q.eval x * if d ≤ x then v else 0) volume d 1 := by
    refine ((Q.continuous.mul_const v).intervalIntegrable d 1).congr ?_
    intro x hx
    rw [Set.uIoc_of_le h2] at hx
    simp only
    rw [if_pos hx.1.le]
  refine ⟨i1.trans i2, ?_⟩
  rw [← integral_add_adjacent_intervals i1 i2]
  have e1 : ∫ x in (-1 : ℝ)..d, Q.eval x * (if d ≤ x then v else 0) = 0 := by
    rw [intervalIntegral.integral_congr_ae (g := fun _ => (0 : ℝ)), intervalIntegral.integral_zero]
    have : ∀ᵐ x : ℝ, x ≠ d := by simp [ae_iff]
    filter_upwards [this] with x hx hx2
    rw [Set.uIoc_of_le h1] at hx2
    rw [if_neg (not_le.2 (lt_of_le_of_ne hx2.2 hx)), mul_zero]
  have e2 : ∫ x in d..1, Q.eval x * (if d ≤ x then v else 0) = ∫ x in d..1, v * Q.eval x := by
    apply integral_congr
    intro x hx
    rw [Set.uIcc_of_le h2] at hx
    simp only
    rw [if_pos hx.1, mul_comm]
  rw [e1, e2, zero_add, intervalIntegral.integral_const_mul]

include hρ in
/-- The difference of the two distribution functions is orthogonal to low degrees. -/
theorem orthogonal (hD : ∀ i, -1 ≤ D i ∧ D i ≤ 1) (hw : ∀ i, 0 ≤ w i)
    (hex : ∀ q : ℝ[X], q.natDegree ≤ 2 * m + 1 → ∑ i, w i * q.eval (D i) = ∫ x in (-1 : ℝ)..1, q.eval x * ρ x)
    (Q : ℝ[X]) (hQ : Q.natDegree ≤ 2 * m) :
    IntervalIntegrable (fun x => Q.eval x * (cdf ρ x - stepF D w x)) volume (-1) 1 ∧
    ∫ x in (-1 : ℝ)..1, Q.eval x * (cdf ρ x - stepF D w x) = 0 := by
  obtain ⟨A, hA, hA1, hAd⟩ := antideriv Q 1
  have iF : IntervalIntegrable (fun x => Q.eval x * cdf ρ x) volume (-1) 1 :=
    (Q.continuous.mul (cdf_cont ρ hρ)).intervalIntegrable _ _
  have hdA : ∀ x, HasDerivAt (fun x => A.eval x) (Q.eval x) x := fun x => by
    have := A.hasDerivAt x; rwa [hA] at this
  have eF : ∫ x in (-1 : ℝ)..1, Q.eval x * cdf ρ x = -∑ i, w i * A.eval (D i) := by
    have h := integral_mul_deriv_eq_deriv_mul (u := cdf ρ) (v := fun x => A.eval x) (u' := ρ) (v' := fun x => Q.eval x)
      (a := -1) (b := 1) (fun x _ => cdf_deriv ρ hρ x) (fun x _ => hdA x) (hρ.intervalIntegrable _ _)
      (Q.continuous.intervalIntegrable _ _)
    have e0 : cdf ρ (-1) = 0 := by simp [cdf]
    rw [hA1] at h
    rw [hex A (by omega)]
    rw [show (∫ x in (-1 : ℝ)..1, Q.eval x * cdf ρ x) = ∫ x in (-1 : ℝ)..1, cdf ρ x * Q.eval x from
      integral_congr fun x _ => mul_comm (Q.eval x) _, h]
    simp only [e0, mul_zero, zero_mul, zero_sub, sub_self]
    congr 1
    exact integral_congr fun x _ => mul_comm (ρ x) _
  have hs : (fun x => Q.eval x * stepF D w x) = fun x => ∑ i, Q.eval x * if D i ≤ x then w i else 0 := by
    funext x; rw [stepF, Finset.mul_sum]
  have iS : IntervalIntegrable (fun x => Q.eval x * stepF D w x) volume (-1) 1 :=
    (stepF_mono D w hw).intervalIntegrable.continuousOn_mul Q.continuous.continuousOn
  have eS : ∫ x in (-1 : ℝ)..1, Q.eval x * stepF D w x = -∑ i, w i * A.eval (D i) := by
    rw [hs, integral_finsetSum fun i _ => (integral_ind Q (D i) (hD i).1 (hD i).2 (w i)).1, ← Finset.sum_neg_distrib]
    refine Finset.sum_congr rfl fun i _ => ?_
    rw [(integral_ind Q (D i) (hD i).1 (hD i).2 (w i)).2,
      integral_eq_sub_of_hasDerivAt (f := fun x => A.eval x) (fun x _ => hdA x) (Q.continuous.intervalIntegrable _ _), hA1]
    ring
  have e : (fun x => Q.eval x * (cdf ρ x - stepF D w x)) = fun x => Q.eval x * cdf ρ x - Q.eval x * stepF D w x := by
    funext x; ring
  rw [e]
  refine ⟨iF.sub iS, ?_⟩
  rw [integral_sub iF iS, eF, eS, sub_self]

include hρ in
/-- If the difference times a polynomial of low degree never is positive, the difference vanishes somewhere in every interval
where it is continuous. -/
theorem no_gap (hD : ∀ i, -1 ≤ D i ∧ D i ≤ 1) (hw : ∀ i, 0 ≤ w i)
    (hex : ∀ q : ℝ[X], q.natDegree ≤ 2 * m + 1 → ∑ i, w i * q.eval (D i) = ∫ x in (-1 : ℝ)..1, q.eval x * ρ x)
    (Q : ℝ[X]) (hQ : Q.natDegree ≤ 2 * m) (hQ0 : Q ≠ 0) (c : ℝ)
    (hs : ∀ x, x ≠ c → -1 ≤ x → x ≤ 1 → Q.eval x * (cdf ρ x - stepF D w x) ≤ 0)
    (p q W : ℝ) (hp : -1 ≤ p) (hpq : p < q) (hq : q ≤ 1) (hc : ∀ x, p ≤ x → x ≤ q → x ≠ c)
    (hW : ∀ x, p ≤ x → x ≤ q → stepF D w x = W) (hne : ∀ x, p ≤ x → x ≤ q → cdf ρ x ≠ W) : False := by
  obtain ⟨hi, h0⟩ := orthogonal D w ρ hρ hD hw hex Q hQ
  set f : ℝ → ℝ := fun x => -(Q.eval x * (cdf ρ x - stepF D w x)) with hf
  have hfi : IntervalIntegrable f volume (-1) 1 := hi.neg
  have hf0 : ∫ x in (-1 : ℝ)..1, f x = 0 := by rw [hf, intervalIntegral.integral_neg, h0, neg_zero]
  have hnn : ∀ a b : ℝ, -1 ≤ a → a ≤ b → b ≤ 1 → 0 ≤ ∫ x in a..b, f x := by
    intro a b h1 h2 h3
    apply integral_nonneg_of_ae_restrict h2
    rw [Filter.EventuallyLE, ae_restrict_iff' measurableSet_Icc]
    have : ∀ᵐ x : ℝ, x ≠ c := by simp [ae_iff]
    filter_upwards [this] with x hx hx2
    have := hs x hx (h1.trans hx2.1) (hx2.2.trans h3)
    simp only [hf, Pi.zero_apply]
    linarith
  have hsub : ∀ a b : ℝ, -1 ≤ a → a ≤ b → b ≤ 1 → IntervalIntegrable f volume a b := by
    intro a b h1 h2 h3
    refine hfi.mono_set ?_
    rw [Set.uIcc_of_le h2, Set.uIcc_of_le (by linarith)]
    exact Set.Icc_subset_Icc h1 h3
  have hmid : 0 < ∫ x in p..q, f x := by
    have heq : ∀ x ∈ Set.Icc p q, f x = -(Q.eval x * (cdf ρ x - W)) := by
      intro x hx
      simp only [hf]
      rw [hW x hx.1 hx.2]
    obtain ⟨z, hz, hzQ⟩ : ∃ z ∈ Set.Icc p q, Q.eval z ≠ 0 := by
      by_contra hall
      push Not at hall
      exact hQ0 (Q.eq_zero_of_infinite_isRoot ((Set.Icc_infinite hpq).mono fun x hx => hall x hx))
    apply intervalIntegral.integral_pos hpq
    · refine ContinuousOn.congr ?_ heq
      exact ((Q.continuous.mul ((cdf_cont ρ hρ).sub continuous_const)).neg).continuousOn
    · intro x hx
      have := hs x (hc x hx.1.le hx.2) (by linarith [hx.1]) (by linarith [hx.2])
      simp only [hf]
      linarith
    · refine ⟨z, hz, ?_⟩
      have h1 := hs z (hc z hz.1 hz.2) (by linarith [hz.1]) (by linarith [hz.2])
      have h2 : Q.eval z * (cdf ρ z - stepF D w z) ≠ 0 := by
        rw [hW z hz.1 hz.2]
        exact mul_ne_zero hzQ (sub_ne_zero.2 (hne z hz.1 hz.2))
      simp only [hf]
      have := lt_of_le_of_ne h1 h2
      linarith
  have e1 := integral_add_adjacent_intervals (hsub (-1) p le_rfl hp (by linarith)) (hsub p q hp hpq.le hq)
  have e2 := integral_add_adjacent_intervals (hsub (-1) q le_rfl (by linarith) hq) (hsub q 1 (by linarith) hq le_rfl)
  have n1 := hnn (-1) p le_rfl hp (by linarith)
  have n3 := hnn q 1 (by linarith) hq le_rfl
  linarith

/-- Partial sums of the weights. -/
noncomputable def psum (k : ℕ) : ℝ := ∑ i : Fin (m + 1), if (i : ℕ) < k then w i else 0

theorem stepF_gap (hD : StrictMono D) (j : Fin m) (x : ℝ) (h1 : D j.castSucc ≤ x) (h2 : x < D j.succ) :
    stepF D w x = psum w (j + 1) := by
  unfold stepF psum
  refine Finset.sum_congr rfl fun i _ => ?_
  by_cases h : (i : ℕ) < j + 1
  · rw [if_pos h, if_pos]
    exact (hD.monotone (by rw [Fin.le_def]; simp; omega)).trans h1
  · rw [if_neg h, if_neg]
    push Not
    refine h2.trans_le (hD.monotone (by rw [Fin.le_def]; simp; omega))

theorem stepF_last (hD : StrictMono D) (x : ℝ) (h : D (Fin.last m) ≤ x) : stepF D w x = ∑ i, w i := by
  unfold stepF
  refine Finset.sum_congr rfl fun i _ => ?_
  rw [if_pos ((hD.monotone (Fin.le_last i)).trans h)]

theorem stepF_first (hD : StrictMono D) (x : ℝ) (h : x < D 0) : stepF D w x = 0 := by
  unfold stepF
  refine Finset.sum_eq_zero fun i _ => ?_
  rw [if_neg]
  push Not
  exact h.trans_le (hD.monotone (Fin.zero_le i))

/-- Every point from the first node on lies in a gap or after the last node. -/
theorem locate (hD : StrictMono D) (x : ℝ) (h : D 0 ≤ x) :
    D (Fin.last m) ≤ x ∨ ∃ j : Fin m, D j.castSucc ≤ x ∧ x < D j.succ := by
  by_contra hc
  push Not at hc
  have : ∀ i : Fin (m + 1), D i ≤ x := by
    intro i
    induction i using Fin.induction with
    | zero => exact h
    | succ i ih => exact hc.2 i ih
  exact absurd (this _) (not_le.2 hc.1)

include hρ h0 in
/-- The sign pattern of the difference. -/
theorem signs (hD : StrictMono D) (hDi : ∀ i, -1 ≤ D i ∧ D i ≤ 1) (hone : cdf ρ 1 = ∑ i, w i) (s : Fin m → ℝ)
    (hs1 : ∀ j, D j.castSucc ≤ s j ∧ s j ≤ D j.succ)
    (hs2 : ∀ j x, D j.castSucc ≤ x → x ≤ D j.succ → x < s j → cdf ρ x ≤ psum w (j + 1))
    (hs3 : ∀ j x, D j.castSucc ≤ x → x ≤ D j.succ → s j < x → psum w (j + 1) ≤ cdf ρ x)
    (x : ℝ) (hx1 : -1 ≤ x) (hx2 : x ≤ 1) :
    ((∏ i, (x - D i)) * ∏ j, (x - s j)) * (cdf ρ x - stepF D w x) ≤ 0 := by
  have hm := cdf_mono ρ hρ h0
  have e0 : cdf ρ (-1) = 0 := by simp [cdf]
  have hpair : (∏ i, (x - D i)) * ∏ j, (x - s j) = (x - D 0) * ∏ j : Fin m, ((x - s j) * (x - D j.succ)) := by
    rw [Fin.prod_univ_succ, Finset.prod_mul_distrib]; ring
  rw [hpair]
  -- pairs away from the point
  have hright : ∀ j : Fin m, D j.succ ≤ x → 0 ≤ (x - s j) * (x - D j.succ) := fun j h =>
    mul_nonneg (by linarith [(hs1 j).2]) (by linarith)
  have hleft : ∀ j : Fin m, x ≤ D j.castSucc → 0 ≤ (x - s j) * (x - D j.succ) := fun j h =>
    mul_nonneg_of_nonpos_of_nonpos (by linarith [(hs1 j).1]) (by linarith [(hs1 j).1, (hs1 j).2])
  rcases lt_or_ge x (D 0) with hlt | hge
  · rw [stepF_first D w hD x hlt, sub_zero]
    have hF : 0 ≤ cdf ρ x := by rw [← e0]; exact hm hx1
    have : 0 ≤ ∏ j : Fin m, ((x - s j) * (x - D j.succ)) := Finset.prod_nonneg fun j _ =>
      hleft j (hlt.le.trans (hD.monotone (Fin.zero_le _)))
    exact mul_nonpos_of_nonpos_of_nonneg (mul_nonpos_of_nonpos_of_nonneg (by linarith) this) hF
  · rcases locate D hD x hge with hl | ⟨j, h1, h2⟩
    · rw [stepF_last D w hD x hl]
      have hF : cdf ρ x - ∑ i, w i ≤ 0 := by rw [← hone]; linarith [hm hx2]
      have : 0 ≤ ∏ j : Fin m, ((x - s j) * (x - D j.succ)) := Finset.prod_nonneg fun j _ =>
        hright j ((hD.monotone (Fin.le_last _)).trans hl)
      exact mul_nonpos_of_nonneg_of_nonpos (mul_nonneg (by linarith) this) hF
    · rw [stepF_gap D w hD j x h1 h2, ← Finset.mul_prod_erase _ _ (Finset.mem_univ j)]
      have hrest : 0 ≤ ∏ i ∈ Finset.univ.erase j, ((x - s i) * (x - D i.succ)) := by
        refine Finset.prod_nonneg fun i hi => ?_
        have hij : i ≠ j := Finset.ne_of_mem_erase hi
        rcases lt_or_gt_of_ne hij with h | h
        · refine hright i (le_trans (hD.monotone ?_) h1)
          rw [Fin.le_def]; simp; omega
        · refine hleft i (le_trans h2.le (hD.monotone ?_))
          rw [Fin.le_def]; simp; omega
      have key : ((x - s j) * (x - D j.succ)) * (cdf ρ x - psum w (j + 1)) ≤ 0 := by
        rcases lt_trichotomy x (s j) with h | h | h
        · have := hs2 j x h1 h2.le h
          exact mul_nonpos_of_nonneg_of_nonpos
            (mul_nonneg_of_nonpos_of_nonpos (by linarith) (by linarith)) (by linarith)
        · rw [h]; simp
        · have := hs3 j x h1 h2.le h
          exact mul_nonpos_of_nonpos_of_nonneg
            (mul_nonpos_of_nonneg_of_nonpos (by linarith) (by linarith)) (by linarith)
      have : (x - D 0) * (((x - s j) * (x - D j.succ)) * ∏ i ∈ Finset.univ.erase j, ((x - s i) * (x - D i.succ))) *
          (cdf ρ x - psum w (j + 1)) = ((x - D 0) * ∏ i ∈ Finset.univ.erase j, ((x - s i) * (x - D i.succ))) *
          (((x - s j) * (x - D j.succ)) * (cdf ρ x - psum w (j + 1))) := by ring
      rw [this]
      exact mul_nonpos_of_nonneg_of_nonpos (mul_nonneg (by linarith) hrest) key

include hρ h0 in
/-- The difference cannot keep its sign in a gap next to a node. -/
theorem collapse (hD : StrictMono D) (hDi : ∀ i, -1 ≤ D i ∧ D i ≤ 1) (hw : ∀ i, 0 ≤ w i)
    (hex : ∀ q : ℝ[X], q.natDegree ≤ 2 * m + 1 → ∑ i, w i * q.eval (D i) = ∫ x in (-1 : ℝ)..1, q.eval x * ρ x)
    (j0 : Fin m) (k0 : Fin (m + 1)) (s0 : D j0.castSucc ≤ D k0 ∧ D k0 ≤ D j0.succ)
    (s2 : ∀ x, D j0.castSucc ≤ x → x ≤ D j0.succ → x < D k0 → cdf ρ x ≤ psum w (j0 + 1))
    (s3 : ∀ x, D j0.castSucc ≤ x → x ≤ D j0.succ → D k0 < x → psum w (j0 + 1) ≤ cdf ρ x)
    (hne : ∀ x, D j0.castSucc < x → x < D j0.succ → cdf ρ x ≠ psum w (j0 + 1)) : False := by
  have hm := cdf_mono ρ hρ h0
  have hone : cdf ρ 1 = ∑ i, w i := by
    have := hex 1 (by simp)
    simp only [eval_one, mul_one, one_mul] at this
    rw [this]; rfl
  have hgap : ∀ j : Fin m, D j.castSucc < D j.succ := fun j => hD (Fin.castSucc_lt_succ)
  choose t t1 t2 t3 t4 using fun j : Fin m => crossing (cdf ρ) hm (D j.castSucc) (D j.succ) (psum w (j + 1)) (hgap j).le
  let s : Fin m → ℝ := fun j => if j = j0 then D k0 else t j
  have es0 : s j0 = D k0 := if_pos rfl
  have es : ∀ j, j ≠ j0 → s j = t j := fun j h => if_neg h
  have hsig := signs D w ρ hρ h0 hD hDi hone s
    (fun j => by
      by_cases h : j = j0
      · subst h; rw [es0]; exact s0
      · rw [es j h]; exact ⟨t1 j, t2 j⟩)
    (fun j x => by
      by_cases h : j = j0
      · subst h; rw [es0]; exact s2 x
      · rw [es j h]; exact t3 j x)
    (fun j x => by
      by_cases h : j = j0
      · subst h; rw [es0]; exact s3 x
      · rw [es j h]; exact t4 j x)
  let Q : ℝ[X] := (∏ i ∈ Finset.univ.erase k0, (X - C (D i))) * ∏ j ∈ Finset.univ.erase j0, (X - C (s j))
  have hQm : Q.Monic := (monic_prod_of_monic _ _ fun i _ => monic_X_sub_C _).mul
    (monic_prod_of_monic _ _ fun i _ => monic_X_sub_C _)
  have hQd : Q.natDegree ≤ 2 * m := by
    refine natDegree_mul_le.trans ?_
    rw [natDegree_prod_of_monic _ _ fun i _ => monic_X_sub_C _, natDegree_prod_of_monic _ _ fun i _ => monic_X_sub_C _]
    simp
    omega
  have hsQ : ∀ x, x ≠ D k0 → -1 ≤ x → x ≤ 1 → Q.eval x * (cdf ρ x - stepF D w x) ≤ 0 := by
    intro x hx h1 h2
    have h := hsig x h1 h2
    have e : (∏ i, (x - D i)) * ∏ j, (x - s j) = (x - D k0) ^ 2 * Q.eval x := by
      rw [← Finset.mul_prod_erase _ _ (Finset.mem_univ k0), ← Finset.mul_prod_erase _ (fun j => x - s j) (Finset.mem_univ j0),
        es0]
      simp only [Q, eval_mul, eval_prod, eval_sub, eval_X, eval_C]
      ring
    rw [e, mul_assoc] at h
    have hp : 0 < (x - D k0) ^ 2 := by
      have := sub_ne_zero.2 hx
      positivity
    by_contra hc
    push Not at hc
    exact absurd h (not_le.2 (mul_pos hp hc))
  have hg := hgap j0
  set d := D j0.succ - D j0.castSucc with hd
  have hd0 : 0 < d := by linarith
  have hk : D k0 = D j0.castSucc ∨ D k0 = D j0.succ := by
    rcases lt_or_ge j0.castSucc k0 with h | h
    · right
      apply le_antisymm s0.2
      refine hD.monotone ?_
      rw [Fin.le_def]
      rw [Fin.lt_def] at h
      simp at h ⊢
      omega
    · left
      exact le_antisymm (hD.monotone h) s0.1
  refine no_gap D w ρ hρ hDi hw hex Q hQd hQm.ne_zero (D k0) hsQ (D j0.castSucc + d / 3) (D j0.castSucc + 2 * d / 3)
    (psum w (j0 + 1)) ?_ ?_ ?_ ?_ ?_ ?_
  · linarith [(hDi j0.castSucc).1]
  · linarith
  · linarith [(hDi j0.succ).2]
  · intro x h1 h2 hx
    rcases hk with h | h <;> rw [h] at hx <;> linarith
  · intro x h1 h2
    exact stepF_gap D w hD j0 x (by linarith) (by linarith)
  · intro x h1 h2
    exact hne x (by linarith) (by linarith)

include hρ h0 in
/-- The inequalities of Chebyshev, Markov and Stieltjes. -/
theorem markov (hD : StrictMono D) (hDi : ∀ i, -1 ≤ D i ∧ D i ≤ 1) (hw : ∀ i, 0 ≤ w i)
    (hex : ∀ q : ℝ[X], q.natDegree ≤ 2 * m + 1 → ∑ i, w i * q.eval (D i) = ∫ x in (-1 : ℝ)..1, q.eval x * ρ x)
    (k : Fin (m + 1)) : psum w k ≤ cdf ρ (D k) ∧ cdf ρ (D k) ≤ psum w (k + 1) := by
  have hm := cdf_mono ρ hρ h0
  have e0 : cdf ρ (-1) = 0 := by simp [cdf]
  have hone : cdf ρ 1 = ∑ i, w i := by
    have := hex 1 (by simp)
    simp only [eval_one, mul_one, one_mul] at this
    rw [this]; rfl
  have hgap : ∀ j : Fin m, D j.castSucc < D j.succ := fun j => hD (Fin.castSucc_lt_succ)
  constructor
  · cases k using Fin.cases with
    | zero =>
      have : psum w ((0 : Fin (m + 1)) : ℕ) = 0 := by simp [psum]
      rw [this, ← e0]
      exact hm (hDi 0).1
    | succ j =>
      by_contra hc
      push Not at hc
      rw [Fin.val_succ] at hc
      exact collapse D w ρ hρ h0 hD hDi hw hex j j.succ ⟨(hgap j).le, le_rfl⟩
        (fun x _ h2 _ => (hm h2).trans hc.le) (fun x _ h2 h3 => absurd h2 (not_le.2 h3))
        (fun x _ h2 h => absurd (hm h2.le) (not_le.2 (h ▸ hc)))
  · cases k using Fin.lastCases with
    | last =>
      have : psum w ((Fin.last m : Fin (m + 1)) + 1 : ℕ) = ∑ i, w i := by
        unfold psum
        refine Finset.sum_congr rfl fun i _ => ?_
        rw [if_pos (by rw [Fin.val_last]; exact i.2)]
      rw [this, ← hone]
      exact hm (hDi _).2
    | cast j =>
      by_contra hc
      push Not at hc
      rw [Fin.val_castSucc] at hc
      exact collapse D w ρ hρ h0 hD hDi hw hex j j.castSucc ⟨le_rfl, (hgap j).le⟩
        (fun x h1 _ h3 => absurd h1 (not_le.2 h3)) (fun x h1 _ _ => hc.le.trans (hm h1))
        (fun x h1 _ h => absurd (hm h1.le) (not_le.2 (h ▸ hc)))

end
end EQ.Sampling.Markov
