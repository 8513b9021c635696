import Verif.Weight.Model
import Mathlib.Tactic.Linarith
import Mathlib.Tactic.NormNum
import Mathlib.Algebra.Order.BigOperators.Group.List

/-!
# Properties of bespoke weight functions: C70, C102
-/

namespace EQ.Weight

open EQ.Basis
open Classical

/-! ## C70: the adaptive loop -/

/-- Specification: the value the `k`-th pass is compared with; the first pass is compared with 10. -/
noncomputable def previous (Q : ℕ → Option ℝ) (k : ℕ) : Option ℝ := if k = 1 then some 10 else Q (80 * (k - 1))

/-- Specification: the loop goes on after pass `k`, because both values are numbers that differ by at least 1e-6. -/
def GoesOn (Q : ℕ → Option ℝ) (k : ℕ) : Prop :=
  ∃ a b, Q (80 * k) = some a ∧ previous Q k = some b ∧ (1/10^6 : ℝ) ≤ |a - b|

theorem unsettled_iff (x y : Option ℝ) : unsettled x y ↔ ∃ a b, x = some a ∧ y = some b ∧ (1/10^6 : ℝ) ≤ |a - b| := by
  cases x with
  | none => simp [unsettled]
  | some a =>
    cases y with
    | none => simp [unsettled]
    | some b =>
      unfold unsettled
      constructor
      · intro h; exact ⟨a, b, rfl, rfl, h⟩
      · rintro ⟨a', b', ha, hb, h⟩
        cases ha; cases hb; exact h

theorem quadLoop_spec (Q : ℕ → Option ℝ) : ∀ (r k : ℕ), k + r = 62 →
    (∃ j, k < j ∧ j ≤ 62 ∧ ¬ GoesOn Q j ∧ (∀ i, k < i → i < j → GoesOn Q i) ∧
      quadLoop Q (80 * k) (previous Q (k + 1)) = .ok (Q (80 * j), 80 * j)) ∨
    ((∀ j, k < j → j ≤ 62 → GoesOn Q j) ∧ quadLoop Q (80 * k) (previous Q (k + 1)) = .error .typeError) := by
  intro r
  induction r with
  | zero =>
    intro k hk
    right
    refine ⟨fun j h1 h2 => by omega, ?_⟩
    rw [quadLoop, if_pos (by omega)]
  | succ r ih =>
    intro k hk
    have h80 : 80 * k + 80 = 80 * (k + 1) := by ring
    have hprev : previous Q (k + 1 + 1) = Q (80 * (k + 1)) := by
      unfold previous
      rw [if_neg (by omega)]
      rfl
    by_cases hg : GoesOn Q (k + 1)
    · have hu : unsettled (Q (80 * (k + 1))) (previous Q (k + 1)) := (unsettled_iff _ _).2 hg
      have heq : quadLoop Q (80 * k) (previous Q (k + 1)) = quadLoop Q (80 * (k + 1)) (previous Q (k + 1 + 1)) := by
        rw [quadLoop, if_neg (by omega), h80, if_pos hu, hprev]
      rw [heq]
      rcases ih (k + 1) (by omega) with ⟨j, h1, h2, h3, h4, h5⟩ | ⟨h1, h2⟩
      · refine Or.inl ⟨j, by omega, h2, h3, fun i hi hij => ?_, h5⟩
        by_cases hik : i = k + 1
        · rw [hik]; exact hg
        · exact h4 i (by omega) hij
      · refine Or.inr ⟨fun j hj hj2 => ?_, h2⟩
        by_cases hjk : j = k + 1
        · rw [hjk]; exact hg
        · exact h1 j (by omega) hj2
    · have hu : ¬ unsettled (Q (80 * (k + 1))) (previous Q (k + 1)) := fun h => hg ((unsettled_iff _ _).1 h)
      refine Or.inl ⟨k + 1, by omega, by omega, hg, fun i hi hij => by omega, ?_⟩
      rw [quadLoop, if_neg (by omega), h80, if_neg hu]

/-- C70 (partial). For every integrand the loop makes at most 63 passes (orders 80, 160, ..., 5040). It returns the value
of the first pass among 1 to 62 whose value does not differ by 1e-6 or more from that of the pass before, and raises if there
is none. If no value is `nan` and the loop returns after the second pass or later, the last two values differ by less
than 1e-6. -/
theorem c70_loop_partial (Q : ℕ → Option ℝ) :
    ((∃ k, 1 ≤ k ∧ k ≤ 62 ∧ ¬ GoesOn Q k ∧ (∀ i, 1 ≤ i → i < k → GoesOn Q i) ∧
        iterativeQuadrature Q = .ok (Q (80 * k), 80 * k)) ∨
      ((∀ k, 1 ≤ k → k ≤ 62 → GoesOn Q k) ∧ iterativeQuadrature Q = .error .typeError)) ∧
    ((∀ o, Q o ≠ none) → ∀ I o, iterativeQuadrature Q = .ok (I, o) → 80 < o →
      ∃ a b, I = some a ∧ Q o = some a ∧ Q (o - 80) = some b ∧ |a - b| < 1/10^6) := by
  have h := quadLoop_spec Q 62 0 (by omega)
  have hp : previous Q (0 + 1) = some 10 := by unfold previous; rw [if_pos rfl]
  rw [hp] at h
  have first : (∃ k, 1 ≤ k ∧ k ≤ 62 ∧ ¬ GoesOn Q k ∧ (∀ i, 1 ≤ i → i < k → GoesOn Q i) ∧
        iterativeQuadrature Q = .ok (Q (80 * k), 80 * k)) ∨
      ((∀ k, 1 ≤ k → k ≤ 62 → GoesOn Q k) ∧ iterativeQuadrature Q = .error .typeError) := by
    rcases h with ⟨j, h1, h2, h3, h4, h5⟩ | ⟨h1, h2⟩
    · exact Or.inl ⟨j, by omega, h2, h3, fun i hi => h4 i (by omega), h5⟩
    · exact Or.inr ⟨fun k hk => h1 k (by omega), h2⟩
  refine ⟨first, fun hn I o hr ho => ?_⟩
  rcases first with ⟨k, h1, h2, h3, h4, h5⟩ | ⟨h1, h2⟩
  · rw [h5] at hr
    simp only [Except.ok.injEq, Prod.mk.injEq] at hr
    obtain ⟨hI, hok⟩ := hr
    obtain ⟨a, ha⟩ := Option.ne_none_iff_exists'.1 (hn (80 * k))
    obtain ⟨b, hb⟩ := Option.ne_none_iff_exists'.1 (hn (80 * (k - 1)))
    have hsub : o - 80 = 80 * (k - 1) := by omega
    refine ⟨a, b, by rw [← hI, ha], by rw [← hok, ha], by rw [hsub, hb], ?_⟩
    by_contra hc
    refine h3 ⟨a, b, ha, ?_, not_lt.1 hc⟩
    unfold previous
    rw [if_neg (by omega), hb]
  · rw [h2] at hr; cases hr

/-- Values 3, 2, 2, ...: the loop makes three passes. -/
example : iterativeQuadrature (fun o => some (if o = 80 then 3 else 2)) = .ok (some 2, 240) := by
  have hg : ∀ k, GoesOn (fun o => some (if o = 80 then 3 else 2)) k ↔ k = 1 ∨ k = 2 := by
    intro k
    constructor
    · rintro ⟨a, b, ha, hb, h⟩
      by_contra hk
      have h1 : ¬ 80 * k = 80 := by omega
      have h2 : ¬ 80 * (k - 1) = 80 := by omega
      unfold previous at hb
      rw [if_neg (by omega)] at hb
      simp only [if_neg h1] at ha
      simp only [if_neg h2] at hb
      cases ha; cases hb
      norm_num at h
    · rintro (rfl | rfl)
      · exact ⟨3, 10, by simp, by simp [previous], by norm_num⟩
      · exact ⟨2, 3, by simp, by simp [previous], by norm_num [abs_of_neg]⟩
  rcases (c70_loop_partial fun o => some (if o = 80 then 3 else 2)).1 with ⟨k, h1, h2, h3, h4, h5⟩ | ⟨h1, h2⟩
  · have : k = 3 := by
      rw [hg] at h3
      by_contra hk
      have := (hg 3).1 (h4 3 (by omega) (by omega))
      omega
    rw [h5, this]; simp
  · have := (hg 3).1 (h1 3 (by omega) (by omega)); omega

/-- C70 is violated: the first pass is compared with the number 10, so a first value within 1e-6 of 10 is returned at once,
whatever the value of the next order. -/
theorem c70_first_violated (Q : ℕ → Option ℝ) (a : ℝ) (h : Q 80 = some a) (ha : |a - 10| < 1/10^6) :
    iterativeQuadrature Q = .ok (some a, 80) := by
  unfold iterativeQuadrature
  rw [quadLoop, if_neg (by omega), if_neg, ← h]
  rw [unsettled_iff]
  rintro ⟨x, y, hx, hy, hxy⟩
  rw [show 0 + 80 = 80 from rfl, h] at hx
  cases hx; cases hy
  linarith

/-- The orders 80 and 160 give 10 and 0: 10 is returned. -/
example : iterativeQuadrature (fun o => some (if o = 80 then 10 else 0)) = .ok (some 10, 80) :=
  c70_first_violated _ 10 (by simp) (by norm_num)

/-- C70 is violated: if the integrand yields `nan` at one node of the first rule, the loop stops and returns `nan` as if it
had converged. -/
theorem c70_nan_violated (rule : ℕ → List (ℝ × ℝ)) (f : ℝ → Option ℝ) (pw : ℝ × ℝ) (h : pw ∈ rule 80) (hf : f pw.1 = none) :
    iterativeQuadrature (fun o => quadValue (rule o) f) = .ok (none, 80) := by
  have hq : quadValue (rule 80) f = none := by
    generalize rule 80 = l at h
    induction l with
    | nil => cases h
    | cons q l ih =>
      unfold quadValue
      rw [List.foldr_cons]
      rcases List.mem_cons.1 h with rfl | h
      · rw [hf]
      · have := ih h
        unfold quadValue at this
        rw [this]
        cases f q.1 <;> rfl
  unfold iterativeQuadrature
  rw [quadLoop, if_neg (by omega), if_neg]
  · show Except.ok (quadValue (rule 80) f, 80) = _
    rw [hq]
  · rw [unsettled_iff]
    rintro ⟨x, y, hx, -⟩
    rw [show 0 + 80 = 80 from rfl, hq] at hx
    cases hx

example : iterativeQuadrature (fun _ => quadValue [(0, 1)] fun _ => none) = .ok (none, 80) :=
  c70_nan_violated (fun _ => [(0, 1)]) _ (0, 1) (by simp) rfl

/-! ## C102: density, mean and variance -/

/-- Sum of weight times value. -/
noncomputable def total (rule : List (ℝ × ℝ)) (f : ℝ → ℝ) : ℝ := (rule.map fun pw => pw.2 * f pw.1).sum

theorem quadValue_some (rule : List (ℝ × ℝ)) (f : ℝ → ℝ) : quadValue rule (fun x => some (f x)) = some (total rule f) := by
  induction rule with
  | nil => rfl
  | cons q l ih =>
    unfold quadValue at ih ⊢
    rw [List.foldr_cons, ih]
    simp [total]

/-- Contract of the quadrature rules: points in the interval, weights not negative. -/
def RuleOK (rule : ℝ → ℝ → ℕ → List (ℝ × ℝ)) : Prop :=
  ∀ l u o, l < u → ∀ pw ∈ rule l u o, l ≤ pw.1 ∧ pw.1 ≤ u ∧ 0 ≤ pw.2

theorem total_nonneg {rule : List (ℝ × ℝ)} {f : ℝ → ℝ} (h : ∀ pw ∈ rule, 0 ≤ pw.2 * f pw.1) : 0 ≤ total rule f := by
  unfold total
  refine List.sum_nonneg fun x hx => ?_
  obtain ⟨pw, hpw, rfl⟩ := List.mem_map.1 hx
  exact h pw hpw

theorem total_mul (rule : List (ℝ × ℝ)) (c : ℝ) (f : ℝ → ℝ) : total rule (fun x => c * f x) = c * total rule f := by
  unfold total
  rw [← List.sum_map_mul_left]
  congr 1
  refine List.map_congr_left fun pw _ => by ring

theorem total_sub (rule : List (ℝ × ℝ)) (f g : ℝ → ℝ) : total rule (fun x => f x - g x) = total rule f - total rule g := by
  unfold total
  induction rule with
  | nil => simp
  | cons q l ih => simp only [List.map_cons, List.sum_cons]; rw [ih]; ring

/-- The loop returns the value of one of its orders. -/
theorem iterative_value {Q : ℕ → Option ℝ} {I o} (h : iterativeQuadrature Q = .ok (I, o)) : I = Q o := by
  rcases (c70_loop_partial Q).1 with ⟨k, -, -, -, -, h5⟩ | ⟨-, h2⟩
  · rw [h5] at h; simp only [Except.ok.injEq, Prod.mk.injEq] at h; rw [← h.1, ← h.2]
  · rw [h2] at h; cases h

/-- C102 (partial). For every non-negative function on a bounded interval: if the constructor succeeds, the density is
non-negative everywhere; the quadrature value `I` of the function satisfies `constant * I = 1` (or, with `pdf=True`,
`constant = 1` and `|I - 1| < 0.01`); a computed variance is not negative; and if no moment is given, and the mean was
obtained with the same order as the integral, it lies in the support when normalised. -/
theorem c102_density_partial (rule : ℝ → ℝ → ℕ → List (ℝ × ℝ)) (hR : RuleOK rule) (w : ℝ → ℝ) (hw : ∀ x, 0 ≤ w x) (l u : ℝ)
    (hlu : l < u) (pdf : Bool) (mean variance : Option ℝ) (W : WeightObj)
    (h : mkWeight rule (fun x => some (w x)) l u pdf mean variance = .ok W) :
    ∃ c m v I o, W = ⟨l, u, some c, some m, some v⟩ ∧ 0 < c ∧ (∀ x, ∃ y, pdfAt (fun x => some (w x)) W.const x = some y ∧ 0 ≤ y ∧ y = w x * c) ∧
      I = total (rule l u o) w ∧ (c * I = 1 ∨ (pdf = true ∧ c = 1 ∧ |I - 1| < 1/100)) ∧
      (pdf = false → c * I = 1) ∧
      (∀ m', mean = some m' → m = m') ∧ (∀ v', variance = some v' → v = v') ∧ (variance = none → 0 ≤ v) ∧
      (mean = none → ∃ o', m = total (rule l u o') (fun x => x * (w x * c)) ∧ (o' = o → c * I = 1 → l ≤ m ∧ m ≤ u)) ∧
      (variance = none → ∃ o', v = total (rule l u o') (fun x => (x - m) ^ 2 * (w x * c))) := by
  unfold mkWeight at h
  rw [if_neg (by rw [not_le]; exact_mod_cast hlu), if_neg (EReal.coe_ne_bot l), if_neg (EReal.coe_ne_top u)] at h
  simp only [EReal.toReal_coe, quadValue_some] at h
  have hnn : ∀ o, 0 ≤ total (rule l u o) w := fun o => total_nonneg fun pw hpw => mul_nonneg (hR l u o hlu pw hpw).2.2 (hw _)
  cases hI : iterativeQuadrature fun o => some (total (rule l u o) w) with
  | error e => rw [hI] at h; cases h
  | ok r =>
    obtain ⟨I', o⟩ := r
    rw [hI] at h
    have hI' := iterative_value hI
    simp only at h hI'
    subst hI'
    obtain ⟨I, hIdef⟩ : ∃ I, I = total (rule l u o) w := ⟨_, rfl⟩
    have hI0 : 0 ≤ I := by rw [hIdef]; exact hnn o
    rw [← hIdef] at h
    cases hc : normConstant (some I) pdf with
    | error e => rw [hc] at h; cases h
    | ok c' =>
      rw [hc] at h
      simp only at h
      obtain ⟨c, hcc, hcpos, hcI⟩ : ∃ c, c' = some c ∧ 0 < c ∧
          ((c * I = 1 ∨ (pdf = true ∧ c = 1 ∧ |I - 1| < 1/100)) ∧ (pdf = false → c * I = 1)) := by
        unfold normConstant at hc
        simp only at hc
        by_cases h1 : (1/10^2 : ℝ) ≤ |I - 1| ∨ pdf = false
        · rw [if_pos h1] at hc
          by_cases h2 : I = 0
          · rw [if_pos h2] at hc; cases hc
          · rw [if_neg h2] at hc
            simp only [Except.ok.injEq] at hc
            have hIpos : 0 < I := lt_of_le_of_ne hI0 (Ne.symm h2)
            exact ⟨1 / I, hc.symm, by positivity, Or.inl (one_div_mul_cancel h2), fun _ => one_div_mul_cancel h2⟩
        · rw [if_neg h1] at hc
          simp only [Except.ok.injEq] at hc
          push Not at h1
          refine ⟨1, hc.symm, one_pos, Or.inr ⟨by simpa using h1.2, rfl, by have := h1.1; norm_num at this ⊢; linarith⟩,
            fun hp => absurd hp h1.2⟩
      subst hcc
      have e1 : (fun o => quadValue (rule l u o) (meanIntegrand (fun x => some (w x)) (some c))) =
          fun o => some (total (rule l u o) fun x => x * (w x * c)) := by
        funext o
        exact quadValue_some (rule l u o) fun x => x * (w x * c)
      rw [e1] at h
      cases hm : momentOr mean (fun o => some (total (rule l u o) fun x => x * (w x * c))) with
      | error e => rw [hm] at h; cases h
      | ok m' =>
        rw [hm] at h
        simp only at h
        obtain ⟨m, hmm, hm1, hm2⟩ : ∃ m, m' = some m ∧ (∀ x, mean = some x → m = x) ∧
            (mean = none → ∃ o', m = total (rule l u o') fun x => x * (w x * c)) := by
          unfold momentOr at hm
          cases mean with
          | some x =>
            simp only [Except.ok.injEq] at hm
            refine ⟨x, hm.symm, fun y hy => by cases hy; rfl, fun hy => by cases hy⟩
          | none =>
            cases hq : iterativeQuadrature (fun o => some (total (rule l u o) fun x => x * (w x * c))) with
            | error e => rw [hq] at hm; cases hm
            | ok r =>
              rw [hq] at hm
              simp only [Except.ok.injEq] at hm
              have := iterative_value (I := r.1) (o := r.2) hq
              exact ⟨total (rule l u r.2) fun x => x * (w x * c), by rw [← hm, this], fun y hy => by simp at hy, fun _ => ⟨r.2, rfl⟩⟩
        subst hmm
        have e2 : (fun o => quadValue (rule l u o) (varianceIntegrand (fun x => some (w x)) (some c) (some m))) =
            fun o => some (total (rule l u o) fun x => (x - m) ^ 2 * (w x * c)) := by
          funext o
          exact quadValue_some (rule l u o) fun x => (x - m) ^ 2 * (w x * c)
        rw [e2] at h
        cases hv : momentOr variance (fun o => some (total (rule l u o) fun x => (x - m) ^ 2 * (w x * c))) with
        | error e => rw [hv] at h; cases h
        | ok v' =>
          rw [hv] at h
          simp only [Except.ok.injEq] at h
          obtain ⟨v, hvv, hv1, hv2⟩ : ∃ v, v' = some v ∧ (∀ x, variance = some x → v = x) ∧
              (variance = none → ∃ o', v = total (rule l u o') fun x => (x - m) ^ 2 * (w x * c)) := by
            unfold momentOr at hv
            cases variance with
            | some x =>
              simp only [Except.ok.injEq] at hv
              refine ⟨x, hv.symm, fun y hy => by cases hy; rfl, fun hy => by cases hy⟩
            | none =>
              cases hq : iterativeQuadrature (fun o => some (total (rule l u o) fun x => (x - m) ^ 2 * (w x * c))) with
              | error e => rw [hq] at hv; cases hv
              | ok r =>
                rw [hq] at hv
                simp only [Except.ok.injEq] at hv
                have := iterative_value (I := r.1) (o := r.2) hq
                exact ⟨total (rule l u r.2) fun x => (x - m) ^ 2 * (w x * c), by rw [← hv, this], fun y hy => by simp at hy,
                  fun _ => ⟨r.2, rfl⟩⟩
          subst hvv
          refine ⟨c, m, v, I, o, h.symm, hcpos, fun x => ⟨w x * c, by rw [← h]; rfl, mul_nonneg (hw x) hcpos.le, rfl⟩, hIdef, hcI.1,
            hcI.2, hm1, hv1, fun hn => ?_, fun hn => ?_, hv2⟩
          · obtain ⟨o', ho'⟩ := hv2 hn
            rw [ho']
            exact total_nonneg fun pw hpw => mul_nonneg (hR l u o' hlu pw hpw).2.2
              (mul_nonneg (sq_nonneg _) (mul_nonneg (hw _) hcpos.le))
          · obtain ⟨o', ho'⟩ := hm2 hn
            refine ⟨o', ho', fun hoo hone => ?_⟩
            subst hoo
            have hone' : total (rule l u o') (fun x => w x * c) = 1 := by
              rw [← hone, hIdef, ← total_mul]
              congr 1; funext x; ring
            have k1 : 0 ≤ total (rule l u o') fun x => (x * (w x * c)) - (l * (w x * c)) := total_nonneg fun pw hpw => by
              obtain ⟨a1, a2, a3⟩ := hR l u o' hlu pw hpw
              rw [← sub_mul]
              exact mul_nonneg a3 (mul_nonneg (by linarith) (mul_nonneg (hw _) hcpos.le))
            have k2 : 0 ≤ total (rule l u o') fun x => (u * (w x * c)) - (x * (w x * c)) := total_nonneg fun pw hpw => by
              obtain ⟨a1, a2, a3⟩ := hR l u o' hlu pw hpw
              rw [← sub_mul]
              exact mul_nonneg a3 (mul_nonneg (by linarith) (mul_nonneg (hw _) hcpos.le))
            rw [total_sub, total_mul (rule l u o') l, hone', mul_one, ← ho'] at k1
            rw [total_sub, total_mul (rule l u o') u, hone', mul_one, ← ho'] at k2
            exact ⟨by linarith, by linarith⟩

/-- The one-point rule at the midpoint meets the contract, and the constructor succeeds for the constant function 2 on
`[0, 1]`. -/
example : RuleOK (fun l u _ => [((l + u) / 2, u - l)]) ∧
    mkWeight (fun l u _ => [((l + u) / 2, u - l)]) (fun _ => some 2) (0 : ℝ) (1 : ℝ) false none none =
      .ok ⟨0, 1, some (1/2), some (1/2), some 0⟩ := by
  have key : ∀ a : ℝ, 1/10^6 ≤ |a - 10| → iterativeQuadrature (fun _ => some a) = .ok (some a, 160) := by
    intro a ha
    unfold iterativeQuadrature
    rw [quadLoop, if_neg (by omega), if_pos ((unsettled_iff _ _).2 ⟨a, 10, rfl, rfl, ha⟩), quadLoop, if_neg (by omega), if_neg]
    rw [unsettled_iff]
    rintro ⟨x, y, hx, hy, hxy⟩
    cases hx; cases hy
    norm_num at hxy
  refine ⟨fun l u o h pw hpw => ?_, ?_⟩
  · simp only [List.mem_singleton] at hpw
    subst hpw
    exact ⟨by simp only; linarith, by simp only; linarith, by simp only; linarith⟩
  · unfold mkWeight
    rw [if_neg (by rw [not_le]; exact_mod_cast one_pos), if_neg (EReal.coe_ne_bot 0), if_neg (EReal.coe_ne_top 1)]
    simp only [EReal.toReal_coe]
    have e0 : ∀ f : ℝ → Option ℝ, ∀ a, f (1/2) = some a → quadValue [(((0:ℝ) + 1) / 2, (1:ℝ) - 0)] f = some a := by
      intro f a h
      unfold quadValue
      simp only [List.foldr_cons, List.foldr_nil]
      rw [show ((0:ℝ) + 1) / 2 = 1/2 by norm_num, h]
      simp
    rw [e0 _ 2 rfl, key 2 (by norm_num [abs_of_neg])]
    have e1 : normConstant (some 2) false = .ok (some (1/2)) := by
      unfold normConstant
      simp
    simp only [e1]
    rw [e0 _ (1/2) (by unfold meanIntegrand pdfAt mulNan; norm_num)]
    unfold momentOr
    rw [key (1/2) (by norm_num [abs_of_neg])]
    simp only
    rw [e0 _ 0 (by unfold varianceIntegrand pdfAt mulNan; norm_num), key 0 (by norm_num)]

/-- C102 is violated: unbounded or empty supports are refused with a `TypeError`, not with the intended `ValueError`; and a
function whose quadrature value is zero raises `ZeroDivisionError`. -/
theorem c102_errors_violated (rule : ℝ → ℝ → ℕ → List (ℝ × ℝ)) (w : ℝ → Option ℝ) (pdf : Bool) (mean variance : Option ℝ) :
    (∀ l u : EReal, u ≤ l ∨ l = ⊥ ∨ u = ⊤ → mkWeight rule w l u pdf mean variance = .error .typeError) ∧
    ∀ l u : ℝ, l < u → mkWeight rule (fun _ => some 0) l u pdf mean variance = .error .zeroDivisionError := by
  refine ⟨fun l u h => ?_, fun l u hlu => ?_⟩
  · unfold mkWeight
    by_cases h1 : u ≤ l
    · rw [if_pos h1]
    rw [if_neg h1]
    by_cases h2 : l = ⊥
    · rw [if_pos h2]
    rw [if_neg h2]
    by_cases h3 : u = ⊤
    · rw [if_pos h3]
    · rcases h with h | h | h <;> contradiction
  · unfold mkWeight
    rw [if_neg (by rw [not_le]; exact_mod_cast hlu), if_neg (EReal.coe_ne_bot l), if_neg (EReal.coe_ne_top u)]
    simp only [EReal.toReal_coe]
    have : ∀ o, quadValue (rule l u o) (fun _ => some 0) = some 0 := fun o => by
      have := quadValue_some (rule l u o) fun _ => 0
      rw [this]; simp [total]
    simp only [this]
    have hit : iterativeQuadrature (fun _ => some 0) = .ok (some 0, 160) := by
      unfold iterativeQuadrature
      rw [quadLoop, if_neg (by omega), if_pos ((unsettled_iff _ _).2 ⟨0, 10, rfl, rfl, by norm_num⟩), quadLoop, if_neg (by omega), if_neg]
      rw [unsettled_iff]
      rintro ⟨x, y, hx, hy, hxy⟩
      cases hx; cases hy
      norm_num at hxy
    rw [hit]
    have hno : normConstant (some 0) pdf = .error .zeroDivisionError := by
      unfold normConstant
      simp only
      rw [if_pos (Or.inl (by norm_num)), if_pos trivial]
    simp only [hno]

example : mkWeight (fun l u _ => [((l + u) / 2, u - l)]) (fun _ => some 2) ⊥ (1 : ℝ) false none none = .error .typeError :=
  (c102_errors_violated _ _ _ _ _).1 _ _ (Or.inr (Or.inl rfl))

/-- C102 is violated: a function that is `nan` at one node of the first rule is accepted without an exception. Declared to be a
density it is used as it is, otherwise the constant is `nan`; mean and variance are `nan`. -/
theorem c102_nan_violated (rule : ℝ → ℝ → ℕ → List (ℝ × ℝ)) (w : ℝ → Option ℝ) (l u : ℝ) (hlu : l < u) (pw : ℝ × ℝ)
    (h : pw ∈ rule l u 80) (hw : w pw.1 = none) :
    mkWeight rule w l u true none none = .ok ⟨l, u, some 1, none, none⟩ ∧
    mkWeight rule w l u false none none = .ok ⟨l, u, none, none, none⟩ := by
  have hp : ∀ c, pdfAt w c pw.1 = none := fun c => by rw [pdfAt, hw]; cases c <;> rfl
  have hm : ∀ c, iterativeQuadrature (fun o => quadValue (rule l u o) (meanIntegrand w c)) = .ok (none, 80) := fun c =>
    c70_nan_violated (rule l u) _ pw h (by rw [meanIntegrand, hp]; rfl)
  have hv : ∀ c m, iterativeQuadrature (fun o => quadValue (rule l u o) (varianceIntegrand w c m)) = .ok (none, 80) := fun c m =>
    c70_nan_violated (rule l u) _ pw h (by rw [varianceIntegrand, hp]; cases m <;> rfl)
  constructor <;>
  · unfold mkWeight
    rw [if_neg (by rw [not_le]; exact_mod_cast hlu), if_neg (EReal.coe_ne_bot l), if_neg (EReal.coe_ne_top u)]
    simp only [EReal.toReal_coe, c70_nan_violated (rule l u) w pw h hw, normConstant, momentOr, hm, hv]
    simp

example : mkWeight (fun l u _ => [((l + u) / 2, u - l)]) (fun _ => none) (0 : ℝ) (1 : ℝ) true none none =
    .ok ⟨0, 1, some 1, none, none⟩ :=
  (c102_nan_violated _ _ 0 1 one_pos ((0 + 1) / 2, 1 - 0) (by simp) rfl).1

end EQ.Weight
