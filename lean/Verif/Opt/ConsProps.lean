import Verif.Opt.Constraints

/-!
# Constraints and scipy methods (C62, C63, C93, C94)
-/

namespace EQ.Opt.Cons
open EQ.Basis Classical

variable {n : ℕ}

/-! ## Specification -/

/-- The points allowed by a list of constraints. -/
def All (cs : List (Con n)) (x : Pt n) : Prop := ∀ c ∈ cs, c.Holds x

/-- The points between two vectors of extended reals. -/
def Between {M : ℕ} (lo hi : Fin M → EReal) (y : Fin M → ℝ) : Prop := ∀ i, lo i ≤ (y i : EReal) ∧ (y i : EReal) ≤ hi i

/-- The points a problem allows: the bounds handed over separately and all the constraints. -/
def Allowed (p : Prob n) (x : Pt n) : Prop :=
  (∀ lb ub, p.bounds = some (lb, ub) → Between lb ub x) ∧ All p.cons x

theorem all_append (cs ds : List (Con n)) (x : Pt n) : All (cs ++ ds) x ↔ All cs x ∧ All ds x := by
  unfold All
  simp only [List.mem_append, or_imp, forall_and]

theorem all_single (c : Con n) (x : Pt n) : All [c] x ↔ c.Holds x := by simp [All]

theorem all_nil (x : Pt n) : All ([] : List (Con n)) x := by simp [All]

theorem not_isInf {e : EReal} (h : ¬ isInf e) : ((e.toReal : ℝ) : EReal) = e := by
  unfold isInf at h
  push Not at h
  exact EReal.coe_toReal h.1 h.2

theorem coe_not_isInf (r : ℝ) : ¬ isInf (r : EReal) := by
  unfold isInf
  push Not
  exact ⟨EReal.coe_ne_top r, EReal.coe_ne_bot r⟩

theorem le_iff_toReal {e : EReal} (h : ¬ isInf e) (y : ℝ) : e ≤ (y : EReal) ↔ 0 ≤ y - e.toReal := by
  conv_lhs => rw [← not_isInf h]
  rw [EReal.coe_le_coe_iff]
  constructor <;> intro h <;> linarith

theorem ge_iff_toReal {e : EReal} (h : ¬ isInf e) (y : ℝ) : (y : EReal) ≤ e ↔ 0 ≤ e.toReal - y := by
  conv_lhs => rw [← not_isInf h]
  rw [EReal.coe_le_coe_iff]
  constructor <;> intro h <;> linarith

/-! ## C63: bounds and inequalities -/

/-- C63, bounds. For every method that accepts bounds, every bounds (lower bounds below `+∞`, upper
bounds above `-∞`, infinite entries mixed with finite ones): after `add_bounds` on a problem without
bounds exactly the points between the bounds are allowed, besides what was required before. -/
theorem c63_bounds (p : Prob n) (hp : p.bounds = none) (lb ub : Fin n → EReal) (hl : ∀ i, lb i ≠ ⊤)
    (hu : ∀ i, ub i ≠ ⊥)
    (hm : p.method ∈ [.lbfgsb, .tnc, .slsqp, .trustConstr, .cobyla, .trustRegion, .omorf]) :
    ∃ p', addBounds p lb ub = .ok p' ∧ ∀ x, Allowed p' x ↔ Allowed p x ∧ Between lb ub x := by
  unfold addBounds
  rw [if_pos hm]
  split_ifs with hc
  · refine ⟨_, rfl, fun x => ?_⟩
    unfold Allowed
    simp only [hp, Option.some.injEq, Prod.mk.injEq]
    constructor
    · rintro ⟨h1, h2⟩
      exact ⟨⟨fun _ _ h => by simp at h, h2⟩, h1 lb ub ⟨rfl, rfl⟩⟩
    · rintro ⟨⟨-, h2⟩, h3⟩
      exact ⟨fun l u ⟨h4, h5⟩ => by rw [← h4, ← h5]; exact h3, h2⟩
  · refine ⟨_, rfl, fun x => ?_⟩
    unfold Allowed
    simp only [hp, all_append]
    have key : All ((List.finRange n).flatMap fun i =>
        (if ¬ isInf (lb i) then [Con.ineq 1 (fun x _ => x i - (lb i).toReal) none] else []) ++
        (if ¬ isInf (ub i) then [Con.ineq 1 (fun x _ => (ub i).toReal - x i) none] else [])) x ↔
        Between lb ub x := by
      unfold Between
      constructor
      · intro h i
        have hi : All ((if ¬ isInf (lb i) then [Con.ineq 1 (fun x _ => x i - (lb i).toReal) none] else []) ++
            (if ¬ isInf (ub i) then [Con.ineq 1 (fun x _ => (ub i).toReal - x i) none] else [])) x :=
          fun c hcm => h c (List.mem_flatMap.2 ⟨i, List.mem_finRange i, hcm⟩)
        rw [all_append] at hi
        constructor
        · by_cases h1 : isInf (lb i)
          · rcases h1 with h1 | h1
            · exact absurd h1 (hl i)
            · rw [h1]; exact bot_le
          · have h2 := hi.1
            rw [if_pos h1, all_single] at h2
            exact (le_iff_toReal h1 _).2 (h2 0)
        · by_cases h1 : isInf (ub i)
          · rcases h1 with h1 | h1
            · rw [h1]; exact le_top
            · exact absurd h1 (hu i)
          · have h2 := hi.2
            rw [if_pos h1, all_single] at h2
            exact (ge_iff_toReal h1 _).2 (h2 0)
      · intro h c hcm
        obtain ⟨i, -, hi⟩ := List.mem_flatMap.1 hcm
        rcases List.mem_append.1 hi with hi | hi
        · split_ifs at hi with h1
          · simp at hi
          · simp only [List.mem_singleton] at hi
            subst hi
            intro _
            exact (le_iff_toReal h1 _).1 (h i).1
        · split_ifs at hi with h1
          · simp at hi
          · simp only [List.mem_singleton] at hi
            subst hi
            intro _
            exact (ge_iff_toReal h1 _).1 (h i).2
    rw [key]
    simp only [reduceCtorEq, false_imp_iff, implies_true, true_and]

example : ∃ p', addBounds (n := 2) ⟨.cobyla, false, none, none, none, none, []⟩ ![⊥, (1 : ℝ)] ![(2 : ℝ), ⊤] = .ok p' ∧
    ∀ x, Allowed p' x ↔ Allowed (n := 2) ⟨.cobyla, false, none, none, none, none, []⟩ x ∧
      Between ![⊥, ((1 : ℝ) : EReal)] ![((2 : ℝ) : EReal), ⊤] x :=
  c63_bounds _ rfl _ _ (by intro i; fin_cases i; exacts [bot_ne_top, EReal.coe_ne_top 1])
    (by intro i; fin_cases i; exacts [EReal.coe_ne_bot 2, top_ne_bot]) (by simp)

/-- The two sides of a linear inequality are each all finite or all infinite. -/
def Uniform {M : ℕ} (bl bu : Fin M → EReal) : Prop :=
  ((∀ i, ¬ isInf (bl i)) ∨ ∀ i, bl i = ⊥) ∧ ((∀ i, ¬ isInf (bu i)) ∨ ∀ i, bu i = ⊤)

/-- C63, linear inequalities, the part that holds. For `trust-constr` and all right-hand sides, for
`SLSQP` and `COBYLA` and sides that are each all finite or all infinite: after `add_linear_ineq_con`
exactly the points with `b_l ≤ A x ≤ b_u` are allowed, besides what was required before.
Missing: `SLSQP` and `COBYLA` with finite and infinite entries on the same side
(`c63_mixed_violated`). -/
theorem c63_linear_partial {M : ℕ} (p : Prob n) (A : Fin M → Fin n → ℝ) (bl bu : Fin M → EReal)
    (hm : p.method = .trustConstr ∨ ((p.method = .slsqp ∨ p.method = .cobyla) ∧ Uniform bl bu)) :
    ∃ p', addLinearIneq p A bl bu = .ok p' ∧ ∀ x, Allowed p' x ↔ Allowed p x ∧ Between bl bu (mulVec A x) := by
  unfold addLinearIneq
  rcases hm with hm | ⟨hm, hl, hu⟩
  · rw [if_pos (by simp [hm]), if_pos hm]
    refine ⟨_, rfl, fun x => ?_⟩
    unfold Allowed
    simp only [all_append, all_single]
    rw [and_assoc]
    rfl
  · rw [if_pos (by simp; tauto), if_neg (by rcases hm with hm | hm <;> rw [hm] <;> decide)]
    refine ⟨_, rfl, fun x => ?_⟩
    unfold Allowed
    simp only [all_append]
    have h1 : All (if ¬ ∃ i, isInf (bl i) then
          [Con.ineq M (fun x i => mulVec A x i - (bl i).toReal) (some fun _ => A)] else []) x ↔
          ∀ i, bl i ≤ (mulVec A x i : EReal) := by
      split_ifs with hc
      · obtain ⟨i, hi⟩ := hc
        rcases hl with hl | hl
        · exact absurd hi (hl i)
        · simp [all_nil, hl]
      · push Not at hc
        rw [all_single]
        exact forall_congr' fun i => (le_iff_toReal (hc i) _).symm
    have h2 : All (if ¬ ∃ i, isInf (bu i) then
          [Con.ineq M (fun x i => -mulVec A x i + (bu i).toReal) (some fun _ i j => -A i j)] else []) x ↔
          ∀ i, (mulVec A x i : EReal) ≤ bu i := by
      split_ifs with hc
      · obtain ⟨i, hi⟩ := hc
        rcases hu with hu | hu
        · exact absurd hi (hu i)
        · simp [all_nil, hu]
      · push Not at hc
        rw [all_single]
        refine forall_congr' fun i => ?_
        rw [ge_iff_toReal (hc i)]
        simp only
        rw [neg_add_eq_sub]
    rw [h1, h2]
    unfold Between
    rw [forall_and]
    tauto

example : Uniform (M := 2) ![⊥, ⊥] ![((1 : ℝ) : EReal), ((2 : ℝ) : EReal)] :=
  ⟨.inr (by intro i; fin_cases i <;> rfl), .inl (by intro i; fin_cases i; exacts [coe_not_isInf 1, coe_not_isInf 2])⟩

/-- C63 is violated: with `SLSQP` or `COBYLA`, one infinite entry of `b_l` removes the lower limits of
all rows, for every matrix, every `b_l` and every finite `b_u`. -/
theorem c63_mixed_violated {M : ℕ} (p : Prob n) (hm : p.method = .slsqp ∨ p.method = .cobyla)
    (A : Fin M → Fin n → ℝ) (bl bu : Fin M → EReal) (hl : ∃ i, isInf (bl i)) (hu : ∀ i, ¬ isInf (bu i)) :
    ∃ p', addLinearIneq p A bl bu = .ok p' ∧
      ∀ x, Allowed p' x ↔ Allowed p x ∧ ∀ i, (mulVec A x i : EReal) ≤ bu i := by
  unfold addLinearIneq
  rw [if_pos (by simp; tauto), if_neg (by rcases hm with hm | hm <;> rw [hm] <;> decide)]
  refine ⟨_, rfl, fun x => ?_⟩
  unfold Allowed
  simp only [all_append]
  rw [if_neg (by simpa using hl), if_pos (by push Not; exact hu), all_single]
  have : (Con.ineq M (fun x i => -mulVec A x i + (bu i).toReal) (some fun _ i j => -A i j)).Holds x ↔
      ∀ i, (mulVec A x i : EReal) ≤ bu i := by
    refine forall_congr' fun i => ?_
    rw [ge_iff_toReal (hu i)]
    simp only
    rw [neg_add_eq_sub]
  rw [this]
  have := all_nil (n := n) x
  tauto

/-- The same on a concrete problem: `-∞ ≤ x₀ ≤ 5`, `0 ≤ x₁ ≤ 5`; the point `(0, -1)` is allowed though
`x₁ < 0`. -/
theorem c63_mixed_violated_point : ∃ p', addLinearIneq (n := 2) (M := 2)
      ⟨.slsqp, false, none, none, none, none, []⟩ ![![1, 0], ![0, 1]]
      ![⊥, ((0 : ℝ) : EReal)] ![((5 : ℝ) : EReal), ((5 : ℝ) : EReal)] = .ok p' ∧
    Allowed p' ![0, -1] ∧ ¬ Between ![⊥, ((0 : ℝ) : EReal)] ![((5 : ℝ) : EReal), ((5 : ℝ) : EReal)]
      (mulVec ![![1, 0], ![0, 1]] ![0, -1]) := by
  obtain ⟨p', h1, h2⟩ := c63_mixed_violated (n := 2) (M := 2)
    ⟨.slsqp, false, none, none, none, none, []⟩ (.inl rfl) ![![1, 0], ![0, 1]]
    ![⊥, ((0 : ℝ) : EReal)] ![((5 : ℝ) : EReal), ((5 : ℝ) : EReal)] ⟨0, .inr rfl⟩
    (by intro i; fin_cases i; exacts [coe_not_isInf 5, coe_not_isInf 5])
  refine ⟨p', h1, (h2 _).2 ⟨⟨fun _ _ h => by simp at h, all_nil _⟩, fun i => ?_⟩, fun h => ?_⟩
  · have e : (![((5 : ℝ) : EReal), ((5 : ℝ) : EReal)] : Fin 2 → EReal) i = ((5 : ℝ) : EReal) := by
      fin_cases i <;> rfl
    rw [e, EReal.coe_le_coe_iff]
    fin_cases i <;> norm_num [mulVec, Fin.sum_univ_two]
  · have := (h 1).1
    have e : (![⊥, ((0 : ℝ) : EReal)] : Fin 2 → EReal) 1 = ((0 : ℝ) : EReal) := rfl
    rw [e, EReal.coe_le_coe_iff] at this
    norm_num [mulVec, Fin.sum_univ_two] at this

/-- C63, nonlinear inequalities: for all three methods, every polynomial and every bounds (finite or
not), exactly the points with `lo ≤ g x ≤ hi` are allowed, besides what was required before; for a custom
function exactly those with `g x ≥ 0`. -/
theorem c63_nonlinear (p : Prob n) (hm : p.method ∈ [.slsqp, .trustConstr, .cobyla]) (g : Pt n → ℝ)
    (jac : Pt n → Pt n) (jac' : Option (Pt n → Pt n)) (lo hi : EReal) (hl : lo ≠ ⊤) (hu : hi ≠ ⊥) :
    (∃ p', addPolyIneq p g jac lo hi = .ok p' ∧
      ∀ x, Allowed p' x ↔ Allowed p x ∧ lo ≤ (g x : EReal) ∧ (g x : EReal) ≤ hi) ∧
    ∃ p', addCustomIneq p g jac' = .ok p' ∧ ∀ x, Allowed p' x ↔ Allowed p x ∧ 0 ≤ g x := by
  constructor
  · unfold addPolyIneq
    rw [if_pos hm]
    by_cases hc : p.method = .trustConstr
    · rw [if_pos hc]
      refine ⟨_, rfl, fun x => ?_⟩
      unfold Allowed
      simp only [all_append, all_single]
      rw [and_assoc]
      rfl
    · rw [if_neg hc]
      refine ⟨_, rfl, fun x => ?_⟩
      unfold Allowed
      simp only [all_append]
      have h1 : ∀ j, All (if ¬ isInf lo then [Con.ineq 1 (fun x _ => g x - lo.toReal) j] else []) x ↔
          lo ≤ (g x : EReal) := by
        intro j
        split_ifs with h
        · rcases h with h | h
          · exact absurd h hl
          · simp [h, all_nil]
        · rw [all_single, le_iff_toReal h]
          exact ⟨fun h => h 0, fun h _ => h⟩
      have h2 : ∀ j, All (if ¬ isInf hi then [Con.ineq 1 (fun x _ => -g x + hi.toReal) j] else []) x ↔
          (g x : EReal) ≤ hi := by
        intro j
        split_ifs with h
        · rcases h with h | h
          · simp [h, all_nil]
          · exact absurd h hu
        · rw [all_single, ge_iff_toReal h, ← neg_add_eq_sub]
          exact ⟨fun h => h 0, fun h _ => h⟩
      rw [h1, h2]
      tauto
  · unfold addCustomIneq
    rw [if_pos hm]
    split_ifs with hc
    · refine ⟨_, rfl, fun x => ?_⟩
      unfold Allowed
      simp only [all_append, all_single, Con.Holds]
      rw [and_assoc]
      simp
    · refine ⟨_, rfl, fun x => ?_⟩
      unfold Allowed
      simp only [all_append, all_single, Con.Holds]
      rw [and_assoc]
      simp
    · refine ⟨_, rfl, fun x => ?_⟩
      unfold Allowed
      simp only [all_append, all_single, Con.Holds]
      rw [and_assoc]
      simp

/-! ## C93: equalities -/

/-- C93, the part that holds: a linear equality and a custom nonlinear equality allow exactly the points
that satisfy them (as documented by scipy), besides what was required before.
Missing: the refusal of methods that cannot handle equalities, and polynomials
(`c93_methods_violated`, `c93_poly_violated`). -/
theorem c93_equality_partial {M : ℕ} (p : Prob n) (A : Fin M → Fin n → ℝ) (b : Fin M → ℝ) (g : Pt n → ℝ)
    (jac : Option (Pt n → Pt n)) :
    (∃ p', addLinearEq p A b = .ok p' ∧ ∀ x, Allowed p' x ↔ Allowed p x ∧ mulVec A x = b) ∧
    ∃ p', addNonlinearEq p (.custom g jac) = .ok p' ∧ ∀ x, Allowed p' x ↔ Allowed p x ∧ g x = 0 := by
  constructor
  · unfold addLinearEq
    split_ifs with hc
    · refine ⟨_, rfl, fun x => ?_⟩
      unfold Allowed
      simp only [all_append, all_single, Con.Holds]
      rw [and_assoc, funext_iff]
      simp only [EReal.coe_le_coe_iff, ← le_antisymm_iff]
      have : (∀ i, b i = mulVec A x i) ↔ ∀ i, mulVec A x i = b i := forall_congr' fun i => eq_comm
      rw [this]
    · refine ⟨_, rfl, fun x => ?_⟩
      unfold Allowed
      simp only [all_append, all_single, Con.Holds]
      rw [and_assoc, funext_iff]
      simp only [sub_eq_zero]
  · unfold addNonlinearEq
    simp only
    split_ifs with hc
    · refine ⟨_, rfl, fun x => ?_⟩
      unfold Allowed
      simp only [all_append, all_single, Con.Holds]
      rw [and_assoc]
      have : ((0 : EReal) ≤ (g x : EReal) ∧ (g x : EReal) ≤ 0) ↔ g x = 0 := by
        rw [← EReal.coe_zero, EReal.coe_le_coe_iff, EReal.coe_le_coe_iff]
        constructor
        · rintro ⟨h1, h2⟩; linarith
        · intro h; rw [h]; exact ⟨le_refl _, le_refl _⟩
      rw [this]
    · refine ⟨_, rfl, fun x => ?_⟩
      unfold Allowed
      simp only [all_append, all_single, Con.Holds]
      rw [and_assoc]
      simp

/-- C93 is violated: no method is refused, not even those that have no equality constraints
(`COBYLA`, `L-BFGS-B`, `trust-region`, ...). -/
theorem c93_methods_violated {M : ℕ} (p : Prob n) (A : Fin M → Fin n → ℝ) (b : Fin M → ℝ) (g : Pt n → ℝ)
    (jac : Option (Pt n → Pt n)) :
    (∃ p', addLinearEq p A b = .ok p') ∧ ∃ p', addNonlinearEq p (.custom g jac) = .ok p' := by
  obtain ⟨⟨p', h, -⟩, p'', h', -⟩ := c93_equality_partial p A b g jac
  exact ⟨⟨p', h⟩, p'', h'⟩

/-- C93 is violated: a polynomial equality is never added; for every method, polynomial and value the
call raises `AttributeError`. -/
theorem c93_poly_violated (p : Prob n) (value : ℝ) (g : Pt n → ℝ) (jac : Pt n → Pt n) :
    addNonlinearEq p (.poly (some value) g jac) = .error .attributeError := rfl

/-! ## Jacobians of the constraints -/

/-- The linear function with coefficients `c`. -/
noncomputable def lin (c : Pt n) : (Pt n) →L[ℝ] ℝ := ∑ i, c i • (ContinuousLinearMap.proj i : (Pt n) →L[ℝ] ℝ)

/-- The Jacobian attached to a constraint, if any, is that of its function. -/
def JacRight : Con n → Prop
  | .linear _ _ _ _ => True
  | .nonlinear g _ _ jac => ∀ j, jac = some j → ∀ x, HasFDerivAt g (lin (j x)) x
  | .ineq _ g jac => ∀ j, jac = some j → ∀ x i, HasFDerivAt (fun y => g y i) (lin (j x i)) x
  | .eq _ g jac => ∀ j, jac = some j → ∀ x i, HasFDerivAt (fun y => g y i) (lin (j x i)) x

theorem lin_apply (c x : Pt n) : lin c x = ∑ i, c i * x i := by
  simp [lin, ContinuousLinearMap.sum_apply]

theorem lin_smul (s : ℝ) (c : Pt n) : lin (fun i => s * c i) = s • lin c := by
  ext x
  simp [lin_apply, Finset.mul_sum, mul_assoc]

theorem mulVec_deriv {M : ℕ} (A : Fin M → Fin n → ℝ) (i : Fin M) (x : Pt n) :
    HasFDerivAt (fun y => mulVec A y i) (lin (A i)) x := by
  have : (fun y => mulVec A y i) = lin (A i) := by funext y; rw [lin_apply]; rfl
  rw [this]
  exact (lin (A i)).hasFDerivAt

/-- C63 and C93, derivatives. Whatever constraint is added to a problem whose constraints carry correct
Jacobians, with a correct Jacobian of the user's function or polynomial, all constraints of the new
problem carry correct Jacobians. -/
theorem c63_jacobians {M : ℕ} (p p' : Prob n) (hp : ∀ c ∈ p.cons, JacRight c) (A : Fin M → Fin n → ℝ)
    (bl bu : Fin M → EReal) (b : Fin M → ℝ) (g : Pt n → ℝ) (jac : Pt n → Pt n) (jac' : Option (Pt n → Pt n))
    (lo hi : EReal) (lb ub : Fin n → EReal) (hj : ∀ x, HasFDerivAt g (lin (jac x)) x)
    (hj' : ∀ j, jac' = some j → ∀ x, HasFDerivAt g (lin (j x)) x)
    (h : addBounds p lb ub = .ok p' ∨ addLinearIneq p A bl bu = .ok p' ∨ addPolyIneq p g jac lo hi = .ok p' ∨
      addCustomIneq p g jac' = .ok p' ∨ addLinearEq p A b = .ok p' ∨ addNonlinearEq p (.custom g jac') = .ok p') :
    ∀ c ∈ p'.cons, JacRight c := by
  have neg : ∀ (f : Pt n → ℝ) (c : Pt n) (k : ℝ) (x : Pt n), HasFDerivAt f (lin c) x →
      HasFDerivAt (fun y => -f y + k) (lin fun i => -c i) x := by
    intro f c k x hf
    have h1 := hf.neg.add_const k
    have h2 : lin (fun i => -c i) = -lin c := by
      ext y
      simp [lin_apply]
    rw [h2]
    exact h1
  rcases h with h | h | h | h | h | h
  · unfold addBounds at h
    by_cases h1 : p.method ∈ [.lbfgsb, .tnc, .slsqp, .trustConstr, .cobyla, .trustRegion, .omorf]
    · rw [if_pos h1] at h
      by_cases h2 : p.method ≠ .cobyla
      · rw [if_pos h2] at h
        simp only [Except.ok.injEq] at h
        subst h
        exact hp
      · rw [if_neg h2] at h
        simp only [Except.ok.injEq] at h
        subst h
        intro c hc
        simp only [List.mem_append, List.mem_flatMap] at hc
        rcases hc with hc | ⟨i, -, hc | hc⟩
        · exact hp c hc
        all_goals
          split_ifs at hc
          · simp at hc
          · simp only [List.mem_singleton] at hc
            subst hc
            intro j hj
            simp at hj
    · rw [if_neg h1] at h; simp at h
  · unfold addLinearIneq at h
    by_cases h1 : p.method ∈ [.slsqp, .trustConstr, .cobyla]
    · rw [if_pos h1] at h
      by_cases h2 : p.method = .trustConstr
      · rw [if_pos h2] at h
        simp only [Except.ok.injEq] at h
        subst h
        intro c hc
        rcases List.mem_append.1 hc with hc | hc
        · exact hp c hc
        · simp only [List.mem_singleton] at hc
          subst hc
          trivial
      · rw [if_neg h2] at h
        simp only [Except.ok.injEq] at h
        subst h
        intro c hc
        simp only [List.mem_append] at hc
        rcases hc with (hc | hc) | hc
        · exact hp c hc
        · split_ifs at hc
          · simp at hc
          · simp only [List.mem_singleton] at hc
            subst hc
            intro j hj x i
            simp only [Option.some.injEq] at hj
            subst hj
            exact (mulVec_deriv A i x).sub_const _
        · split_ifs at hc
          · simp at hc
          · simp only [List.mem_singleton] at hc
            subst hc
            intro j hj x i
            simp only [Option.some.injEq] at hj
            subst hj
            exact neg _ _ _ x (mulVec_deriv A i x)
    · rw [if_neg h1] at h; simp at h
  · unfold addPolyIneq at h
    by_cases h1 : p.method ∈ [.slsqp, .trustConstr, .cobyla]
    · rw [if_pos h1] at h
      by_cases h2 : p.method = .trustConstr
      · rw [if_pos h2] at h
        simp only [Except.ok.injEq] at h
        subst h
        intro c hc
        rcases List.mem_append.1 hc with hc | hc
        · exact hp c hc
        · simp only [List.mem_singleton] at hc
          subst hc
          intro j hj1
          simp only [Option.some.injEq] at hj1
          subst hj1
          exact hj
      · rw [if_neg h2] at h
        simp only [Except.ok.injEq] at h
        subst h
        intro c hc
        simp only [List.mem_append] at hc
        rcases hc with (hc | hc) | hc
        · exact hp c hc
        · by_cases hl : isInf lo
          · simp [hl] at hc
          rw [if_pos hl] at hc
          simp only [List.mem_singleton] at hc
          subst hc
          intro j hj1 x i
          by_cases h3 : p.method = .slsqp
          · simp only [h3, if_true, Option.some.injEq] at hj1
            subst hj1
            simp only [one_mul]
            exact (hj x).sub_const _
          · simp [h3] at hj1
        · by_cases hl : isInf hi
          · simp [hl] at hc
          rw [if_pos hl] at hc
          simp only [List.mem_singleton] at hc
          subst hc
          intro j hj1 x i
          by_cases h3 : p.method = .slsqp
          · simp only [h3, if_true, Option.some.injEq] at hj1
            subst hj1
            simp only [neg_mul, one_mul]
            exact neg _ _ _ x (hj x)
          · simp [h3] at hj1
    · rw [if_neg h1] at h; simp at h
  · unfold addCustomIneq at h
    by_cases h1 : p.method ∈ [.slsqp, .trustConstr, .cobyla]
    · rw [if_pos h1] at h
      by_cases h2 : p.method = .trustConstr
      · rw [if_pos h2] at h
        simp only [Except.ok.injEq] at h
        subst h
        intro c hc
        rcases List.mem_append.1 hc with hc | hc
        · exact hp c hc
        · simp only [List.mem_singleton] at hc
          subst hc
          exact hj'
      · rw [if_neg h2] at h
        simp only [Except.ok.injEq] at h
        subst h
        intro c hc
        rcases List.mem_append.1 hc with hc | hc
        · exact hp c hc
        · simp only [List.mem_singleton] at hc
          subst hc
          intro j hj1 x i
          by_cases h3 : p.method = .slsqp
          · rw [if_pos h3, Option.map_eq_some_iff] at hj1
            obtain ⟨j', h4, rfl⟩ := hj1
            exact hj' j' h4 x
          · simp [h3] at hj1
    · rw [if_neg h1] at h; simp at h
  · unfold addLinearEq at h
    by_cases h2 : p.method = .trustConstr
    · rw [if_pos h2] at h
      simp only [Except.ok.injEq] at h
      subst h
      intro c hc
      rcases List.mem_append.1 hc with hc | hc
      · exact hp c hc
      · simp only [List.mem_singleton] at hc
        subst hc
        trivial
    · rw [if_neg h2] at h
      simp only [Except.ok.injEq] at h
      subst h
      intro c hc
      rcases List.mem_append.1 hc with hc | hc
      · exact hp c hc
      · simp only [List.mem_singleton] at hc
        subst hc
        intro j hj1 x i
        simp only [Option.some.injEq] at hj1
        subst hj1
        exact (mulVec_deriv A i x).sub_const _
  · unfold addNonlinearEq at h
    simp only at h
    by_cases h2 : p.method = .trustConstr
    · rw [if_pos h2] at h
      simp only [Except.ok.injEq] at h
      subst h
      intro c hc
      rcases List.mem_append.1 hc with hc | hc
      · exact hp c hc
      · simp only [List.mem_singleton] at hc
        subst hc
        exact hj'
    · rw [if_neg h2] at h
      simp only [Except.ok.injEq] at h
      subst h
      intro c hc
      rcases List.mem_append.1 hc with hc | hc
      · exact hp c hc
      · simp only [List.mem_singleton] at hc
        subst hc
        intro j hj1 x i
        rw [Option.map_eq_some_iff] at hj1
        obtain ⟨j', h4, rfl⟩ := hj1
        exact hj' j' h4 x

/-- A correct Jacobian: that of `x ↦ 2 x₀`. -/
example : ∀ x, HasFDerivAt (fun y : Pt 2 => mulVec ![![2, 0]] y 0) (lin ((fun _ => ![2, 0] : Pt 2 → Pt 2) x)) x :=
  fun x => mulVec_deriv ![![2, 0]] 0 x

/-! ## C62, C94: scipy methods -/

/-- What is asked of `optimize.minimize`: the value is that of the point, the point is allowed, and no
allowed point is better. -/
structure Minimises (minimize : MinCall n → MinResult n) (c : MinCall n) : Prop where
  value : (minimize c).fn = c.fn (minimize c).x
  allowed : (∀ lb ub, c.bounds = some (lb, ub) → Between lb ub (minimize c).x) ∧ All c.cons (minimize c).x
  best : ∀ y, (∀ lb ub, c.bounds = some (lb, ub) → Between lb ub y) → All c.cons y →
    c.fn (minimize c).x ≤ c.fn y

/-- C62 for the methods of scipy: for every function, every problem and every minimiser that does what it
is asked in the call made, the point returned is allowed by the bounds and all the constraints added, the
value is that of the user's function there, and no allowed point is better (larger when maximising,
smaller otherwise). -/
theorem c62_scipy (minimize : MinCall n → MinResult n) (p p' : Prob n) (isPoly maximise : Bool) (f : Pt n → ℝ)
    (jac : Option (Pt n → Pt n)) (hess : Option (Pt n → Fin n → Fin n → ℝ))
    (h : addObjective p isPoly maximise f jac hess = .ok p') (x0 : Pt n)
    (hm : ∀ fn, p'.fn = some fn → Minimises minimize (scipyCall p' fn x0)) :
    ∃ sol, optimiseScipy minimize p' x0 = .ok sol ∧ Allowed p sol.x ∧ sol.fn = f sol.x ∧
      ∀ y, Allowed p y → if maximise then f y ≤ sol.fn else sol.fn ≤ f y := by
  unfold addObjective at h
  by_cases hc : p.method = .trustRegion ∧ isPoly = true
  · rw [if_pos hc] at h; simp at h
  rw [if_neg hc] at h
  simp only [Except.ok.injEq] at h
  subst h
  obtain ⟨m1, m2, m3⟩ := hm _ rfl
  unfold optimiseScipy
  simp only
  have e1 : ∀ (q : Prob n) fn, (scipyCall q fn x0).fn = fn ∧ (scipyCall q fn x0).bounds = q.bounds ∧
      (scipyCall q fn x0).cons = q.cons := by
    intro q fn; unfold scipyCall; split_ifs <;> exact ⟨rfl, rfl, rfl⟩
  rw [(e1 _ _).1] at m1 m3
  rw [(e1 _ _).2.1, (e1 _ _).2.2] at m2 m3
  refine ⟨_, rfl, m2, ?_, fun y hy => ?_⟩
  · simp only
    rw [m1]
    cases maximise <;> simp
  · have := m3 y hy.1 hy.2
    simp only
    rw [m1]
    cases maximise
    · simpa using this
    · simpa using this

/-- The hypotheses are satisfiable: maximising `-(x - 1)²` with `x ≥ 2` required. -/
example : ∃ p', addObjective (n := 1) ⟨.cobyla, false, none, none, none, none,
      [.ineq 1 (fun x _ => x 0 - 2) none]⟩ false true (fun x => -(x 0 - 1) ^ 2) none none = .ok p' ∧
    ∀ fn, p'.fn = some fn → Minimises (fun c => ⟨fun _ => 2, c.fn fun _ => 2, 7⟩) (scipyCall p' fn fun _ => 0) := by
  refine ⟨_, rfl, fun fn hfn => ?_⟩
  simp only [Option.some.injEq] at hfn
  subst hfn
  refine ⟨rfl, ⟨fun _ _ h => by simp [scipyCall] at h, ?_⟩, fun y _ hy => ?_⟩
  · simp [scipyCall, All, Con.Holds]
  · simp [scipyCall, All, Con.Holds] at hy ⊢
    nlinarith

/-- Where a gradient is handed over, it is the gradient of the function handed over, if the user's is
(a linear map given by its coefficients); the Hessian handed over is the derivative of the gradient, if
the user's is. -/
theorem c62_gradient (p p' : Prob n) (isPoly maximise : Bool) (f : Pt n → ℝ) (jac : Pt n → Pt n)
    (hess : Option (Pt n → Fin n → Fin n → ℝ))
    (h : addObjective p isPoly maximise f (some jac) hess = .ok p')
    (hd : ∀ x, HasFDerivAt f (∑ i, jac x i • (ContinuousLinearMap.proj i : (Pt n) →L[ℝ] ℝ)) x) :
    ∃ fn grad, p'.fn = some fn ∧ p'.grad = some grad ∧
      (∀ x, HasFDerivAt fn (∑ i, grad x i • (ContinuousLinearMap.proj i : (Pt n) →L[ℝ] ℝ)) x) ∧
      ((∀ H, hess = some H → ∀ x i, HasFDerivAt (fun y => jac y i) (lin (H x i)) x) →
        ∀ H, p'.hess = some H → ∀ x i, HasFDerivAt (fun y => grad y i) (lin (H x i)) x) := by
  unfold addObjective at h
  by_cases hc : p.method = .trustRegion ∧ isPoly = true
  · rw [if_pos hc] at h; simp at h
  rw [if_neg hc] at h
  simp only [Except.ok.injEq] at h
  subst h
  refine ⟨_, _, rfl, rfl, fun x => ?_, fun hH H h2 x i => ?_⟩
  · have := (hd x).const_mul (if maximise then (-1 : ℝ) else 1)
    refine this.congr_fderiv ?_
    rw [Finset.smul_sum]
    exact Finset.sum_congr rfl fun i _ => by rw [smul_smul]
  · rw [Option.map_eq_some_iff] at h2
    obtain ⟨H', h3, rfl⟩ := h2
    rw [lin_smul]
    exact (hH H' h3 x i).const_mul _

example : ∀ x, HasFDerivAt (fun x : Pt 1 => 3 * x 0)
    (∑ i, (fun _ _ => 3 : Pt 1 → Pt 1) x i • (ContinuousLinearMap.proj i : (Pt 1) →L[ℝ] ℝ)) x := by
  intro x
  simp only [Fin.sum_univ_one]
  exact ((ContinuousLinearMap.proj (R := ℝ) (φ := fun _ : Fin 1 => ℝ) 0).hasFDerivAt).const_mul 3

/-- C94 is violated: for the methods of scipy the number of evaluations reported is `0`, whatever scipy
reports. -/
theorem c94_nfev_violated (minimize : MinCall n → MinResult n) (p : Prob n) (fn : Pt n → ℝ) (hf : p.fn = some fn)
    (x0 : Pt n) : ∃ sol, optimiseScipy minimize p x0 = .ok sol ∧ sol.nfev = 0 := by
  unfold optimiseScipy
  rw [hf]
  exact ⟨_, rfl, rfl⟩

end EQ.Opt.Cons
