import Verif.Param.Props

/-!
# C16 for the rules as they are returned
-/

namespace EQ.Param
open Polynomial EQ.ParamSpec

/-- The contracts of `eigh` and `argsort`. -/
structure EighArgsortOK (E : EighArgsort) : Prop where
  eigh : ∀ {n : ℕ} (J : Matrix (Fin n) (Fin n) ℝ), J.transpose = J → EighContract J (E.eigh J).1 (E.eigh J).2
  argsort : ∀ {n : ℕ} (D : Fin n → ℝ), ArgsortContract D (E.argsort D)

/-- A rule gives expectations under the Beta law on `[l, u]` exactly for polynomials up to degree `k`. -/
def Spec.ExactRule (A B l u : ℝ) (k : ℕ) (R : List (ℝ × ℝ)) : Prop :=
  ∀ f : ℝ[X], f.natDegree ≤ k → (R.map fun q => q.2 * f.eval q.1).sum = betaE A B l u fun x => f.eval x

theorem ofFn_rule {n : ℕ} (R : Rule n) (f : ℝ[X]) :
    ((List.ofFn fun u => (R.p u, R.w u)).map fun q => q.2 * f.eval q.1).sum = ∑ u, R.w u * f.eval (R.p u) := by
  rw [List.map_ofFn, List.sum_ofFn]
  rfl

/-- C16 for uniform, beta and Chebyshev parameters whose bounds are given, for all orders from one on: the rules for the lower, the
upper and both end points are computed, have one point more than the order, contain the points asked for, and are exact to degree
`2n - 2` and `2n - 3`, `n` the number of points. Order zero and missing bounds: `c16_zero_violated`, `c16_bounds_violated`. -/
theorem c16_rules_partial {E : EighArgsort} (hE : EighArgsortOK E) {A B l u : ℝ} (hA : 0 < A) (hB : 0 < B) (hlu : l < u) (d : JacobiDist)
    (hd : d.shapeParameterA = B - 1 ∧ d.shapeParameterB = A - 1 ∧ d.lower = l ∧ d.upper = u) {order : ℕ} (ho : 1 ≤ order) :
    (∃ R, localQuadrature E (d.ruleParam (some l) (some u)) .lower order = .ok R ∧ R.length = order + 1 ∧ (∃ w, (l, w) ∈ R) ∧
      Spec.ExactRule A B l u (2 * R.length - 2) R) ∧
    (∃ R, localQuadrature E (d.ruleParam (some l) (some u)) .upper order = .ok R ∧ R.length = order + 1 ∧ (∃ w, (u, w) ∈ R) ∧
      Spec.ExactRule A B l u (2 * R.length - 2) R) ∧
    (∃ R, localQuadrature E (d.ruleParam (some l) (some u)) .both order = .ok R ∧ R.length = order + 1 ∧ (∃ w, (l, w) ∈ R) ∧
      (∃ w, (u, w) ∈ R) ∧ Spec.ExactRule A B l u (2 * R.length - 3) R) := by
  obtain ⟨N, rfl⟩ : ∃ N, order = N + 1 := ⟨order - 1, by omega⟩
  have hco : ∀ o, (d.ruleParam (some l) (some u)).coeffs o = rows (jacobiCoeffs (B - 1) (A - 1) l u o) := fun o => by
    simp only [JacobiDist.ruleParam, JacobiDist.coeffs, hd.1, hd.2.1, hd.2.2.1, hd.2.2.2]
  have rad : ∀ e, e = l ∨ e = u → ∃ R, radauRule E (d.ruleParam (some l) (some u)) (some e) (N + 1) = .ok R ∧ R.length = N + 1 + 1 ∧
      (∃ w, (e, w) ∈ R) ∧ Spec.ExactRule A B l u (2 * R.length - 2) R := by
    intro e he
    obtain ⟨⟨v, hv⟩, h2⟩ := c16_radau_beta A B l u hA hB hlu N e he _ _ (hE.eigh _ (jacobiMatrix_symm _ _)) _ (hE.argsort _)
    refine ⟨_, rfl, by simp [gaussRule], ?_, fun f hf => ?_⟩
    · rw [hco]
      exact ⟨_, List.mem_ofFn.2 ⟨v, Prod.ext hv rfl⟩⟩
    · simp only [gaussRule, List.length_ofFn] at hf ⊢
      rw [hco, ofFn_rule]
      exact h2 f (by omega)
  refine ⟨rad l (Or.inl rfl), rad u (Or.inr rfl), ?_⟩
  obtain ⟨-, ⟨v, hv⟩, ⟨v', hv'⟩, h2⟩ := c16_lobatto_beta A B l u hA hB hlu N _ _ (hE.eigh _ (jacobiMatrix_symm _ _)) _ (hE.argsort _)
  refine ⟨_, rfl, by simp [gaussRule], ?_, ?_, fun f hf => ?_⟩
  · rw [hco]
    exact ⟨_, List.mem_ofFn.2 ⟨v, Prod.ext hv rfl⟩⟩
  · rw [hco]
    exact ⟨_, List.mem_ofFn.2 ⟨v', Prod.ext hv' rfl⟩⟩
  · simp only [gaussRule, List.length_ofFn] at hf ⊢
    rw [hco, ofFn_rule]
    exact h2 f (by omega)

/-- C13 and C14 for the rule as it is returned: for uniform, beta and Chebyshev parameters and all orders from one on the rule without
end points has one point more than the order, positive weights, points in increasing order, and is exact to degree `2n - 1`, `n` the
number of points. (The one-point rule: C15.) -/
theorem c14_rule_beta {E : EighArgsort} (hE : EighArgsortOK E) {A B l u : ℝ} (hA : 0 < A) (hB : 0 < B) (hlu : l < u) (d : JacobiDist)
    (hd : d.shapeParameterA = B - 1 ∧ d.shapeParameterB = A - 1 ∧ d.lower = l ∧ d.upper = u) (lower upper : Option ℝ) {order : ℕ}
    (ho : 1 ≤ order) :
    ∃ R, localQuadrature E (d.ruleParam lower upper) .none order = .ok R ∧ R.length = order + 1 ∧ (∀ q ∈ R, 0 < q.2) ∧
      R.Pairwise (fun q r => q.1 < r.1) ∧ Spec.ExactRule A B l u (2 * R.length - 1) R := by
  obtain ⟨N, rfl⟩ : ∃ N, order = N + 1 := ⟨order - 1, by omega⟩
  have hco : ∀ o, (d.ruleParam lower upper).coeffs o = rows (jacobiCoeffs (B - 1) (A - 1) l u o) := fun o => by
    simp only [JacobiDist.ruleParam, JacobiDist.coeffs, hd.1, hd.2.1, hd.2.2.1, hd.2.2.2]
  have hb := beta_tab_pos hA hB hlu
  have hJ := hE.eigh _ (jacobiMatrix_symm (rows (jacobiCoeffs (B - 1) (A - 1) l u (N + 1 + 1))) (N + 1 + 1))
  have hJ' := hJ
  rw [jacobiMatrix_rows _ _ _ _ _ _ (by omega)] at hJ'
  have h13 := c13_gauss_weights (jtab (B - 1) (A - 1) l u) (N + 1) (fun k h _ => hb k h) (by simp [jtab, jacobiRow]; norm_num) _ _ hJ' _
    (hE.argsort _)
  have hab : rows (jacobiCoeffs (B - 1) (A - 1) l u (N + 1 + 2)) 0 = jtab (B - 1) (A - 1) l u 0 :=
    rows_jacobiCoeffs _ _ _ _ _ _ (by omega)
  have hq : ∀ (D : Fin (N + 1 + 1) → ℝ) V σ, quadratureOfEigh (rows (jacobiCoeffs (B - 1) (A - 1) l u (N + 1 + 2))) D V σ =
      quadratureOfEigh (jtab (B - 1) (A - 1) l u) D V σ := fun D V σ => by
    simp only [quadratureOfEigh, hab]
  refine ⟨_, rfl, by simp [gaussRule], ?_, ?_, fun f hf => ?_⟩
  · intro q hmem
    simp only [gaussRule] at hmem
    rw [hco, hco, hq, jacobiMatrix_rows _ _ _ _ _ _ (by omega)] at hmem
    obtain ⟨v, rfl⟩ := List.mem_ofFn.1 hmem
    exact h13.2.1 v
  · simp only [gaussRule]
    rw [hco, hco, hq, jacobiMatrix_rows _ _ _ _ _ _ (by omega), List.pairwise_ofFn]
    exact fun i j hij => h13.1 hij
  · simp only [gaussRule, List.length_ofFn] at hf ⊢
    rw [hco, hco, ofFn_rule]
    exact c14_gauss_exact_beta A B l u hA hB hlu (N + 1) _ _ hJ _ (hE.argsort _) f (by omega)

/-- C16 is false for order zero: for every uniform parameter the rule asked to contain an end point is its midpoint, and asking for both
end points divides by zero. -/
theorem c16_zero_violated (E : EighArgsort) {l u : ℝ} (hlu : l < u) :
    (∀ s, s = Endpoints.lower ∨ s = Endpoints.upper →
      localQuadrature E ((mkUniform (some l) (some u)).ruleParam (some l) (some u)) s 0 = .ok [((l + u) / 2, 1)] ∧
      ∀ e w, e = l ∨ e = u → (e, w) ∉ [((l + u) / 2, (1 : ℝ))]) ∧
    localQuadrature E ((mkUniform (some l) (some u)).ruleParam (some l) (some u)) .both 0 = .error .zeroDivisionError := by
  have h1 : onePointRule (some l) (some u) (mkUniform (some l) (some u)).mean = ((l + u) / 2, 1) := by
    simp only [onePointRule, mkUniform]
    split_ifs
    · norm_num
      ring
    · norm_num
      ring
  refine ⟨fun s hs => ⟨?_, fun e w he => ?_⟩, rfl⟩
  · rcases hs with rfl | rfl <;>
      simp only [localQuadrature, radauRule, gaussRule, JacobiDist.ruleParam, h1]
  · rw [List.mem_singleton, Prod.mk.injEq]
    rintro ⟨h, -⟩
    rcases he with rfl | rfl <;> linarith

/-- C16 is false for parameters with default bounds: a uniform parameter without bounds has the law on `[0, 1]`, but every rule with end
points raises `TypeError`. -/
theorem c16_bounds_violated (E : EighArgsort) (order : ℕ) : ∀ s, s = Endpoints.lower ∨ s = Endpoints.upper ∨ s = Endpoints.both →
    (mkUniform none none).lower = 0 ∧ (mkUniform none none).upper = 1 ∧
    localQuadrature E ((mkUniform none none).ruleParam none none) s order = .error .typeError := by
  rintro s (rfl | rfl | rfl) <;> exact ⟨rfl, rfl, rfl⟩

open Classical in
/-- Routines that meet the contracts. -/
noncomputable def someEighArgsort : EighArgsort where
  eigh := fun J => if h : J.transpose = J then ((eigh_exists J h).choose, (eigh_exists J h).choose_spec.choose) else (0, 0)
  argsort := fun D => Tuple.sort D

theorem someEighArgsort_ok : EighArgsortOK someEighArgsort where
  eigh := fun J h => by
    simp only [someEighArgsort, dif_pos h]
    exact (eigh_exists J h).choose_spec.choose_spec
  argsort := fun D => ⟨Tuple.monotone_sort D⟩

/-- Non-vacuity: a uniform, a beta and a Chebyshev parameter. -/
example : ((mkUniform (some 1) (some 3)).shapeParameterA = (1 : ℝ) - 1 ∧ (mkUniform (some 1) (some 3)).shapeParameterB = (1 : ℝ) - 1 ∧
    (mkUniform (some 1) (some 3)).lower = 1 ∧ (mkUniform (some 1) (some 3)).upper = 3) ∧
    ((mkChebyshev 1 3).shapeParameterA = (1 / 2 : ℝ) - 1 ∧ (mkChebyshev 1 3).shapeParameterB = (1 / 2 : ℝ) - 1) ∧
    ∃ d, mkBeta 1 3 2 4 = some d ∧ d.shapeParameterA = (4 : ℝ) - 1 ∧ d.shapeParameterB = (2 : ℝ) - 1 := by
  refine ⟨⟨?_, ?_, rfl, rfl⟩, ⟨?_, ?_⟩, _, if_pos (by norm_num), rfl, rfl⟩ <;> norm_num [mkUniform, mkChebyshev]

end EQ.Param
