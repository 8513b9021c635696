import Verif.Param.EndProps

/-!
# Gauss rules are unique and symmetric: C151
-/

namespace EQ.Param

open Polynomial EQ.ParamSpec

/-- A rule applied to a polynomial. -/
def ruleSum (R : List (ℝ × ℝ)) (f : ℝ[X]) : ℝ := (R.map fun q => q.2 * f.eval q.1).sum

/-- The polynomial with roots at the given points. -/
noncomputable def nodePoly (xs : List ℝ) : ℝ[X] := (xs.map fun x => X - C x).prod

theorem nodePoly_natDegree (xs : List ℝ) : (nodePoly xs).natDegree = xs.length := by
  unfold nodePoly
  induction xs with
  | nil => simp
  | cons x xs ih =>
    rw [List.map_cons, List.prod_cons, natDegree_mul (X_sub_C_ne_zero x), natDegree_X_sub_C, ih, List.length_cons, add_comm]
    have : (xs.map fun x => X - C x).prod.Monic := by
      clear ih
      induction xs with
      | nil => simp
      | cons y ys ih => rw [List.map_cons, List.prod_cons]; exact (monic_X_sub_C y).mul ih
    exact this.ne_zero

theorem nodePoly_eval (xs : List ℝ) (t : ℝ) : (nodePoly xs).eval t = 0 ↔ t ∈ xs := by
  unfold nodePoly
  induction xs with
  | nil => simp
  | cons x xs ih =>
    rw [List.map_cons, List.prod_cons, eval_mul, mul_eq_zero, ih, List.mem_cons]
    simp [sub_eq_zero]

/-- A sum over a rule with only one term. -/
theorem ruleSum_one {R : List (ℝ × ℝ)} (hn : (R.map Prod.fst).Nodup) {q : ℝ × ℝ} (hq : q ∈ R) (f : ℝ[X])
    (h0 : ∀ r ∈ R, r.1 ≠ q.1 → f.eval r.1 = 0) : ruleSum R f = q.2 * f.eval q.1 := by
  unfold ruleSum
  induction R with
  | nil => simp at hq
  | cons r R ih =>
    rw [List.map_cons, List.nodup_cons] at hn
    rw [List.map_cons, List.sum_cons]
    rcases List.mem_cons.1 hq with rfl | hq'
    · have : (R.map fun q => q.2 * f.eval q.1).sum = 0 := by
        refine List.sum_eq_zero fun y hy => ?_
        obtain ⟨s, hs, rfl⟩ := List.mem_map.1 hy
        rw [h0 s (List.mem_cons_of_mem _ hs) fun e => hn.1 (List.mem_map.2 ⟨s, hs, e⟩), mul_zero]
      rw [this, add_zero]
    · have hr : r.1 ≠ q.1 := fun e => hn.1 (List.mem_map.2 ⟨q, hq', e.symm⟩)
      rw [h0 r List.mem_cons_self hr, mul_zero, zero_add]
      exact ih hn.2 hq' fun s hs => h0 s (List.mem_cons_of_mem _ hs)

/-- For every functional on polynomials: there is at most one rule with a given number of points in increasing order
and positive weights that is exact to degree `2n - 1`. -/
theorem gauss_unique (L : ℝ[X] → ℝ) {R R' : List (ℝ × ℝ)} (hlen : R.length = R'.length)
    (hs : R.Pairwise fun q r => q.1 < r.1) (hs' : R'.Pairwise fun q r => q.1 < r.1) (hw' : ∀ q ∈ R', 0 < q.2)
    (he : ∀ f : ℝ[X], f.natDegree ≤ 2 * R.length - 1 → ruleSum R f = L f)
    (he' : ∀ f : ℝ[X], f.natDegree ≤ 2 * R'.length - 1 → ruleSum R' f = L f) : R = R' := by
  have hx : (R.map Prod.fst).Pairwise (· < ·) := List.pairwise_map.2 hs
  have hx' : (R'.map Prod.fst).Pairwise (· < ·) := List.pairwise_map.2 hs'
  have hn : (R.map Prod.fst).Nodup := hx.imp fun h => h.ne
  have hn' : (R'.map Prod.fst).Nodup := hx'.imp fun h => h.ne
  -- the Lagrange polynomials
  have lag : ∀ (xs : List ℝ), xs.Nodup → ∀ x ∈ xs, ∃ g : ℝ[X], g.natDegree + 1 = xs.length ∧ g.eval x ≠ 0 ∧ ∀ y ∈ xs, y ≠ x → g.eval y = 0 := by
    intro xs hxs x hm
    refine ⟨nodePoly (xs.erase x), ?_, ?_, ?_⟩
    · rw [nodePoly_natDegree, List.length_erase_of_mem hm]
      have := List.length_pos_of_mem hm
      omega
    · rw [Ne, nodePoly_eval]
      exact fun h => (List.Nodup.not_mem_erase hxs) h
    · intro y hy hyx
      rw [nodePoly_eval]
      exact (List.mem_erase_of_ne hyx).2 hy
  -- the points of the second rule are points of the first
  have hsub : ∀ q ∈ R', q.1 ∈ R.map Prod.fst := by
    intro q hq
    obtain ⟨g, hg, hgq, hg0⟩ := lag _ hn' q.1 (List.mem_map_of_mem hq)
    rw [List.length_map] at hg
    have hdeg : (nodePoly (R.map Prod.fst) * g).natDegree ≤ 2 * R.length - 1 := by
      refine natDegree_mul_le.trans ?_
      rw [nodePoly_natDegree, List.length_map]
      omega
    have h1 := he _ hdeg
    have h2 := he' _ (hlen ▸ hdeg)
    have h3 : ruleSum R (nodePoly (R.map Prod.fst) * g) = 0 := by
      refine List.sum_eq_zero fun y hy => ?_
      obtain ⟨s, hs, rfl⟩ := List.mem_map.1 hy
      rw [eval_mul, (nodePoly_eval _ _).2 (List.mem_map_of_mem hs), zero_mul, mul_zero]
    rw [ruleSum_one hn' hq _ fun r hr hne => by rw [eval_mul, hg0 r.1 (List.mem_map_of_mem hr) hne, mul_zero], ← h1, h3, eval_mul] at h2
    rcases mul_eq_zero.1 h2 with h | h
    · exact absurd h (hw' q hq).ne'
    · rcases mul_eq_zero.1 h with h | h
      · exact (nodePoly_eval _ _).1 h
      · exact absurd h hgq
  have hperm : (R'.map Prod.fst).Perm (R.map Prod.fst) := by
    refine List.Subperm.perm_of_length_le (List.subperm_of_subset hn' fun y hy => ?_) (by simp [hlen])
    obtain ⟨q, hq, rfl⟩ := List.mem_map.1 hy
    exact hsub q hq
  have hpts : R'.map Prod.fst = R.map Prod.fst := hperm.eq_of_pairwise (fun a b _ _ h h' => absurd h (lt_asymm h')) hx' hx
  refine List.ext_getElem hlen fun k h1 h2 => ?_
  have e1 : (R[k]).1 = (R'[k]).1 := by
    have := List.getElem_of_eq hpts (i := k) (by simpa using h2)
    simpa using this.symm
  refine Prod.ext e1 ?_
  obtain ⟨g, hg, hgq, hg0⟩ := lag _ hn R[k].1 (List.mem_map_of_mem (List.getElem_mem h1))
  rw [List.length_map] at hg
  have h3 := he g (by omega)
  have h4 := he' g (by omega)
  rw [ruleSum_one hn (List.getElem_mem h1) g fun r hr hne => hg0 _ (List.mem_map_of_mem hr) hne] at h3
  rw [ruleSum_one hn' (List.getElem_mem h2) g fun r hr hne => hg0 _ (hpts ▸ List.mem_map_of_mem hr) (by rw [e1]; exact hne), ← h3, ← e1] at h4
  exact (mul_right_cancel₀ hgq h4).symm

/-- **C151, uniqueness.** For every uniform, beta or Chebyshev parameter and every order from one on: any rule with `order + 1` points in
increasing order and positive weights that is exact to degree `2 order + 1` is the rule returned. -/
theorem c151_unique {E : EighArgsort} (hE : EighArgsortOK E) {A B l u : ℝ} (hA : 0 < A) (hB : 0 < B) (hlu : l < u) (d : JacobiDist)
    (hd : d.shapeParameterA = B - 1 ∧ d.shapeParameterB = A - 1 ∧ d.lower = l ∧ d.upper = u) (lower upper : Option ℝ) {order : ℕ}
    (ho : 1 ≤ order) (R : List (ℝ × ℝ)) (hlen : R.length = order + 1) (hw : ∀ q ∈ R, 0 < q.2) (hs : R.Pairwise fun q r => q.1 < r.1)
    (hx : Spec.ExactRule A B l u (2 * order + 1) R) : localQuadrature E (d.ruleParam lower upper) .none order = .ok R := by
  obtain ⟨R', h, hlen', hw', hs', hx'⟩ := c14_rule_beta hE hA hB hlu d hd lower upper ho
  rw [h]
  congr 1
  refine gauss_unique (fun f => betaE A B l u fun x => f.eval x) (hlen'.trans hlen.symm) hs' hs hw hx' fun f hf => ?_
  exact hx f (by omega)

/-- **C151, independence of the eigenvalue solver.** Whatever eigenvectors and sorting permutation the solvers return, the rule is the
same. -/
theorem c151_solver {E E' : EighArgsort} (hE : EighArgsortOK E) (hE' : EighArgsortOK E') {A B l u : ℝ} (hA : 0 < A) (hB : 0 < B) (hlu : l < u)
    (d : JacobiDist) (hd : d.shapeParameterA = B - 1 ∧ d.shapeParameterB = A - 1 ∧ d.lower = l ∧ d.upper = u) (lower upper : Option ℝ)
    {order : ℕ} (ho : 1 ≤ order) :
    localQuadrature E (d.ruleParam lower upper) .none order = localQuadrature E' (d.ruleParam lower upper) .none order := by
  obtain ⟨R', h, hlen', hw', hs', hx'⟩ := c14_rule_beta hE' hA hB hlu d hd lower upper ho
  rw [h]
  refine c151_unique hE hA hB hlu d hd lower upper ho R' hlen' hw' hs' ?_
  rw [hlen'] at hx'
  exact hx'

/-- Expectations under a symmetric law. -/
theorem betaE_reflect (A l u : ℝ) (f : ℝ → ℝ) : betaE A A l u (fun x => f (l + u - x)) = betaE A A l u f := by
  unfold betaE
  congr 1
  have h := intervalIntegral.integral_comp_sub_left (fun x => f x * betaWeight A A l u x) (a := l) (b := u) (l + u)
  rw [add_sub_cancel_right, add_sub_cancel_left] at h
  rw [← h]
  refine intervalIntegral.integral_congr fun x _ => ?_
  simp only
  congr 1
  unfold betaWeight
  rw [show l + u - x - l = u - x by ring, show u - (l + u - x) = x - l by ring, mul_comm]

/-- **C151, symmetry.** For every law symmetric about the middle of its range (uniform, Chebyshev, beta with equal shapes) the rule
returned is symmetric: read backwards it is its own mirror image. -/
theorem c151_symmetric {E : EighArgsort} (hE : EighArgsortOK E) {A l u : ℝ} (hA : 0 < A) (hlu : l < u) (d : JacobiDist)
    (hd : d.shapeParameterA = A - 1 ∧ d.shapeParameterB = A - 1 ∧ d.lower = l ∧ d.upper = u) (lower upper : Option ℝ) {order : ℕ}
    (ho : 1 ≤ order) :
    ∃ R, localQuadrature E (d.ruleParam lower upper) .none order = .ok R ∧ R.reverse = R.map fun q => (l + u - q.1, q.2) := by
  obtain ⟨R, h, hlen, hw, hs, hx⟩ := c14_rule_beta hE hA hA hlu d hd lower upper ho
  refine ⟨R, h, ?_⟩
  have key : R.reverse.map (fun q => (l + u - q.1, q.2)) = R := by
    have := c151_unique hE hA hA hlu d hd lower upper ho (R.reverse.map fun q => (l + u - q.1, q.2)) (by simp [hlen]) ?_ ?_ ?_
    · rw [h] at this
      exact (Except.ok.inj this).symm
    · intro q hq
      obtain ⟨r, hr, rfl⟩ := List.mem_map.1 hq
      exact hw r (List.mem_reverse.1 hr)
    · rw [List.pairwise_map, List.pairwise_reverse]
      exact hs.imp fun h => by simp only; linarith
    · intro f hf
      have hc := hx (f.comp (C (l + u) - X)) (by
        rw [natDegree_comp, hlen]
        have : (C (l + u) - X : ℝ[X]).natDegree ≤ 1 := (natDegree_sub_le _ _).trans (by simp)
        calc f.natDegree * (C (l + u) - X : ℝ[X]).natDegree ≤ f.natDegree * 1 := Nat.mul_le_mul_left _ this
          _ ≤ _ := by omega)
      have e : ∀ x, (f.comp (C (l + u) - X)).eval x = f.eval (l + u - x) := fun x => by simp
      simp only [e] at hc
      rw [betaE_reflect A l u fun x => f.eval x] at hc
      rw [← hc, List.map_map, List.map_reverse, List.sum_reverse]
      rfl
  have h2 := congrArg List.reverse key
  rw [← List.map_reverse, List.reverse_reverse] at h2
  exact h2.symm

/-- Legendre points on `[-8, 8]`. -/
example (E : EighArgsort) (hE : EighArgsortOK E) : ∃ R, localQuadrature E ((mkUniform (some (-8)) (some 8)).ruleParam (some (-8)) (some 8)) .none 31 = .ok R ∧
    R.reverse = R.map fun q => (-8 + 8 - q.1, q.2) :=
  c151_symmetric hE one_pos (by norm_num) _ (by simp [mkUniform]) _ _ (by norm_num)

end EQ.Param
