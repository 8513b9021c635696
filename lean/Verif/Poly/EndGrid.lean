import Verif.Poly.FitProps
import Verif.Param.EndProps

/-!
# Numerical integration with prescribed end points (C144)

The tensor grid of parameters of which some ask for rules that contain an end point of the support.
-/

namespace EQ.Poly
open EQ.Param EQ.Basis EQ.Sampling EQ.Sampling.Spec Spec Polynomial

/-! ## Model -/

/-- A uniform, beta or Chebyshev `Parameter` (parameter.py:64-84): its distribution, the arguments `lower` and `upper` of the user and
the argument `endpoints`. -/
structure EParam where
  dist : JacobiDist
  lower : Option ℝ
  upper : Option ℝ
  endpoints : Endpoints

/-- What `get_poly` reads from the parameter (see `MParam`); `endpoints` has no influence on the polynomials. -/
noncomputable def EParam.mparam (E : EighArgsort) (p : EParam) : MParam :=
  let ab := jacobiRow p.dist.shapeParameterA p.dist.shapeParameterB p.dist.lower p.dist.upper
  { ab := ab, lower := p.lower, upper := p.upper, mean := p.dist.mean,
    eigD := fun n => (E.eigh (jacobiMatrix ab (n + 1))).1, eigV := fun n => (E.eigh (jacobiMatrix ab (n + 1))).2,
    argsort := fun n => E.argsort (E.eigh (jacobiMatrix ab (n + 1))).1 }

/-- tensorgrid.py:38 `self.parameters[u]._get_local_quadrature(orders[u])`: the rule selected by `endpoints`, as a list of points and a
list of weights. -/
noncomputable def EParam.rule (E : EighArgsort) (p : EParam) (order : ℕ) : Except Err LocalRule :=
  match localQuadrature E (p.dist.ruleParam p.lower p.upper) p.endpoints order with
  | .error e => .error e
  | .ok R => .ok ⟨R.map Prod.fst, R.map Prod.snd⟩

/-- tensorgrid.py:36-38: the rules in the order of the parameters; the first that raises ends the construction. -/
noncomputable def endRules (E : EighArgsort) : List EParam → List ℕ → Except Err (List LocalRule)
  | p :: ps, o :: os =>
    match p.rule E o with
    | .error e => .error e
    | .ok r =>
      match endRules E ps os with
      | .error e => .error e
      | .ok rs => .ok (r :: rs)
  | _, _ => .ok []

/-- tensorgrid.py:19-52 `_set_points` for such parameters. -/
noncomputable def endGrid (E : EighArgsort) (ps : List EParam) (orders : List ℕ) : Except Err (List (List ℝ) × List ℝ) :=
  match endRules E ps orders with
  | .error e => .error e
  | .ok rules => tensorGrid rules

/-! ## Specification -/

/-- The parameter has a Beta-type law on `[l, u]`, and the user gave the bounds if end points are asked for. -/
def Spec.BetaType (p : EParam) : Prop :=
  ∃ A B l u, 0 < A ∧ 0 < B ∧ l < u ∧
    (p.dist.shapeParameterA = B - 1 ∧ p.dist.shapeParameterB = A - 1 ∧ p.dist.lower = l ∧ p.dist.upper = u) ∧
    (p.endpoints ≠ .none → p.lower = some l ∧ p.upper = some u)

/-- The degrees for which the rule of the given order is expected to be good enough: up to the order, but below the order if both ends are
prescribed. -/
def Spec.Allowed (p : EParam) (order n : ℕ) : Prop :=
  match p.endpoints with
  | .both => n < order
  | .other => False
  | _ => n ≤ order

/-- All entries of a row are allowed. -/
def Spec.Inside : List EParam → List ℕ → List ℕ → Prop
  | p :: ps, o :: os, n :: row => Spec.Allowed p o n ∧ Spec.Inside ps os row
  | [], [], [] => True
  | _, _, _ => False

/-! ## Lemmas -/

/-- Rules under which the polynomials of the given degrees are orthonormal, dimension by dimension. -/
inductive OrthRows : List MParam → List LocalRule → List ℕ → List ℕ → Prop
  | nil : OrthRows [] [] [] []
  | cons {P Ps r rs a n b m} : r.pts.length = r.wts.length →
      (List.zipWith (fun x w => w * (univ P a x * univ P b x)) r.pts r.wts).sum = (if a = b then 1 else 0) →
      OrthRows Ps rs n m → OrthRows (P :: Ps) (r :: rs) (a :: n) (b :: m)

theorem OrthRows.lengths {Ps : List MParam} {rs : List LocalRule} {n m : List ℕ} (h : OrthRows Ps rs n m) :
    rs.length = Ps.length ∧ n.length = Ps.length ∧ m.length = Ps.length ∧ ∀ r ∈ rs, r.pts.length = r.wts.length := by
  induction h with
  | nil => simp
  | cons h1 _ _ ih =>
    refine ⟨by simp [ih.1], by simp [ih.2.1], by simp [ih.2.2.1], fun r hr => ?_⟩
    rcases List.mem_cons.1 hr with rfl | hr
    · exact h1
    · exact ih.2.2.2 r hr

theorem OrthRows.grid {params : List MParam} {rules : List LocalRule} {n m : List ℕ} (h : OrthRows params rules n m) :
    ((ixs (rules.map fun r => r.pts.length)).map fun idx =>
      gridWeight rules idx * (basisFun params n (gridPoint rules idx) * basisFun params m (gridPoint rules idx))).sum =
      if n = m then 1 else 0 := by
  obtain ⟨hr, hln, hlm, hlen⟩ := h.lengths
  let fs : List (ℝ → ℝ) := List.zipWith (fun f g => fun x => f x * g x)
    (List.zipWith (fun P n => univ P n) params n) (List.zipWith (fun P n => univ P n) params m)
  have hfs : fs.length = rules.length := by simp [fs, hln, hlm, hr]
  have key := grid_sum_prod rules fs hfs hlen
  have e1 : ∀ x : List ℝ, x.length = params.length →
      basisFun params n x * basisFun params m x = (List.zipWith (fun f x => f x) fs x).prod := by
    intro x hx
    rw [basisFun_eq_prod _ _ _ hln hx, basisFun_eq_prod _ _ _ hlm hx]
    clear key hfs hr hlen
    simp only [fs]
    clear fs
    induction h generalizing x with
    | nil => simp
    | cons _ _ _ ih =>
      cases x with
      | nil => simp at hx
      | cons c x =>
        simp only [List.zipWith_cons_cons, List.prod_cons]
        rw [← ih (by simpa using hln) (by simpa using hlm) x (by simpa using hx)]
        ring
  have e2 : ∀ idx ∈ ixs (rules.map fun r => r.pts.length),
      gridWeight rules idx * (basisFun params n (gridPoint rules idx) * basisFun params m (gridPoint rules idx)) =
      gridWeight rules idx * (List.zipWith (fun f x => f x) fs (gridPoint rules idx)).prod := by
    intro idx hidx
    have hl := ixs_length _ _ hidx
    rw [e1]
    simp only [gridPoint, List.length_zipWith]
    rw [List.length_map] at hl
    rw [hl, hr, Nat.min_self]
  rw [List.map_congr_left e2, key]
  clear key e1 e2 hfs hr hln hlm hlen
  simp only [fs]
  clear fs
  induction h with
  | nil => simp
  | @cons P Ps r rs a n b m _ h2 _ ih =>
    simp only [List.zipWith_cons_cons, List.prod_cons] at ih ⊢
    rw [ih, h2]
    by_cases h1 : a = b <;> by_cases h2 : n = m <;> simp [h1, h2]

/-- Exact recovery on a mesh on which the basis is orthonormal. -/
theorem integrate_recovers (B : Expansion) (hB : Regular B) (hR : B.invR = none) (pts : List (List ℝ)) (wts : List ℝ)
    (hp : ∀ x ∈ pts, x.length = B.dims) (hw : wts.length = pts.length) (hpos : ∀ w ∈ wts, 0 ≤ w)
    (horth : ∀ n ∈ B.elements, ∀ m ∈ B.elements, ∑ j ∈ Finset.range pts.length, wts.getD j 0 *
      (basisFun B.params n (pts.getD j []) * basisFun B.params m (pts.getD j [])) = if n = m then 1 else 0)
    (hnd : B.elements.Nodup) (c : List ℝ) (hc : c.length = B.elements.length) :
    B.integrate pts wts (pts.map (expansion B.params B.elements c)) = .ok c := by
  rw [integrate_plain B hB (.inr hR) pts hp wts _ hw hpos (by simp)]
  congr 1
  apply List.ext_getElem
  · simp [hc]
  · intro r hr1 hr2
    have hr : r < B.elements.length := by simpa using hr1
    rw [List.getElem_map]
    have e : ∀ j ∈ Finset.range pts.length,
        wts.getD j 0 * (basisFun B.params B.elements[r] (pts.getD j []) *
          (pts.map (expansion B.params B.elements c)).getD j 0) =
        ∑ s ∈ Finset.range B.elements.length, c.getD s 0 * (wts.getD j 0 *
          (basisFun B.params B.elements[r] (pts.getD j []) *
           basisFun B.params (B.elements.getD s []) (pts.getD j []))) := by
      intro j hj
      rw [Finset.mem_range] at hj
      rw [getD_map_lt _ _ _ _ hj, ← getD_of_lt pts [] j hj, sum_expansion _ _ _ hc, Finset.mul_sum, Finset.mul_sum]
      apply Finset.sum_congr rfl
      intro s _
      ring
    rw [Finset.sum_congr rfl e, Finset.sum_comm]
    have e2 : ∀ s ∈ Finset.range B.elements.length,
        ∑ j ∈ Finset.range pts.length, c.getD s 0 * (wts.getD j 0 *
          (basisFun B.params B.elements[r] (pts.getD j []) *
           basisFun B.params (B.elements.getD s []) (pts.getD j []))) =
        if s = r then c.getD r 0 else 0 := by
      intro s hs
      rw [Finset.mem_range] at hs
      rw [← Finset.mul_sum, horth _ (List.getElem_mem hr) _
        (by rw [getD_of_lt _ _ _ hs]; exact List.getElem_mem hs), getD_of_lt _ _ _ hs]
      by_cases h : s = r
      · subst h; simp
      · rw [if_neg h, if_neg, mul_zero]
        intro h'
        exact h ((hnd.getElem_inj_iff.1 h').symm)
    rw [Finset.sum_congr rfl e2, Finset.sum_ite_eq', if_pos (Finset.mem_range.2 hr), getD_of_lt _ _ _ hr2]

/-- From exactness to orthonormality. -/
theorem exact_orth {A B l u : ℝ} (hA : 0 < A) (hB : 0 < B) (hlu : l < u) (P : MParam) (hab : P.ab = jtab (B - 1) (A - 1) l u)
    {R : List (ℝ × ℝ)} {k : ℕ} (hR : Param.Spec.ExactRule A B l u k R) {i j : ℕ} (hij : i + j ≤ k) :
    (List.zipWith (fun x w => w * (univ P i x * univ P j x)) (R.map Prod.fst) (R.map Prod.snd)).sum = if i = j then 1 else 0 := by
  have hb := beta_tab_pos hA hB hlu
  have d1 : ∀ n, (opoly (jtab (B - 1) (A - 1) l u) n).natDegree = n := fun n => (opoly_degree _ n fun k h _ => hb k h).1
  have h := hR (opoly (jtab (B - 1) (A - 1) l u) i * opoly (jtab (B - 1) (A - 1) l u) j)
    (natDegree_mul_le.trans (by rw [d1, d1]; exact hij))
  simp only [eval_mul] at h
  rw [beta_orthonormal hA hB hlu i j] at h
  rw [← h, List.zipWith_map, List.zipWith_self]
  simp only [univ_eq, hab]

theorem gaussRule_nonneg (E : EighArgsort) (P : RuleParam) (abJ ab : Table) (h : 0 ≤ (ab 0).2) (n : ℕ) :
    ∀ q ∈ gaussRule E P abJ ab n, 0 ≤ q.2 := by
  intro q hq
  cases n with
  | zero =>
    simp only [gaussRule, List.mem_singleton] at hq
    subst hq
    unfold onePointRule
    rcases P.lower with _ | l <;> rcases P.upper with _ | u <;> simp <;> (try split_ifs) <;> norm_num
  | succ n =>
    simp only [gaussRule] at hq
    obtain ⟨v, rfl⟩ := List.mem_ofFn.1 hq
    exact mul_nonneg h (sq_nonneg _)

theorem orth_zero (P : MParam) (q : ℝ × ℝ) (hq : q.2 = 1) :
    (List.zipWith (fun x w => w * (univ P 0 x * univ P 0 x)) ([q].map Prod.fst) ([q].map Prod.snd)).sum = if 0 = 0 then 1 else 0 := by
  simp [univ_eq, opoly, hq]

theorem onePointRule_weight (lower upper : Option ℝ) (mean : ℝ) : (onePointRule lower upper mean).2 = 1 := by
  unfold onePointRule
  rcases lower with _ | l <;> rcases upper with _ | u <;> simp <;> (try split_ifs) <;> norm_num

theorem coeffs_zero {d : JacobiDist} {lower upper : Option ℝ} (o : ℕ) :
    (((d.ruleParam lower upper).coeffs o) 0).2 = 1 := by
  simp only [JacobiDist.ruleParam, JacobiDist.coeffs]
  rw [rows_jacobiCoeffs _ _ _ _ _ _ (by omega)]
  simp [jacobiRow]
  norm_num

/-- The rule of one parameter. -/
theorem rule_good {E : EighArgsort} (hE : EighArgsortOK E) (p : EParam) (hp : BetaType p) (o : ℕ)
    (hn : ∃ n, Allowed p o n) :
    ∃ r, p.rule E o = .ok r ∧ r.pts.length = r.wts.length ∧ (∀ w ∈ r.wts, 0 ≤ w) ∧ ∀ a b, Allowed p o a → Allowed p o b →
      (List.zipWith (fun x w => w * (univ (p.mparam E) a x * univ (p.mparam E) b x)) r.pts r.wts).sum = if a = b then 1 else 0 := by
  obtain ⟨A, B, l, u, hA, hB, hlu, hd, hbd⟩ := hp
  obtain ⟨d, lower, upper, e⟩ := p
  simp only at hd hbd
  have hab : ((⟨d, lower, upper, e⟩ : EParam).mparam E).ab = jtab (B - 1) (A - 1) l u := by
    simp only [EParam.mparam, hd.1, hd.2.1, hd.2.2.1, hd.2.2.2]
  have key : ∀ R k, localQuadrature E (d.ruleParam lower upper) e o = .ok R → (∀ q ∈ R, 0 ≤ q.2) →
      Param.Spec.ExactRule A B l u k R → (∀ a b, Allowed ⟨d, lower, upper, e⟩ o a → Allowed ⟨d, lower, upper, e⟩ o b → a + b ≤ k) →
      ∃ r, EParam.rule E ⟨d, lower, upper, e⟩ o = .ok r ∧ r.pts.length = r.wts.length ∧ (∀ w ∈ r.wts, 0 ≤ w) ∧ ∀ a b,
        Allowed ⟨d, lower, upper, e⟩ o a → Allowed ⟨d, lower, upper, e⟩ o b →
        (List.zipWith (fun x w => w * (univ (EParam.mparam E ⟨d, lower, upper, e⟩) a x *
          univ (EParam.mparam E ⟨d, lower, upper, e⟩) b x)) r.pts r.wts).sum = if a = b then 1 else 0 := by
    intro R k h1 h2 h3 h4
    refine ⟨⟨R.map Prod.fst, R.map Prod.snd⟩, by simp only [EParam.rule, h1], by simp, ?_, fun a b ha hb => ?_⟩
    · intro w hw
      obtain ⟨q, hq, rfl⟩ := List.mem_map.1 hw
      exact h2 q hq
    · exact exact_orth hA hB hlu _ hab h3 (h4 a b ha hb)
  have zero : ∀ q : ℝ × ℝ, localQuadrature E (d.ruleParam lower upper) e 0 = .ok [q] → q.2 = 1 →
      (∀ a, Allowed ⟨d, lower, upper, e⟩ 0 a → a = 0) →
      ∃ r, EParam.rule E ⟨d, lower, upper, e⟩ 0 = .ok r ∧ r.pts.length = r.wts.length ∧ (∀ w ∈ r.wts, 0 ≤ w) ∧ ∀ a b,
        Allowed ⟨d, lower, upper, e⟩ 0 a → Allowed ⟨d, lower, upper, e⟩ 0 b →
        (List.zipWith (fun x w => w * (univ (EParam.mparam E ⟨d, lower, upper, e⟩) a x *
          univ (EParam.mparam E ⟨d, lower, upper, e⟩) b x)) r.pts r.wts).sum = if a = b then 1 else 0 := by
    intro q h1 h2 h3
    refine ⟨⟨[q].map Prod.fst, [q].map Prod.snd⟩, by simp only [EParam.rule, h1], by simp, by simp [h2], fun a b ha hb => ?_⟩
    rw [h3 a ha, h3 b hb]
    exact orth_zero _ q h2
  have nn : ∀ e' ≠ Endpoints.other, ∀ o' R, localQuadrature E (d.ruleParam (some l) (some u)) e' o' = .ok R → ∀ q ∈ R, 0 ≤ q.2 := by
    intro e' he' o' R hR
    have hr : ∀ x : ℝ, radauRule E (d.ruleParam (some l) (some u)) (some x) o' = .ok R → ∀ q ∈ R, 0 ≤ q.2 := by
      intro x hx
      cases o' with
      | zero =>
        simp only [radauRule, Except.ok.injEq] at hx
        subst hx
        exact gaussRule_nonneg E _ _ _ (by rw [coeffs_zero]; norm_num) _
      | succ N =>
        simp only [radauRule, Except.ok.injEq] at hx
        subst hx
        refine gaussRule_nonneg E _ _ _ ?_ _
        simp only [radauTable]
        rw [Function.update_of_ne (by omega), coeffs_zero]
        norm_num
    cases e' with
    | none =>
      simp only [localQuadrature, Except.ok.injEq] at hR
      subst hR
      exact gaussRule_nonneg E _ _ _ (by rw [coeffs_zero]; norm_num) _
    | lower => exact hr l hR
    | upper => exact hr u hR
    | both =>
      cases o' with
      | zero => simp [localQuadrature, lobattoRule, JacobiDist.ruleParam] at hR
      | succ N =>
        simp only [localQuadrature, lobattoRule, JacobiDist.ruleParam, Except.ok.injEq] at hR
        subst hR
        refine gaussRule_nonneg E ⟨_, _, _, _⟩ _ _ ?_ _
        simp only [lobattoTable]
        rw [Function.update_of_ne (by omega)]
        have := coeffs_zero (d := d) (lower := some l) (upper := some u) (N + 1)
        simp only [JacobiDist.ruleParam] at this
        rw [this]
        norm_num
    | other => exact absurd rfl he'
  cases e with
  | none =>
    cases o with
    | zero => exact zero _ rfl (onePointRule_weight _ _ _) fun a ha => by simpa [Allowed] using ha
    | succ N =>
      obtain ⟨R, h1, h2, h3, -, h4⟩ := c14_rule_beta hE hA hB hlu d hd lower upper (order := N + 1) (by omega)
      exact key R _ h1 (fun q hq => (h3 q hq).le) h4 fun a b ha hb => by
        simp only [Allowed] at ha hb
        omega
  | lower =>
    obtain ⟨rfl, rfl⟩ := hbd (by simp)
    cases o with
    | zero => exact zero _ rfl (onePointRule_weight _ _ _) fun a ha => by simpa [Allowed] using ha
    | succ N =>
      obtain ⟨⟨R, h1, h2, -, h4⟩, -, -⟩ := c16_rules_partial hE hA hB hlu d hd (order := N + 1) (by omega)
      exact key R _ h1 (nn _ (by simp) _ _ h1) h4 fun a b ha hb => by
        simp only [Allowed] at ha hb
        omega
  | upper =>
    obtain ⟨rfl, rfl⟩ := hbd (by simp)
    cases o with
    | zero => exact zero _ rfl (onePointRule_weight _ _ _) fun a ha => by simpa [Allowed] using ha
    | succ N =>
      obtain ⟨-, ⟨R, h1, h2, -, h4⟩, -⟩ := c16_rules_partial hE hA hB hlu d hd (order := N + 1) (by omega)
      exact key R _ h1 (nn _ (by simp) _ _ h1) h4 fun a b ha hb => by
        simp only [Allowed] at ha hb
        omega
  | both =>
    obtain ⟨rfl, rfl⟩ := hbd (by simp)
    obtain ⟨n, hn⟩ := hn
    cases o with
    | zero => simp [Allowed] at hn
    | succ N =>
      obtain ⟨-, -, R, h1, h2, -, -, h4⟩ := c16_rules_partial hE hA hB hlu d hd (order := N + 1) (by omega)
      exact key R _ h1 (nn _ (by simp) _ _ h1) h4 fun a b ha hb => by
        simp only [Allowed] at ha hb
        omega
  | other =>
    obtain ⟨n, hn⟩ := hn
    simp [Allowed] at hn

theorem endRules_good {E : EighArgsort} (hE : EighArgsortOK E) (ps : List EParam) (hps : ∀ p ∈ ps, BetaType p) :
    ∀ (os row : List ℕ), Inside ps os row →
    ∃ rules, endRules E ps os = .ok rules ∧ (∀ r ∈ rules, ∀ w ∈ r.wts, 0 ≤ w) ∧
      ∀ n m, Inside ps os n → Inside ps os m → OrthRows (ps.map (EParam.mparam E)) rules n m := by
  induction ps with
  | nil =>
    intro os row h
    match os, row, h with
    | [], [], _ =>
      refine ⟨[], rfl, by simp, fun n m hn hm => ?_⟩
      match n, m, hn, hm with
      | [], [], _, _ => exact .nil
  | cons p ps ih =>
    intro os row h
    match os, row, h with
    | o :: os, a :: row, h =>
      obtain ⟨r, h1, h2, h3, h4⟩ := rule_good hE p (hps p (by simp)) o ⟨a, h.1⟩
      obtain ⟨rs, g1, g2, g3⟩ := ih (fun q hq => hps q (by simp [hq])) os row h.2
      refine ⟨r :: rs, by simp only [endRules, h1, g1], ?_, fun n m hn hm => ?_⟩
      · intro r' hr'
        rcases List.mem_cons.1 hr' with rfl | hr'
        · exact h3
        · exact g2 r' hr'
      · match n, m, hn, hm with
        | x :: n, y :: m, hn, hm => exact .cons h2 (h4 x y hn.1 hm.1) (g3 n m hn.2 hm.2)

theorem gridWeight_nonneg (rules : List LocalRule) (h : ∀ r ∈ rules, ∀ w ∈ r.wts, 0 ≤ w) (idx : List ℕ) : 0 ≤ gridWeight rules idx := by
  unfold gridWeight
  apply List.prod_nonneg
  intro x hx
  obtain ⟨i, hi, rfl⟩ := List.mem_iff_getElem.1 hx
  rw [List.getElem_zipWith]
  by_cases hk : idx[i]'(by simp at hi; omega) < (rules[i]'(by simp at hi; omega)).wts.length
  · rw [getD_of_lt _ _ _ hk]
    exact h _ (List.getElem_mem _) _ (List.getElem_mem _)
  · rw [List.getD_eq_default _ _ (by omega)]

/-! ## C144 -/

/-- C144, the part that holds: any number of parameters with Beta-type laws, any choice of end points, any orders, and any index set of
distinct rows whose entries do not exceed the order (stay below it where both end points are prescribed): numerical integration on the
tensor grid gives back the coefficients of every polynomial over the index set. The top degree with both end points:
`c144_both_violated`. -/
theorem c144_recovery_partial {E : EighArgsort} (hE : EighArgsortOK E) (ps : List EParam) (hne : ps ≠ []) (hps : ∀ p ∈ ps, BetaType p)
    (orders : List ℕ) (B : Expansion) (hB : Regular B) (hR : B.invR = none) (hP : B.params = ps.map (EParam.mparam E))
    (hbox : ∀ row ∈ B.elements, Inside ps orders row) (hnd : B.elements.Nodup) (c : List ℝ) (hc : c.length = B.elements.length) :
    ∃ pts wts, endGrid E ps orders = .ok (pts, wts) ∧
      B.integrate pts wts (pts.map (expansion B.params B.elements c)) = .ok c := by
  obtain ⟨row, hrow⟩ := List.exists_mem_of_ne_nil _ hB.ne
  obtain ⟨rules, h1, h2, h3⟩ := endRules_good hE ps hps orders row (hbox row hrow)
  obtain ⟨hr, -, -, hlen⟩ := (h3 row row (hbox row hrow) (hbox row hrow)).lengths
  have hne' : rules ≠ [] := by
    intro h
    rw [h] at hr
    simp at hr
    exact hne (by simpa using hr.symm)
  have h5 := tensorGrid_eq rules hne' hlen
  have hdims : B.dims = rules.length := by rw [hr, ← hP]; rfl
  refine ⟨_, _, by simp only [endGrid, h1]; exact h5, ?_⟩
  apply integrate_recovers B hB hR _ _ ?_ (by simp) ?_ ?_ hnd c hc
  · intro x hx
    obtain ⟨idx, hidx, rfl⟩ := List.mem_map.1 hx
    have hl := ixs_length _ _ hidx
    rw [List.length_map] at hl
    simp only [gridPoint, List.length_zipWith]
    omega
  · intro w hw
    obtain ⟨idx, hidx, rfl⟩ := List.mem_map.1 hw
    exact gridWeight_nonneg rules h2 idx
  · intro n hn m hm
    have := (h3 n m (hbox n hn) (hbox m hm)).grid
    rw [hP, ← this]
    set I := ixs (rules.map fun r => r.pts.length)
    conv_rhs => rw [map_eq_range I [], range_map_sum]
    rw [List.length_map]
    apply Finset.sum_congr rfl
    intro j hj
    rw [Finset.mem_range] at hj
    rw [getD_map_lt _ _ _ _ hj, getD_map_lt _ _ _ _ hj, getD_of_lt _ _ _ hj]

/-- The modified coefficient of the Lobatto table exceeds the original one. -/
theorem lobatto_larger {A B l u : ℝ} (hA : 0 < A) (hB : 0 < B) (hlu : l < u) (N : ℕ) :
    ((jtab (B - 1) (A - 1) l u) (N + 1)).2 < (lobattoTable (rows (jacobiCoeffs (B - 1) (A - 1) l u (N + 1))) l u N (N + 1)).2 := by
  set T := jtab (B - 1) (A - 1) l u with hT
  have hbj := beta_tab_pos hA hB hlu
  have hmp : ∀ i, i ≤ N + 1 → mpoly (rows (jacobiCoeffs (B - 1) (A - 1) l u (N + 1))) i = mpoly T i := fun i hi =>
    mpoly_congr _ _ i fun k hk => rows_jacobiCoeffs _ _ _ _ _ _ (by omega)
  have sgn : ∀ n, 0 < (mpoly T n).eval u ∧ 0 < (-1) ^ n * (mpoly T n).eval l := fun n =>
      mpoly_sign _ n (fun k h _ => hbj k h) 1 one_pos
        (betaL hA hB hlu) (beta_orth hA hB hlu n) l u (beta_pos_lower hA hB hlu)
        (beta_pos_upper hA hB hlu) n le_rfl
  have hrow : (lobattoTable (rows (jacobiCoeffs (B - 1) (A - 1) l u (N + 1))) l u N (N + 1)).2 =
       (u - l) * (mpoly T (N + 1)).eval l * (mpoly T (N + 1)).eval u /
        ((mpoly T (N + 1)).eval l * (mpoly T N).eval u - (mpoly T (N + 1)).eval u * (mpoly T N).eval l) := by
    rw [← hmp _ le_rfl, ← hmp N (by omega)]
    simp only [lobattoTable, monicLoop_eq, mpoly_eval, Function.update_self]
  rw [hrow]
  have eu : (mpoly T (N + 2)).eval u = (u - (T (N + 1)).1) * (mpoly T (N + 1)).eval u - (T (N + 1)).2 * (mpoly T N).eval u := by
    simp [mpoly]
  have el : (mpoly T (N + 2)).eval l = (l - (T (N + 1)).1) * (mpoly T (N + 1)).eval l - (T (N + 1)).2 * (mpoly T N).eval l := by
    simp [mpoly]
  obtain ⟨a1, a2⟩ := sgn N
  obtain ⟨b1, b2⟩ := sgn (N + 1)
  obtain ⟨c1, c2⟩ := sgn (N + 2)
  have hs : ((-1 : ℝ) ^ N) ^ 2 = 1 := by rw [← pow_mul, mul_comm, pow_mul]; norm_num
  generalize (T (N + 1)).1 = α at *
  have hβ : 0 < (T (N + 1)).2 := hbj (N + 1) (by omega)
  generalize (T (N + 1)).2 = β at *
  rw [pow_succ] at b2
  rw [pow_add] at c2
  generalize (mpoly T (N + 2)).eval l = p2l at *
  generalize (mpoly T (N + 2)).eval u = p2u at *
  generalize (mpoly T (N + 1)).eval l = p1l at *
  generalize (mpoly T (N + 1)).eval u = p1u at *
  generalize (mpoly T N).eval l = p0l at *
  generalize (mpoly T N).eval u = p0u at *
  generalize (-1 : ℝ) ^ N = s at *
  have d : 0 < -s * (p1l * p0u - p1u * p0l) := by nlinarith [mul_pos b2 a1, mul_pos b1 a2]
  have e : (u - l) * p1l * p1u / (p1l * p0u - p1u * p0l) = (-s * ((u - l) * p1l * p1u)) / (-s * (p1l * p0u - p1u * p0l)) := by
    rw [mul_div_mul_left]
    intro h
    rw [h] at d
    simp at d
  rw [e, lt_div_iff₀ d]
  rw [eu] at c1
  rw [el] at c2
  linarith [mul_pos b2 c1, mul_pos b1 c2]

/-- The modified table changes the last polynomial by a factor only. -/
theorem lobatto_scale (ab : Table) (l u : ℝ) (N : ℕ) (hb : ∀ k, 1 ≤ k → k ≤ N + 1 → 0 < (ab k).2)
    (hT : 0 < (lobattoTable ab l u N (N + 1)).2) (x : ℝ) :
    √(ab (N + 1)).2 * (opoly ab (N + 1)).eval x =
      √(lobattoTable ab l u N (N + 1)).2 * (opoly (lobattoTable ab l u N) (N + 1)).eval x := by
  have hlow : ∀ k, k < N + 1 → lobattoTable ab l u N k = ab k := fun k hk => by
    simp only [lobattoTable]; rw [Function.update_of_ne (by omega)]
  have hbT : ∀ k, 1 ≤ k → k ≤ N + 1 → 0 < (lobattoTable ab l u N k).2 := by
    intro k h1 h2
    rcases Nat.lt_or_ge k (N + 1) with h3 | h3
    · rw [hlow k h3]; exact hb k h1 h2
    · obtain rfl : k = N + 1 := by omega
      exact hT
  have e := mpoly_congr (lobattoTable ab l u N) ab (N + 1) fun k hk => hlow k hk
  rw [mpoly_opoly _ _ hbT, mpoly_opoly _ _ hb] at e
  have e' := congrArg (Polynomial.eval x) e
  rw [eval_mul, eval_mul, eval_C, eval_C, Finset.prod_Icc_succ_top (by omega), Finset.prod_Icc_succ_top (by omega)] at e'
  have hp : ∏ k ∈ Finset.Icc 1 N, √(lobattoTable ab l u N k).2 = ∏ k ∈ Finset.Icc 1 N, √(ab k).2 :=
    Finset.prod_congr rfl fun k hk => by
      rw [Finset.mem_Icc] at hk
      rw [hlow k (by omega)]
  rw [hp, mul_assoc, mul_assoc] at e'
  refine (mul_left_cancel₀ ?_ e').symm
  refine (Finset.prod_pos fun k hk => ?_).ne'
  rw [Finset.mem_Icc] at hk
  exact Real.sqrt_pos.2 (hb k hk.1 (by omega))

theorem getD_ofFn {α : Type*} {n : ℕ} (f : Fin n → α) (v : Fin n) (d : α) : (List.ofFn f).getD v d = f v := by
  rw [getD_of_lt _ _ _ (by rw [List.length_ofFn]; exact v.2), List.getElem_ofFn]

theorem tensorGrid_one (r : LocalRule) :
    tensorGrid [r] = .ok (r.pts.map fun x => [x], r.wts) := by
  simp only [tensorGrid, List.foldl_cons, List.foldl_nil, EQ.Sampling.tensorStep, leftSide, rightSide, kronWeights]
  simp only [List.flatMap_cons, List.flatMap_nil, List.append_nil, List.length_cons, List.length_nil, List.replicate, List.flatten_cons,
    List.flatten_nil, Except.ok.injEq, Prod.mk.injEq]
  refine ⟨?_, ?_⟩
  · generalize r.pts = q
    induction q with
    | nil => rfl
    | cons a q ih => simpa [List.replicate_succ] using ih
  · norm_num

/-- C144, the part that fails: one parameter of any Beta-type law with both end points, of any order from one on, and the polynomials up to
that order. The values of the polynomial of top degree are fitted with a coefficient above one instead of one. (For order zero the
construction of the grid fails.) -/
theorem c144_both_violated {E : EighArgsort} (hE : EighArgsortOK E) {A B l u : ℝ} (hA : 0 < A) (hB : 0 < B) (hlu : l < u) (d : JacobiDist)
    (hd : d.shapeParameterA = B - 1 ∧ d.shapeParameterB = A - 1 ∧ d.lower = l ∧ d.upper = u) (N : ℕ) :
    (∃ pts wts c, endGrid E [⟨d, some l, some u, .both⟩] [N + 1] = .ok (pts, wts) ∧
      let P := EParam.mparam E ⟨d, some l, some u, .both⟩
      (⟨[P], (List.range (N + 2)).map fun i => [i], none⟩ : Expansion).integrate pts wts
        (pts.map fun x => univ P (N + 1) (x.getD 0 0)) = .ok c ∧ 1 < c.getD (N + 1) 0) ∧
    endGrid E [⟨d, some l, some u, .both⟩] [0] = .error .zeroDivisionError := by
  refine ⟨?_, rfl⟩
  have hbj := beta_tab_pos hA hB hlu
  set ab := rows (jacobiCoeffs (B - 1) (A - 1) l u (N + 1)) with habd
  have hco : (d.ruleParam (some l) (some u)).coeffs (N + 1) = ab := by
    simp only [JacobiDist.ruleParam, JacobiDist.coeffs, hd.1, hd.2.1, hd.2.2.1, hd.2.2.2, habd]
  have hrow : ∀ k, k ≤ N + 1 → ab k = jtab (B - 1) (A - 1) l u k := fun k hk => rows_jacobiCoeffs _ _ _ _ _ _ hk
  have hb : ∀ k, 1 ≤ k → k ≤ N + 1 → 0 < (ab k).2 := fun k h1 h2 => by rw [hrow k h2]; exact hbj k h1
  set T := lobattoTable ab l u N with hTd
  have hlarge : (ab (N + 1)).2 < (T (N + 1)).2 := by
    rw [hrow _ le_rfl]
    exact lobatto_larger hA hB hlu N
  have hTpos : 0 < (T (N + 1)).2 := (hb (N + 1) (by omega) le_rfl).trans hlarge
  have hTlow : ∀ k, k < N + 1 → T k = ab k := fun k hk => by
    simp only [hTd, lobattoTable]; rw [Function.update_of_ne (by omega)]
  have hbT : ∀ k, 1 ≤ k → k ≤ N + 1 → 0 < (T k).2 := by
    intro k h1 h2
    rcases Nat.lt_or_ge k (N + 1) with h3 | h3
    · rw [hTlow k h3]; exact hb k h1 h2
    · obtain rfl : k = N + 1 := by omega
      exact hTpos
  have h0 : (T 0).2 = 1 := by
    rw [hTlow 0 (by omega), hrow 0 (by omega)]; simp [jtab, jacobiRow]; norm_num
  have hJ := hE.eigh _ (jacobiMatrix_symm T (N + 2))
  set DV := E.eigh (jacobiMatrix T (N + 2)) with hDV
  have Rr := rule_eq T (N + 1) hbT DV.1 DV.2 hJ (E.argsort DV.1) (hE.argsort _)
  have hrule : EParam.rule E ⟨d, some l, some u, .both⟩ (N + 1) =
      .ok ⟨List.ofFn fun v => DV.1 v, List.ofFn fun v => (DV.2 0 v) ^ 2⟩ := by
    have e : localQuadrature E (d.ruleParam (some l) (some u)) .both (N + 1) =
        .ok (List.ofFn fun v => (DV.1 v, (DV.2 0 v) ^ 2)) := by
      have : localQuadrature E (d.ruleParam (some l) (some u)) .both (N + 1) =
          .ok (gaussRule E (d.ruleParam (some l) (some u)) (lobattoTable ((d.ruleParam (some l) (some u)).coeffs (N + 1)) l u N)
            (lobattoTable ((d.ruleParam (some l) (some u)).coeffs (N + 1)) l u N) (N + 1)) := rfl
      rw [this, hco]
      congr 1
      simp only [gaussRule]
      congr 1
      funext v
      rw [(Rr v).1, (Rr v).2, h0, one_mul]
    simp only [EParam.rule, e, List.map_ofFn]
    rfl
  let P := EParam.mparam E ⟨d, some l, some u, .both⟩
  have hab : P.ab = jtab (B - 1) (A - 1) l u := by simp only [P, EParam.mparam, hd.1, hd.2.1, hd.2.2.1, hd.2.2.2]
  let Q : Expansion := ⟨[P], (List.range (N + 2)).map fun i => [i], none⟩
  have hQ : Regular Q := ⟨by simp [Q], by simp [Q, Expansion.dims], fun _ => ⟨N + 1, rfl⟩, by simp [Q, SquareOpt]⟩
  have hgrid : endGrid E [⟨d, some l, some u, .both⟩] [N + 1] =
      .ok (List.ofFn fun v => [DV.1 v], List.ofFn fun v => (DV.2 0 v) ^ 2) := by
    simp only [endGrid, endRules, hrule]
    rw [tensorGrid_one]
    simp only [List.map_ofFn]
    rfl
  refine ⟨_, _, _, hgrid, integrate_plain Q hQ (.inl rfl) _ (by simp [Q, Expansion.dims]) _ _ (by simp) ?_ (by simp), ?_⟩
  · intro w hw
    obtain ⟨v, rfl⟩ := List.mem_ofFn.1 hw
    positivity
  · have hN : N + 1 < Q.elements.length := by simp [Q]
    rw [getD_map_lt _ _ _ _ hN]
    have hel : Q.elements[N + 1] = [N + 1] := by simp [Q]
    rw [hel, List.length_ofFn, ← Fin.sum_univ_eq_sum_range (fun j => _)]
    have e : ∀ v : Fin (N + 2), (List.ofFn fun v => DV.2 0 v ^ 2).getD v 0 *
        (basisFun Q.params [N + 1] ((List.ofFn fun v => [DV.1 v]).getD v []) *
          ((List.ofFn fun v => [DV.1 v]).map fun x => univ P (N + 1) (x.getD 0 0)).getD v 0) =
        (T (N + 1)).2 / (ab (N + 1)).2 * (DV.2 0 v ^ 2 * ((opoly T (N + 1)).eval (DV.1 v) * (opoly T (N + 1)).eval (DV.1 v))) := by
      intro v
      have sc := lobatto_scale ab l u N hb hTpos (DV.1 v)
      have hP : univ P (N + 1) (DV.1 v) = (opoly ab (N + 1)).eval (DV.1 v) := by
        rw [univ_eq, hab, opoly_rows _ _ _ _ _ _ le_rfl]
      have g1 : (List.ofFn fun v => DV.2 0 v ^ 2).getD v 0 = DV.2 0 v ^ 2 := getD_ofFn _ _ _
      have g2 : (List.ofFn fun v => [DV.1 v]).getD v [] = [DV.1 v] := getD_ofFn _ _ _
      rw [g1, g2, List.map_ofFn, getD_ofFn]
      have g3 : basisFun Q.params [N + 1] [DV.1 v] = univ P (N + 1) (DV.1 v) := by simp [basisFun, Q]
      rw [g3]
      simp only [Function.comp, List.getD_cons_zero]
      rw [hP]
      have hs1 := Real.sq_sqrt (hb (N + 1) (by omega) le_rfl).le
      have hs2 := Real.sq_sqrt hTpos.le
      have hne := (hb (N + 1) (by omega) le_rfl).ne'
      have sq : (ab (N + 1)).2 * ((opoly ab (N + 1)).eval (DV.1 v) * (opoly ab (N + 1)).eval (DV.1 v)) =
          (T (N + 1)).2 * ((opoly T (N + 1)).eval (DV.1 v) * (opoly T (N + 1)).eval (DV.1 v)) := by
        rw [← hs1, ← hs2]
        linear_combination (√(ab (N + 1)).2 * (opoly ab (N + 1)).eval (DV.1 v) + √(T (N + 1)).2 * (opoly T (N + 1)).eval (DV.1 v)) * sc
      rw [eq_comm, div_mul_eq_mul_div, div_eq_iff hne]
      linear_combination -(DV.2 0 v ^ 2) * sq
    rw [Finset.sum_congr rfl fun v _ => e v, ← Finset.mul_sum, discrete_orthonormal T (N + 1) hbT _ _ hJ _ _ (by omega) (by omega),
      if_pos rfl, mul_one, lt_div_iff₀ (hb (N + 1) (by omega) le_rfl), one_mul]
    exact hlarge

/-- A uniform parameter on `[0, 2]` with both end points, a `Beta(2, 3)` one on `[-1, 1]` with the upper end point, and a uniform one
without. -/
noncomputable example : ∃ ps : List EParam, ps.length = 3 ∧ (∀ p ∈ ps, BetaType p) ∧
    (∀ row ∈ [[0, 0, 0], [1, 0, 2], [1, 3, 1], [0, 3, 2]], Inside ps [2, 3, 2] row) ∧ ¬ Inside ps [2, 3, 2] [2, 0, 0] := by
  refine ⟨[⟨⟨0, 2, 0, 0, 1, 1 / 3⟩, some 0, some 2, .both⟩, ⟨⟨-1, 1, 2, 1, 0, 0⟩, some (-1), some 1, .upper⟩,
    ⟨⟨-1, 1, 0, 0, 0, 1 / 3⟩, none, none, .none⟩], rfl, ?_, ?_, ?_⟩
  · intro p hp
    simp only [List.mem_cons, List.not_mem_nil, or_false] at hp
    rcases hp with rfl | rfl | rfl
    · exact ⟨1, 1, 0, 2, by norm_num, by norm_num, by norm_num, by norm_num, fun _ => ⟨rfl, rfl⟩⟩
    · exact ⟨2, 3, -1, 1, by norm_num, by norm_num, by norm_num, by norm_num, fun _ => ⟨rfl, rfl⟩⟩
    · exact ⟨1, 1, -1, 1, by norm_num, by norm_num, by norm_num, by norm_num, fun h => absurd rfl h⟩
  · intro row hrow
    simp only [List.mem_cons, List.not_mem_nil, or_false] at hrow
    rcases hrow with rfl | rfl | rfl | rfl <;> simp [Inside, Allowed]
  · simp [Inside, Allowed]

/-- `eigh` and `argsort` with their contracts exist (`someEighArgsort_ok`), so that the grid of the theorem is reached. -/
example : ∃ E : EighArgsort, EighArgsortOK E := ⟨_, someEighArgsort_ok⟩

end EQ.Poly
