import Verif.Param.UniqueProps

/-!
# Gauss rules of laws given by samples of their density: C153
-/

namespace EQ.Param

open Polynomial EQ.ParamSpec

/-- What the quadrature routines use of a parameter whose recurrence coefficients are computed from samples `w` of its density at the
points `x` (`template.py:62-75`, `analytical.py:58-109`). -/
noncomputable def sampledParam (x w : List ℝ) (lower upper : Option ℝ) (mean : ℝ) : RuleParam := ⟨customCoeffs x w, lower, upper, mean⟩

/-- Facts about the table and the samples. -/
theorem sampled_facts (x w : List ℝ) (hlen : x.length = w.length) (hw : ∀ v ∈ w, 0 ≤ v) (hs : w.sum ≠ 0) :
    (∀ q ∈ customData x w, 0 < q.2) ∧
    (customData x w).map Prod.fst = ((x.zip w).filter fun q => q.2 ≠ 0).map Prod.fst ∧
    (∀ f : ℝ[X], dsum (customData x w) f = sampleE (x.zip w) fun t => f.eval t) ∧ dsum (customData x w) 1 = 1 := by
  have hsum : 0 < w.sum := lt_of_le_of_ne (List.sum_nonneg hw) (Ne.symm hs)
  have hz : x.zip (w.map fun v => v / w.sum) = (x.zip w).map fun q => (q.1, q.2 / w.sum) := by
    rw [List.zip_map_right]; rfl
  have hsnd : ((x.zip w).map Prod.snd) = w := by
    rw [List.map_snd_zip]; omega
  have key : ∀ f : ℝ[X], dsum (customData x w) f = sampleE (x.zip w) fun t => f.eval t := by
    intro f
    rw [dsum_customData, sampleE, hsnd, div_eq_mul_inv, ← List.sum_map_mul_right]
    congr 1
    apply List.map_congr_left
    intro q _
    rw [div_eq_mul_inv]; ring
  refine ⟨?_, ?_, key, ?_⟩
  · intro q hq
    rw [customData, hz, List.mem_filter, List.mem_map] at hq
    obtain ⟨⟨p, hp, rfl⟩, hne⟩ := hq
    have h1 : 0 ≤ p.2 := hw _ (List.of_mem_zip hp).2
    have h2 : p.2 ≠ 0 := by
      intro h; simp [h] at hne
    exact div_pos (lt_of_le_of_ne h1 (Ne.symm h2)) hsum
  · rw [customData, hz, List.filter_map, List.map_map]
    congr 1
    apply List.filter_congr
    intro q _
    simp [hs]
  · rw [key, sampleE]
    simp only [eval_one, mul_one]
    rw [hsnd, div_self hs]

/-- Points of a rule that is exact for a discrete law lie strictly inside its range. -/
theorem nodes_inside {data : List (ℝ × ℝ)} (hd : ∀ q ∈ data, 0 < q.2) {n : ℕ} (hcard : n + 1 < (data.map Prod.fst).toFinset.card)
    {R : List (ℝ × ℝ)} (hR : R.length = n + 1) (hw : ∀ q ∈ R, 0 < q.2) (hs : R.Pairwise fun q r => q.1 < r.1)
    (hx : ∀ f : ℝ[X], f.natDegree ≤ 2 * n + 1 → (R.map fun q => q.2 * f.eval q.1).sum = dsum data f) (g : ℝ[X]) (hg : g.natDegree ≤ 1)
    (hg0 : g ≠ 0) (hgd : ∀ q ∈ data, 0 ≤ g.eval q.1) : ∀ q ∈ R, 0 < g.eval q.1 := by
  intro r hr
  have hnd : (R.map Prod.fst).Nodup := (List.pairwise_map.2 hs : (R.map Prod.fst).Pairwise (· < ·)).imp fun h => h.ne
  set p : ℝ[X] := ∏ t ∈ (R.map Prod.fst).toFinset.erase r.1, (X - C t) with hp
  have hmon : p.Monic := monic_prod_of_monic _ _ fun t _ => monic_X_sub_C t
  have hrm : r.1 ∈ (R.map Prod.fst).toFinset := List.mem_toFinset.2 (List.mem_map_of_mem hr)
  have hdeg : p.natDegree = n := by
    rw [hp, natDegree_prod_of_monic _ _ fun t _ => monic_X_sub_C t]
    simp only [natDegree_X_sub_C, Finset.sum_const, smul_eq_mul, mul_one]
    rw [Finset.card_erase_of_mem hrm, List.toFinset_card_of_nodup hnd, List.length_map, hR]
    omega
  have hne : g * p ≠ 0 := mul_ne_zero hg0 hmon.ne_zero
  have hgp : (g * p).natDegree ≤ n + 1 := natDegree_mul_le.trans (by omega)
  -- the law gives the product a positive value
  have hpos : 0 < dsum data (g * (p * p)) := by
    have h1 := dsum_sq_pos data hd (g * p) hne (by omega)
    by_contra hcon
    have hnn : ∀ q ∈ data, 0 ≤ q.2 * (g * (p * p)).eval q.1 := fun q hq => by
      simp only [eval_mul]
      exact mul_nonneg (hd q hq).le (mul_nonneg (hgd q hq) (mul_self_nonneg _))
    have h0 : dsum data (g * (p * p)) = 0 := by
      refine le_antisymm (not_lt.1 hcon) ?_
      rw [dsum_apply]
      refine List.sum_nonneg fun z hz => ?_
      obtain ⟨q, hq, rfl⟩ := List.mem_map.1 hz
      exact hnn q hq
    rw [dsum_apply] at h0
    have hall : ∀ q ∈ data, q.2 * (g * (p * p)).eval q.1 = 0 := by
      intro q hq
      refine List.all_zero_of_le_zero_le_of_sum_eq_zero ?_ h0 (List.mem_map_of_mem (f := fun q => q.2 * (g * (p * p)).eval q.1) hq)
      intro z hz
      obtain ⟨q, hq, rfl⟩ := List.mem_map.1 hz
      exact hnn q hq
    refine h1.ne' ?_
    rw [dsum_apply]
    refine List.sum_eq_zero fun z hz => ?_
    obtain ⟨q, hq, rfl⟩ := List.mem_map.1 hz
    have := hall q hq
    simp only [eval_mul] at this ⊢
    calc q.2 * (g.eval q.1 * p.eval q.1 * (g.eval q.1 * p.eval q.1)) = g.eval q.1 * (q.2 * (g.eval q.1 * (p.eval q.1 * p.eval q.1))) := by ring
      _ = 0 := by rw [this, mul_zero]
  have h2 : (g * (p * p)).natDegree ≤ 2 * n + 1 := by
    refine natDegree_mul_le.trans ?_
    have : (p * p).natDegree ≤ n + n := natDegree_mul_le.trans (by omega)
    omega
  rw [← hx _ h2] at hpos
  -- all other terms of the rule vanish
  by_contra hcon
  refine absurd hpos (not_lt.2 ((List.sum_le_card_nsmul _ 0 fun z hz => ?_).trans (by simp)))
  obtain ⟨q, hq, rfl⟩ := List.mem_map.1 hz
  by_cases hqr : q.1 = r.1
  · simp only [eval_mul, hqr]
    exact mul_nonpos_of_nonneg_of_nonpos (hw q hq).le (mul_nonpos_of_nonpos_of_nonneg (not_lt.1 hcon) (mul_self_nonneg _))
  · have : p.eval q.1 = 0 := by
      rw [hp, eval_prod]
      refine Finset.prod_eq_zero (i := q.1) (Finset.mem_erase.2 ⟨hqr, List.mem_toFinset.2 (List.mem_map_of_mem hq)⟩) ?_
      simp
    simp [this]

/-- **C153.** For every finite set of samples of a density (non-negative, not all zero) and all orders from one on, with more than
`order + 1` distinct samples of non-zero density, and whatever the eigenvalue solver returns within its contract: the rule has one
point more than the order, positive weights and increasing points; it gives the expectation of every polynomial up to degree
`2 order + 1` under the discrete law with probabilities proportional to the samples of the density; and its points lie strictly inside every interval that
holds the samples of non-zero density. -/
theorem c153_rule {E : EighArgsort} (hE : EighArgsortOK E) (x w : List ℝ) (hlen : x.length = w.length) (hw : ∀ v ∈ w, 0 ≤ v) (hs : w.sum ≠ 0)
    (lower upper : Option ℝ) (mean : ℝ) {order : ℕ} (ho : 1 ≤ order)
    (hd : order + 1 < (((x.zip w).filter fun q => q.2 ≠ 0).map Prod.fst).toFinset.card) :
    ∃ R, localQuadrature E (sampledParam x w lower upper mean) .none order = .ok R ∧ R.length = order + 1 ∧ (∀ q ∈ R, 0 < q.2) ∧
      R.Pairwise (fun q r => q.1 < r.1) ∧
      (∀ f : ℝ[X], f.natDegree ≤ 2 * order + 1 → (R.map fun q => q.2 * f.eval q.1).sum = sampleE (x.zip w) fun t => f.eval t) ∧
      ∀ lo hi, (∀ q ∈ x.zip w, q.2 ≠ 0 → lo ≤ q.1 ∧ q.1 ≤ hi) → ∀ q ∈ R, lo < q.1 ∧ q.1 < hi := by
  obtain ⟨N, rfl⟩ : ∃ N, order = N + 1 := ⟨order - 1, by omega⟩
  obtain ⟨hpos, hset, hE1, hone⟩ := sampled_facts x w hlen hw hs
  set T := customT (customData x w) with hT
  have hcard : N + 1 + 1 < ((customData x w).map Prod.fst).toFinset.card := by rw [hset]; exact hd
  obtain ⟨hb, horth⟩ := customT_orthonormal (customData x w) hpos (N + 1 + 1) hcard
  have hrow : ∀ o k, 1 ≤ o → k ≤ o + 1 → customCoeffs x w o k = T k := fun o k h1 h2 => customCoeffs_eq x w o k h1 h2
  have h0 : (T 0).2 = 1 := by
    rw [hT, customT_zero]
    simpa [dsum_apply] using hone
  have hJm : jacobiMatrix (customCoeffs x w (N + 1 + 1)) (N + 1 + 1) = jacobiMatrix T (N + 1 + 1) :=
    jacobiMatrix_congr _ _ _ fun k hk => hrow _ k (by omega) (by omega)
  have hJ := hE.eigh _ (jacobiMatrix_symm T (N + 1 + 1))
  have h13 := c13_gauss_weights T (N + 1) (fun k h1 h2 => hb k h1 (by omega)) (by rw [h0]; exact one_pos) _ _ hJ _ (hE.argsort _)
  have hq : ∀ (D : Fin (N + 1 + 1) → ℝ) V σ, quadratureOfEigh (customCoeffs x w (N + 1 + 2)) D V σ = quadratureOfEigh T D V σ := fun D V σ => by
    simp only [quadratureOfEigh, hrow (N + 1 + 2) 0 (by omega) (by omega)]
  have hrule : ∃ R, localQuadrature E (sampledParam x w lower upper mean) .none (N + 1) = .ok R ∧ R = List.ofFn fun u =>
      ((quadratureOfEigh T (E.eigh (jacobiMatrix T (N + 1 + 1))).1 (E.eigh (jacobiMatrix T (N + 1 + 1))).2
        (E.argsort (E.eigh (jacobiMatrix T (N + 1 + 1))).1)).p u,
      (quadratureOfEigh T (E.eigh (jacobiMatrix T (N + 1 + 1))).1 (E.eigh (jacobiMatrix T (N + 1 + 1))).2
        (E.argsort (E.eigh (jacobiMatrix T (N + 1 + 1))).1)).w u) := by
    refine ⟨_, rfl, ?_⟩
    simp only [sampledParam, gaussRule]
    rw [hq, hJm]
  obtain ⟨R, hR, hRe⟩ := hrule
  have hl : R.length = N + 1 + 1 := by rw [hRe, List.length_ofFn]
  have hwt : ∀ q ∈ R, 0 < q.2 := by
    intro q hmem
    rw [hRe] at hmem
    obtain ⟨v, rfl⟩ := List.mem_ofFn.1 hmem
    exact h13.2.1 v
  have hinc : R.Pairwise (fun q r => q.1 < r.1) := by
    rw [hRe, List.pairwise_ofFn]
    exact fun i j hij => h13.1 hij
  have hex : ∀ f : ℝ[X], f.natDegree ≤ 2 * (N + 1) + 1 → (R.map fun q => q.2 * f.eval q.1).sum = dsum (customData x w) f := by
    intro f hf
    rw [hRe, ofFn_rule]
    refine (c14_gauss_exact T (N + 1) (fun k h1 h2 => hb k h1 h2) _ _ hJ _ (hE.argsort _)).2 (opoly T) (fun i hi t => ?_) _ (fun i j hi hj => ?_) f
      (by omega)
    · exact ((orthoTables_eq T (N + 1 + 2) t i (by omega)).1).symm
    · rw [horth i j hi hj, hone, h0]
  refine ⟨R, hR, hl, hwt, hinc, fun f hf => (hex f hf).trans (hE1 f), fun lo hi hb q hqR => ?_⟩
  have hdat : ∀ q ∈ customData x w, lo ≤ q.1 ∧ q.1 ≤ hi := by
    intro q hq
    have : q.1 ∈ (customData x w).map Prod.fst := List.mem_map_of_mem hq
    rw [hset] at this
    obtain ⟨r, hr, he⟩ := List.mem_map.1 this
    have := List.mem_filter.1 hr
    rw [← he]
    exact hb r this.1 (by simpa using this.2)
  have h1 := nodes_inside hpos hcard hl hwt hinc hex (X - C lo) (by simp) (X_sub_C_ne_zero lo) (fun q hq => by simpa using (hdat q hq).1) q hqR
  have h2 := nodes_inside hpos hcard hl hwt hinc hex (C hi - X) ((natDegree_sub_le _ _).trans (by simp))
    (by rw [← neg_sub]; exact neg_ne_zero.2 (X_sub_C_ne_zero hi)) (fun q hq => by simpa using (hdat q hq).2) q hqR
  simp only [eval_sub, eval_X, eval_C, sub_pos] at h1 h2
  exact ⟨h1, h2⟩

/-- **C153, uniqueness.** The rule does not depend on the eigenvalue solver, and it is symmetric about `c` if the samples are: if reflecting the
points leaves expectations of polynomials unchanged, the rule read backwards is its own mirror image. -/
theorem c153_unique {E : EighArgsort} (hE : EighArgsortOK E) (x w : List ℝ) (hlen : x.length = w.length) (hw : ∀ v ∈ w, 0 ≤ v) (hs : w.sum ≠ 0)
    (lower upper : Option ℝ) (mean : ℝ) {order : ℕ} (ho : 1 ≤ order)
    (hd : order + 1 < (((x.zip w).filter fun q => q.2 ≠ 0).map Prod.fst).toFinset.card) :
    (∀ E' : EighArgsort, EighArgsortOK E' → localQuadrature E' (sampledParam x w lower upper mean) .none order =
      localQuadrature E (sampledParam x w lower upper mean) .none order) ∧
    ∀ c, (∀ f : ℝ → ℝ, sampleE (x.zip w) (fun t => f (2 * c - t)) = sampleE (x.zip w) f) →
      ∃ R, localQuadrature E (sampledParam x w lower upper mean) .none order = .ok R ∧ R.reverse = R.map fun q => (2 * c - q.1, q.2) := by
  obtain ⟨R, h, hl, hwt, hinc, hex, -⟩ := c153_rule hE x w hlen hw hs lower upper mean ho hd
  have huniq : ∀ R' : List (ℝ × ℝ), R'.length = order + 1 → (∀ q ∈ R', 0 < q.2) → R'.Pairwise (fun q r => q.1 < r.1) →
      (∀ f : ℝ[X], f.natDegree ≤ 2 * order + 1 → (R'.map fun q => q.2 * f.eval q.1).sum = sampleE (x.zip w) fun t => f.eval t) → R' = R :=
    fun R' hl' hwt' hinc' hex' => gauss_unique (fun f => sampleE (x.zip w) fun t => f.eval t) (hl'.trans hl.symm) hinc' hinc hwt
      (fun f hf => hex' f (by omega)) (fun f hf => hex f (by omega))
  refine ⟨fun E' hE' => ?_, fun c hc => ⟨R, h, ?_⟩⟩
  · obtain ⟨R', h', hl', hwt', hinc', hex', -⟩ := c153_rule hE' x w hlen hw hs lower upper mean ho hd
    rw [h, h', huniq R' hl' hwt' hinc' hex']
  · have key := huniq (R.reverse.map fun q => (2 * c - q.1, q.2)) (by simp [hl]) ?_ ?_ ?_
    · have h2 := congrArg List.reverse key
      rw [← List.map_reverse, List.reverse_reverse] at h2
      exact h2.symm
    · intro q hq
      obtain ⟨r, hr, rfl⟩ := List.mem_map.1 hq
      exact hwt r (List.mem_reverse.1 hr)
    · rw [List.pairwise_map, List.pairwise_reverse]
      exact hinc.imp fun h => by simp only; linarith
    · intro f hf
      have hcm := hex (f.comp (C (2 * c) - X)) (by
        rw [natDegree_comp]
        have : (C (2 * c) - X : ℝ[X]).natDegree ≤ 1 := (natDegree_sub_le _ _).trans (by rw [natDegree_C, natDegree_X]; simp)
        calc f.natDegree * (C (2 * c) - X : ℝ[X]).natDegree ≤ f.natDegree * 1 := Nat.mul_le_mul_left _ this
          _ ≤ _ := by omega)
      have e : ∀ t, (f.comp (C (2 * c) - X)).eval t = f.eval (2 * c - t) := fun t => by rw [eval_comp, eval_sub, eval_C, eval_X]
      simp only [e] at hcm
      rw [hc fun t => f.eval t] at hcm
      rw [← hcm, List.map_map, List.map_reverse, List.sum_reverse]
      rfl

/-- Four samples, one of them with density zero. -/
example : (∀ v ∈ ([1, 0, 2, 2, 1] : List ℝ), 0 ≤ v) ∧ ([1, 0, 2, 2, 1] : List ℝ).sum ≠ 0 ∧
    1 + 1 < (((([0, 1, 2, 3, 5] : List ℝ).zip [1, 0, 2, 2, 1]).filter fun q => q.2 ≠ 0).map Prod.fst).toFinset.card := by
  refine ⟨by simp, by norm_num, ?_⟩
  have : ((([0, 1, 2, 3, 5] : List ℝ).zip [1, 0, 2, 2, 1]).filter fun q => q.2 ≠ 0).map Prod.fst = [0, 2, 3, 5] := by
    simp
  rw [this, List.toFinset_card_of_nodup]
  · simp
  · norm_num

end EQ.Param
