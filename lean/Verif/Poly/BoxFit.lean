import Verif.Stats.GridProps
import Verif.Basis.FirstProps

/-!
# Fits on the tensor grid of the orders (C168)

The default mesh of least squares is the tensor grid of the orders (`poly.py:97-98`, modelled in `Poly/Setup`), whatever the index set.
-/

namespace EQ.Poly
open EQ.Param EQ.Basis EQ.Basis.Spec EQ.Sampling EQ.Sampling.Spec EQ.Poly.Spec EQ.Stats

/-! ## Lemmas -/

/-- Coordinate `i` of a point of the grid is a point of rule `i`. -/
theorem grid_coord (rules : List LocalRule) (hne : rules ≠ []) (hl : ∀ r ∈ rules, r.pts.length = r.wts.length) (pts : List (List ℝ)) (wts : List ℝ)
    (h : tensorGrid rules = .ok (pts, wts)) (x : List ℝ) (hx : x ∈ pts) (i : ℕ) (hi : i < rules.length) :
    ∃ t ∈ rules[i].pts, x[i]? = some t := by
  rw [tensorGrid_eq rules hne hl] at h
  obtain ⟨rfl, rfl⟩ := Prod.mk.inj (Except.ok.inj h)
  obtain ⟨idx, hidx, rfl⟩ := List.mem_map.1 hx
  have hlen := ixs_length _ _ hidx
  rw [List.length_map] at hlen
  have h1 := (List.forall₂_iff_get.1 ((mem_ixs _ _).1 hidx)).2 i (by omega) (by simpa using hi)
  simp only [List.get_eq_getElem, List.getElem_map] at h1
  refine ⟨rules[i].pts[idx[i]'(by omega)], List.getElem_mem _, ?_⟩
  unfold gridPoint
  rw [List.getElem?_eq_getElem (by simp; omega), List.getElem_zipWith, getD_of_lt _ _ _ h1]

/-- The polynomial of the next degree is constant on the points of a rule. -/
theorem next_constant (P : MParam) (hP : Valid P) (o : ℕ) : ∃ κ, ∀ t ∈ (P.localRule o).pts, univ P (o + 1) t = κ := by
  unfold MParam.localRule
  split_ifs with ho
  · exact ⟨univ P (o + 1) (onePointRule P.lower P.upper P.mean).1, by simp⟩
  · refine ⟨0, fun t ht => ?_⟩
    rw [List.mem_ofFn] at ht
    obtain ⟨u, rfl⟩ := ht
    rw [univ_eq, (rule_eq P.ab o (fun k h1 _ => hP.pos k h1) _ _ (hP.eigh o) _ (hP.sort o) u).1]
    exact nodes_are_roots P.ab o (fun k h1 _ => hP.pos k h1) _ _ (hP.eigh o) u

theorem univ_zero (P : MParam) (t : ℝ) : univ P 0 t = 1 := by
  rw [univ_eq, opoly]; simp

theorem basisFun_pure (params : List MParam) (i n : ℕ) (x : List ℝ) (hi : i < params.length) (hx : x.length = params.length) :
    basisFun params (purePower params.length i n) x = univ params[i] n (x[i]'(by omega)) := by
  induction params generalizing i x with
  | nil => simp at hi
  | cons P Ps ih =>
    cases x with
    | nil => simp at hx
    | cons a x =>
      have hx' : x.length = Ps.length := by simpa using hx
      cases i with
      | zero =>
        rw [basisFun_eq_prod _ _ _ (by simp [purePower]) hx]
        have h0 := basisFun_eq_prod Ps (List.replicate Ps.length 0) x (by simp) hx'
        rw [Sampling.basisFun_zero Ps x hx'] at h0
        simp only [purePower, List.length_cons, List.replicate_succ, List.set_cons_zero, List.zipWith_cons_cons, List.prod_cons]
        rw [← h0]
        simp
      | succ i =>
        have := ih i x (by simpa using hi) hx'
        rw [basisFun_eq_prod _ _ _ (by simp [purePower]) hx'] at this
        rw [basisFun_eq_prod _ _ _ (by simp [purePower]) hx]
        simp only [purePower, List.length_cons, List.replicate_succ, List.set_cons_succ, List.zipWith_cons_cons, List.prod_cons]
        simp only [purePower] at this
        rw [this, univ_zero]
        simp

/-- The index sets other than sparse grids whose rows stay within the orders. -/
theorem inside (r : Request) (d : ℕ) (hd : d ≠ 0) (ho : r.orders.length = d) (els : List (List ℕ)) (hset : r.setOrders = .ok els) (hq : 0 < r.q)
    (hkind : lower r.name ∈ ["tensor-grid".toList, "tensor".toList, "euclidean-degree".toList] ∨
      (lower r.name = "univariate".toList ∧ d = 1) ∨
      (lower r.name ∈ ["total-order".toList, "hyperbolic-basis".toList] ∧ ∃ h, r.orders = List.replicate d h)) :
    els.Nodup ∧ ∀ row ∈ els, List.Forall₂ (· ≤ ·) row r.orders := by
  have hne : r.orders ≠ [] := by rintro h; rw [h] at ho; exact hd ho.symm
  have hbox : ∀ (m : ℕ) (row : List ℕ), (∃ h, r.orders = List.replicate d h) → MaxOf m r.orders → row.length = r.orders.length → row.sum ≤ m →
      List.Forall₂ (· ≤ ·) row r.orders := by
    rintro m row ⟨h, hh⟩ hm hl hs
    have e : m = h := by have := hm.1; rw [hh] at this; exact (List.mem_replicate.1 this).2
    rw [hh]
    rw [forall2_replicate]
    refine ⟨by rw [hl, ho], fun x hx => ?_⟩
    have := List.single_le_sum (l := row) (by simp) x hx
    omega
  unfold Request.setOrders at hset
  simp only at hset
  split_ifs at hset with h1 h2 h3 h4 h5 h6
  · rcases hkind with h | h | ⟨-, h⟩
    · rw [h1] at h; exact absurd h (by decide)
    · rw [h1] at h; exact absurd h.1 (by decide)
    · obtain ⟨L, m, e, hm, hmem, hnd, -⟩ := c01_total_order _ hne
      rw [hset] at e
      obtain rfl := Except.ok.inj e
      exact ⟨hnd, fun row hr => hbox m row h hm ((hmem row).1 hr).1 ((hmem row).1 hr).2⟩
  · rcases hkind with h | h | ⟨h, -⟩
    · rw [h2] at h; exact absurd h (by decide)
    · obtain ⟨o, he⟩ := List.length_eq_one_iff.1 (ho.trans h.2)
      rw [he] at hset ⊢
      obtain rfl := Except.ok.inj hset
      refine ⟨List.nodup_range.map fun a b h => by simpa using h, ?_⟩
      intro row hr
      obtain ⟨c, hc, rfl⟩ := List.mem_map.1 hr
      rw [List.mem_range] at hc
      simp; omega
    · rw [h2] at h; exact absurd h (by decide)
  · rcases hkind with h | h | ⟨h, -⟩
    · rw [h3] at h; exact absurd h (by decide)
    · rw [h3] at h; exact absurd h.1 (by decide)
    · rw [h3] at h; exact absurd h (by decide)
  · obtain ⟨L, e, hmem, hnd, -⟩ := c02_tensor_grid _ hne
    rw [hset] at e
    obtain rfl := Except.ok.inj e
    exact ⟨hnd, fun row hr => (hmem row).1 hr⟩
  · rcases hkind with h | h | ⟨-, h⟩
    · rw [h5] at h; exact absurd h (by decide)
    · rw [h5] at h; exact absurd h.1 (by decide)
    · obtain ⟨L, m, e, hm, hmem, hnd, -⟩ := c04_hyperbolic _ r.q hq hne
      rw [hset] at e
      obtain rfl := Except.ok.inj e
      exact ⟨hnd, fun row hr => hbox m row h hm ((hmem row).1 hr).1 ((hmem row).1 hr).2.1⟩
  · obtain ⟨L, m, e, hm, hmem, hnd, -⟩ := c03_euclidean _ hne
    rw [hset] at e
    obtain rfl := Except.ok.inj e
    exact ⟨hnd, fun row hr => ((hmem row).1 hr).1⟩

/-! ## Properties -/

/-- C168, the part that holds: for the tensor-grid, Euclidean-degree and univariate index sets, and for the total-order and hyperbolic ones with the
same order in every direction, every polynomial of the index set is recovered from its values on the tensor grid of the orders, by numerical integration
and by least squares. Missing: total-order and hyperbolic index sets with different orders, see `c168_unequal_violated`. -/
theorem c168_recovery_partial (B : Expansion) (hB : Regular B) (hR : B.invR = none) (hne : B.params ≠ []) (hP : ∀ P ∈ B.params, Valid P) (r : Request)
    (ho : r.orders.length = B.dims) (hset : r.setOrders = .ok B.elements) (hq : 0 < r.q)
    (hkind : lower r.name ∈ ["tensor-grid".toList, "tensor".toList, "euclidean-degree".toList] ∨
      (lower r.name = "univariate".toList ∧ B.dims = 1) ∨
      (lower r.name ∈ ["total-order".toList, "hyperbolic-basis".toList] ∧ ∃ h, r.orders = List.replicate B.dims h)) :
    ∃ pts wts M, tensorGrid (localRules B.params r.orders) = .ok (pts, wts) ∧ B.getPoly none pts = .ok M ∧
      ∀ c : List ℝ, c.length = B.elements.length → ∃ ys, B.polyfit c pts = .ok ys ∧ B.integrate pts wts ys = .ok c ∧
        ∀ c', LstsqContract (designMatrix M wts) (rhs wts ys) M.length c' → c' = c := by
  have hd : B.dims ≠ 0 := by
    intro h; exact hne (List.length_eq_zero_iff.1 h)
  obtain ⟨hnd, hbox⟩ := inside r B.dims hd ho B.elements hset hq hkind
  obtain ⟨pts, wts, h1, -, h3, h4, h5, horth, hfit⟩ := grid_fit B hB hR hne hP r.orders ho hbox hnd
  -- the coefficients of an expansion are its sums against the basis
  have hco : ∀ z : List ℝ, z.length = B.elements.length → ∀ s < B.elements.length, z.getD s 0 = ∑ j ∈ Finset.range pts.length, wts.getD j 0 *
      (basisFun B.params (B.elements.getD s []) (pts.getD j []) * expansion B.params B.elements z (pts.getD j [])) := by
    intro z hz s hs
    have e : ∀ j ∈ Finset.range pts.length, wts.getD j 0 *
        (basisFun B.params (B.elements.getD s []) (pts.getD j []) * expansion B.params B.elements z (pts.getD j [])) =
        ∑ q ∈ Finset.range B.elements.length, z.getD q 0 * (wts.getD j 0 *
          (basisFun B.params (B.elements.getD s []) (pts.getD j []) * basisFun B.params (B.elements.getD q []) (pts.getD j []))) := by
      intro j _
      rw [sum_expansion _ _ _ hz, Finset.mul_sum, Finset.mul_sum]
      exact Finset.sum_congr rfl fun q _ => by ring
    rw [Finset.sum_congr rfl e, Finset.sum_comm]
    simp only [← Finset.mul_sum]
    rw [Finset.sum_eq_single s]
    · rw [horth s hs s hs]; simp
    · intro q hq hqs
      rw [horth s hs q (Finset.mem_range.1 hq), if_neg (fun h => hqs h.symm), mul_zero]
    · intro h; exact absurd (Finset.mem_range.2 hs) h
  obtain ⟨M, hM, -⟩ := c31_least_squares B hB pts h5 wts (pts.map fun _ => 0) h3 h4 (by simp)
  refine ⟨pts, wts, M, h1, hM, fun c hc => ⟨pts.map (expansion B.params B.elements c), ?_, ?_, fun c' hc' => ?_⟩⟩
  · rw [polyfit_eq B hB c hc pts h5, eff_none B hR]
  · obtain ⟨z, hz, hzl, hzr⟩ := hfit (pts.map (expansion B.params B.elements c)) (by simp)
    rw [hz]
    congr 1
    apply List.ext_getElem (by omega)
    intro s hs1 hs2
    have e1 := hzr s (by omega)
    rw [getD_of_lt _ _ _ hs1] at e1
    rw [e1, ← getD_of_lt c 0 s hs2, hco c hc s (by omega)]
    apply Finset.sum_congr rfl
    intro j hj
    rw [getD_map_lt _ _ _ _ (Finset.mem_range.1 hj), getD_of_lt pts [] j (Finset.mem_range.1 hj)]
  · obtain ⟨M', hM', hls⟩ := c31_least_squares B hB pts h5 wts (pts.map (expansion B.params B.elements c)) h3 h4 (by simp)
    rw [hM] at hM'
    obtain rfl := Except.ok.inj hM'
    obtain ⟨fit, hf, -, -, hun⟩ := hls c' hc'
    have hfe : ∀ z : List ℝ, z.length = B.elements.length → ∀ x ∈ pts, fit z x = expansion B.params B.elements z x := by
      intro z hz x hx
      have := hf z hz [x] (by simpa using h5 x hx)
      rw [polyfit_eq B hB z hz [x] (by simpa using h5 x hx), eff_none B hR] at this
      simpa using (Except.ok.inj this).symm
    apply hun c hc
    · exact List.map_congr_left fun x hx => (hfe c hc x hx).symm
    · intro z hz hz0 a ha
      obtain ⟨s, hs, rfl⟩ := List.getElem_of_mem ha
      rw [← getD_of_lt z 0 s hs, hco z hz s (by omega)]
      apply Finset.sum_eq_zero
      intro j hj
      have hm : pts.getD j [] ∈ pts := by rw [getD_of_lt _ _ _ (Finset.mem_range.1 hj)]; exact List.getElem_mem _
      rw [← hfe z hz _ hm, hz0 _ hm]
      simp

/-- C168 is false for every total-order and hyperbolic index set with different orders: in a direction `i` of less than the largest order, a polynomial
with a coefficient one vanishes on the whole grid. So no method whatever that works with the values on the grid recovers all polynomials of the index
set. -/
theorem c168_unequal_violated (B : Expansion) (hB : Regular B) (hR : B.invR = none) (hP : ∀ P ∈ B.params, Valid P) (r : Request)
    (ho : r.orders.length = B.dims) (hset : r.setOrders = .ok B.elements) (hq : 0 < r.q)
    (hkind : lower r.name ∈ ["total-order".toList, "hyperbolic-basis".toList])
    (i : ℕ) (hi : i < B.dims) (hlt : ∃ o ∈ r.orders, r.orders.getD i 0 < o) :
    ∃ pts wts, tensorGrid (localRules B.params r.orders) = .ok (pts, wts) ∧
      (∃ z : List ℝ, z.length = B.elements.length ∧ 1 ∈ z ∧ B.polyfit z pts = .ok (pts.map fun _ => 0)) ∧
      ¬ ∃ method : List ℝ → List ℝ, ∀ c : List ℝ, c.length = B.elements.length → ∀ ys, B.polyfit c pts = .ok ys → method ys = c := by
  have hd : B.params ≠ [] := by
    intro h; unfold Expansion.dims at hi; rw [h] at hi; simp at hi
  have hone : r.orders ≠ [] := by rintro h; rw [h] at ho; simp at ho; omega
  obtain ⟨pts, wts, h1, -, -, -, -, -, h5⟩ := c21_parameters B.params hd hP r.orders ho
  have h5 : ∀ x ∈ pts, x.length = B.dims := h5
  obtain ⟨m, -, hmax⟩ := npMax_ok hone
  have him : r.orders.getD i 0 + 1 ≤ m := by
    obtain ⟨o, ho1, ho2⟩ := hlt
    exact (Nat.succ_le_of_lt ho2).trans (hmax.2 o ho1)
  -- the rows of the constant and of the next degree belong to the index set
  have hmem : B.elements.Nodup ∧ purePower B.dims i (r.orders.getD i 0 + 1) ∈ B.elements ∧ zeroRow B.dims ∈ B.elements := by
    have hpure : ∀ n, n ≤ m → (purePower B.dims i n).sum = n := by
      intro n _
      have h1 := qnorm_one (purePower B.dims i n)
      rw [qnorm_purePower one_pos _ _ _ hi] at h1
      exact_mod_cast h1.symm
    simp only [List.mem_cons, List.not_mem_nil, or_false] at hkind
    rcases hkind with h | h
    · have e : r.setOrders = totalOrderBasis r.orders := by unfold Request.setOrders; simp only [h, if_true]
      obtain ⟨L, m', e', hm', hmm, hnd, -, -, hh⟩ := c01_total_order _ hone
      rw [hset, e'] at e
      obtain rfl := Except.ok.inj e
      obtain rfl := MaxOf.unique hmax hm'
      refine ⟨hnd, (hmm _).2 ⟨by simp [purePower, ho], by rw [hpure _ him]; exact him⟩, ?_⟩
      rw [← ho]; exact List.mem_of_mem_head? hh
    · have e : r.setOrders = hyperbolicBasis r.orders r.q := by
        unfold Request.setOrders; simp only [h]; rw [if_neg (by decide), if_neg (by decide), if_neg (by decide), if_neg (by decide), if_pos trivial]
      obtain ⟨L, m', e', hm', hmm, hnd, -, hh⟩ := c04_hyperbolic _ r.q hq hone
      have e2 := e.symm.trans hset
      have hp := c04_pure_powers r.orders r.q hq B.elements m e2 hmax i (r.orders.getD i 0 + 1) (by omega) him
      rw [e'] at e2
      obtain rfl := Except.ok.inj e2
      rw [ho] at hp
      refine ⟨hnd, hp, ?_⟩
      rw [← ho]; exact List.mem_of_mem_head? hh
  obtain ⟨hnd, hrow, hzero⟩ := hmem
  obtain ⟨a, ha, ha'⟩ := List.getElem_of_mem hrow
  obtain ⟨b, hb, hb'⟩ := List.getElem_of_mem hzero
  have hab : b ≠ a := by
    rintro rfl
    rw [ha'] at hb'
    have := congrArg (fun l : List ℕ => l.getD i 0) hb'
    simp [purePower, zeroRow, List.getD, hi] at this
  obtain ⟨κ, hκ⟩ := next_constant (B.params[i]'hi) (hP _ (List.getElem_mem _)) (r.orders.getD i 0)
  set z : List ℝ := (List.range B.elements.length).map fun k => if k = a then 1 else if k = b then -κ else 0 with hz
  have hzl : z.length = B.elements.length := by simp [hz]
  have hz1 : (1 : ℝ) ∈ z := List.mem_map.2 ⟨a, List.mem_range.2 ha, if_pos rfl⟩
  have hzD : ∀ k < B.elements.length, z.getD k 0 = if k = a then 1 else if k = b then -κ else 0 := by
    intro k hk
    rw [hz, getD_map_lt _ _ _ _ (by simpa using hk)]
    simp
  have hval : ∀ x ∈ pts, expansion B.params B.elements z x = 0 := by
    intro x hx
    have hxl := h5 x hx
    have hl : (localRules B.params r.orders).length = B.dims := by unfold localRules Expansion.dims; rw [List.length_zipWith, ho]; simp [Expansion.dims]
    obtain ⟨t, ht, hxt⟩ := grid_coord (localRules B.params r.orders) (by intro h; rw [h] at hl; simp at hl; omega)
      (localRules_len_eq B.params r.orders) pts wts h1 x hx i (by omega)
    have hxt' : x[i]'(by omega) = t := by
      rw [List.getElem?_eq_getElem (by omega)] at hxt; exact Option.some.inj hxt
    have ht' : t ∈ ((B.params[i]'hi).localRule (r.orders.getD i 0)).pts := by
      simp only [localRules, List.getElem_zipWith] at ht
      rwa [getD_of_lt _ _ _ (by omega)]
    rw [sum_expansion _ _ _ hzl, Finset.sum_eq_add_of_mem a b (Finset.mem_range.2 ha) (Finset.mem_range.2 hb) hab.symm]
    · rw [hzD a ha, hzD b hb, if_pos rfl, if_neg hab, if_pos rfl, getD_of_lt _ _ _ ha, getD_of_lt _ _ _ hb, ha', hb']
      have e1 := basisFun_pure B.params i (r.orders.getD i 0 + 1) x hi hxl
      have e2 := Sampling.basisFun_zero B.params x hxl
      rw [hxt', hκ t ht'] at e1
      change 1 * basisFun B.params (purePower B.params.length i _) x + -κ * basisFun B.params (List.replicate B.params.length 0) x = 0
      rw [e1, e2]
      ring
    · intro k hk hk'
      rw [hzD k (Finset.mem_range.1 hk), if_neg hk'.1, if_neg hk'.2, zero_mul]
  have hpz : B.polyfit z pts = .ok (pts.map fun _ => 0) := by
    rw [polyfit_eq B hB z hzl pts h5, eff_none B hR]
    congr 1
    exact List.map_congr_left hval
  refine ⟨pts, wts, h1, ⟨z, hzl, hz1, hpz⟩, ?_⟩
  rintro ⟨method, hm⟩
  have hp0 : B.polyfit (List.replicate B.elements.length 0) pts = .ok (pts.map fun _ => 0) := by
    rw [polyfit_eq B hB _ (by simp) pts h5, eff_none B hR]
    congr 1
    apply List.map_congr_left
    intro x _
    rw [sum_expansion _ _ _ (by simp)]
    apply Finset.sum_eq_zero
    intro k hk
    rw [getD_of_lt _ _ _ (by simpa using hk)]
    simp
  have e := (hm z hzl _ hpz).symm.trans (hm _ (by simp) _ hp0)
  rw [e] at hz1
  exact one_ne_zero (List.mem_replicate.1 hz1).2

/-- Two uniform inputs of orders two and one: the hypotheses of the violation are met. -/
example : ∃ P : MParam, Valid P ∧ Regular (Expansion.mk [P, P] [[0, 0], [0, 1], [1, 0], [0, 2], [1, 1], [2, 0]] none) ∧
    (⟨"Total-Order".toList, [2, 1], 0, .linear, 1⟩ : Request).setOrders = .ok [[0, 0], [0, 1], [1, 0], [0, 2], [1, 1], [2, 0]] ∧
    ∃ o ∈ [2, 1], [2, 1].getD 1 0 < o := by
  refine ⟨_, exists_uniform.choose_spec.valid, ⟨by simp, by simp [Expansion.dims], by simp [Expansion.dims], by simp [SquareOpt]⟩, ?_, ⟨2, by simp, by decide⟩⟩
  unfold Request.setOrders
  rfl

end EQ.Poly
