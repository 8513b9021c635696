import Verif.Stats.Props
import Verif.Poly.BoxFit

/-!
# The largest order of interactions considered by a polynomial: C180
-/

namespace EQ.Stats
open EQ.Basis EQ.Basis.Spec EQ.Param EQ.Poly EQ.Sampling EQ.Stats.Spec

/-! ## Model -/

/-- poly.py:12 and poly.py:328-334: the bound on the number of inputs of an interaction that `_set_statistics` hands to `Statistics`;
`highest` is the largest order of the parameters (poly.py:92). -/
def statOrder (name : List Char) (highest : ℕ) : ℕ :=
  if highest ≤ 8 ∧ (lower name = "total-order".toList ∨ lower name = "hyperbolic-basis".toList) then highest else 8

/-- poly.py:79-82: the basis keeps the orders it was made with; without any it takes those of the parameters. -/
def basisRequest (po : List ℕ) (r : Request) : Request := if r.orders = [] then { r with orders := po } else r

/-- poly.py:300-334 and stats.py:22-31: the Sobol' indices behind `get_sobol_indices` and `get_total_sobol_indices`, for parameters of orders `po`. -/
noncomputable def polySobol (po : List ℕ) (r : Request) (c : List ℝ) : Except Err Sobol := do
  let els ← (basisRequest po r).setOrders
  let highest ← npMax po
  allSobol c els po.length (some (statOrder r.name highest))

/-! ## Lemmas -/

theorem nonzero_count (row : List ℕ) : (nonzero row).length = (row.filter (· ≠ 0)).length := by
  unfold nonzero
  conv_rhs => rw [← map_range_getD row 0, List.filter_map, List.length_map]
  rfl

/-- Total indices with a bound on the order of interactions. -/
theorem total_bounded (c : List ℝ) (els : List (List ℕ)) (d : ℕ) (m : Option ℕ) (hd : 2 ≤ d) (h2 : 2 ≤ c.length) (hc : c.length = els.length)
    (hr : ∀ row ∈ els, row.length = d) :
    ∃ s T, allSobol c els d m = .ok s ∧ getSobolTotal s d = .ok T ∧ T.length = d ∧ ∀ i < d, T.getD i 0 =
      ∑ j ∈ Finset.range els.length, if (nonzero (els.getD j [])).length ≤ sobolOrder m d ∧ (els.getD j []).getD i 0 ≠ 0 then c.getD j 0 ^ 2 / varSum c else 0 := by
  obtain ⟨D, hD, hval⟩ := allSobol_ok c els d m hd h2
  generalize sobolOrder m d = b at *
  have hmem : ∀ key ∈ (List.range' 1 b).flatMap (combos d), key.Sublist (List.range d) ∧ 1 ≤ key.length ∧ key.length ≤ b := by
    intro key hkey
    rw [List.mem_flatMap] at hkey
    obtain ⟨o, h1, h3⟩ := hkey
    rw [List.mem_range'_1] at h1
    rw [mem_combos] at h3
    exact ⟨h3.1, by omega, by omega⟩
  obtain ⟨hT1, hT2⟩ := total_outer ((List.range' 1 b).flatMap (combos d)) D (List.replicate d 0) (by
    intro key hkey
    have := (hmem key hkey).1
    refine ⟨List.nodup_range.sublist this, fun p hp => ?_⟩
    simpa using this.subset hp)
  rw [List.length_replicate] at hT1 hT2
  refine ⟨_, _, hD, rfl, hT1, fun i hi => ?_⟩
  rw [hT2 i hi]
  have hrep : (List.replicate d (0 : ℝ)).getD i 0 = 0 := by simp
  have hflat : ∀ g : List ℕ → ℝ, (((List.range' 1 b).flatMap (combos d)).map g).sum = ((List.range' 1 b).map fun o => ((combos d o).map g).sum).sum := by
    intro g
    generalize List.range' 1 b = l
    induction l with
    | nil => rfl
    | cons a l ih => rw [List.flatMap_cons, List.map_append, List.sum_append, ih]; rfl
  rw [hrep, zero_add, show ((List.range' 1 b).flatMap (combos d)).map (fun key => if i ∈ key then D key else 0) =
    ((List.range' 1 b).flatMap (combos d)).map (fun key => if i ∈ key then share els c (varSum c) key else 0) from ?_, hflat,
    sum_share' els c d b hc hr (fun S => i ∈ S)]
  · apply Finset.sum_congr rfl
    intro j hj
    rw [Finset.mem_range] at hj
    have : i ∈ nonzero (els.getD j []) ↔ (els.getD j []).getD i 0 ≠ 0 := by
      rw [mem_nonzero, row_len els d hr j hj]; simp [hi]
    by_cases hij : i ∈ nonzero (els.getD j [])
    · have h1 : 1 ≤ (nonzero (els.getD j [])).length := List.length_pos_of_mem hij
      simp only [h1, hij, this.1 hij, true_and, and_true, ne_eq, not_false_eq_true]
    · rw [if_neg (fun h => hij h.2.2), if_neg (fun h => hij (this.2 h.2))]
  · apply List.map_congr_left
    intro key hkey
    obtain ⟨h1, h3, h4⟩ := hmem key hkey
    rw [hval key h1 h3 h4]

/-- A row with more inputs than the bound: the coefficient of that row alone. -/
theorem row_lost (els : List (List ℕ)) (d m : ℕ) (hd : 2 ≤ d) (hr : ∀ row ∈ els, row.length = d) (hz : els.head? = some (List.replicate d 0))
    (row : List ℕ) (hrow : row ∈ els) (hm : m < (row.filter (· ≠ 0)).length) :
    ∃ c : List ℝ, c.length = els.length ∧ variance c = .ok 1 ∧
      (∃ s T, allSobol c els d (some m) = .ok s ∧ getSobolTotal s d = .ok T ∧ T = List.replicate d 0) ∧
      ∃ s T, allSobol c els d none = .ok s ∧ getSobolTotal s d = .ok T ∧ ∀ i < d, row.getD i 0 ≠ 0 → T.getD i 0 = 1 := by
  obtain ⟨k, hk, rfl⟩ := List.getElem_of_mem hrow
  have hk0 : k ≠ 0 := by
    rintro rfl
    have := getD_zero_of_head hz
    rw [getD_of_lt _ _ _ hk] at this
    rw [this] at hm
    simp at hm
  set c : List ℝ := (List.range els.length).map fun j => if j = k then 1 else 0 with hcdef
  have hcl : c.length = els.length := by simp [hcdef]
  have hcD : ∀ j < els.length, c.getD j 0 = if j = k then 1 else 0 := by
    intro j hj
    rw [hcdef, getD_map_lt _ _ _ _ (by simpa using hj)]
    simp
  have h2 : 2 ≤ c.length := by omega
  have hvs : varSum c = 1 := by
    rw [varSum_eq, hcl, Finset.sum_eq_single k]
    · rw [hcD k hk]; simp [hk0]
    · intro j hj hjk
      rw [hcD j (Finset.mem_range.1 hj), if_neg hjk]; simp
    · intro h; exact absurd (Finset.mem_range.2 hk) h
  have hone : ∀ (p : ℕ → Prop) [DecidablePred p], ∑ j ∈ Finset.range els.length, (if p j then c.getD j 0 ^ 2 / varSum c else 0) = if p k then 1 else 0 := by
    intro p _
    rw [Finset.sum_eq_single k]
    · rw [hcD k hk, hvs]; simp
    · intro j hj hjk
      rw [hcD j (Finset.mem_range.1 hj), if_neg hjk]; simp
    · intro h; exact absurd (Finset.mem_range.2 hk) h
  refine ⟨c, hcl, by rw [variance_ok c h2, hvs], ?_, ?_⟩
  · obtain ⟨s, T, hs, hT, hTl, hTi⟩ := total_bounded c els d (some m) hd h2 hcl hr
    refine ⟨s, T, hs, hT, ?_⟩
    apply List.ext_getElem (by simp [hTl])
    intro i h1 h3
    have := hTi i (by omega)
    rw [hone, if_neg] at this
    · rw [← getD_of_lt T 0 i h1, this]; simp
    · rintro ⟨h, -⟩
      rw [nonzero_count, getD_of_lt _ _ _ hk] at h
      have hb : sobolOrder (some m) d ≤ m := by unfold sobolOrder; simp only; split_ifs <;> omega
      omega
  · obtain ⟨s, T, hs, hT, hTl, hTi⟩ := total_bounded c els d none hd h2 hcl hr
    refine ⟨s, T, hs, hT, fun i hi hne => ?_⟩
    rw [hTi i hi, hone, if_pos]
    refine ⟨?_, by rw [getD_of_lt _ _ _ hk]; exact hne⟩
    exact nonzero_length_le hr k hk

/-- The five index sets made from orders: no repetitions, the constant first, rows of the right length; rows of the graded sets have a sum at most the largest order. -/
theorem kinds (r : Request) (hq : 0 < r.q) (hne : r.orders ≠ [])
    (hkind : lower r.name ∈ ["tensor-grid".toList, "tensor".toList, "euclidean-degree".toList, "total-order".toList, "hyperbolic-basis".toList]) :
    ∃ els, r.setOrders = .ok els ∧ els.Nodup ∧ els.head? = some (List.replicate r.orders.length 0) ∧ (∀ row ∈ els, row.length = r.orders.length) ∧
      (lower r.name = "total-order".toList ∨ lower r.name = "hyperbolic-basis".toList → ∀ row ∈ els, ∃ m ∈ r.orders, row.sum ≤ m) := by
  unfold Request.setOrders
  simp only
  split_ifs with h1 h2 h3 h4 h5 h6
  · obtain ⟨L, m, e, hm, hmem, hnd, -, -, hz⟩ := c01_total_order _ hne
    exact ⟨L, e, hnd, hz, fun row hr => ((hmem row).1 hr).1, fun _ row hr => ⟨m, hm.1, ((hmem row).1 hr).2⟩⟩
  · rw [h2] at hkind; exact absurd hkind (by decide)
  · rw [h3] at hkind; exact absurd hkind (by decide)
  · obtain ⟨L, e, hmem, hnd, -, -, hz⟩ := c02_tensor_grid _ hne
    refine ⟨L, e, hnd, hz, fun row hr => ((hmem row).1 hr).length_eq, ?_⟩
    rintro (h | h)
    · exact absurd h h1
    · rcases h4 with h4 | h4 <;> (rw [h] at h4; exact absurd h4 (by decide))
  · obtain ⟨L, m, e, hm, hmem, hnd, -, hz⟩ := c04_hyperbolic _ r.q hq hne
    exact ⟨L, e, hnd, hz, fun row hr => ((hmem row).1 hr).1, fun _ row hr => ⟨m, hm.1, ((hmem row).1 hr).2.1⟩⟩
  · obtain ⟨L, m, e, hm, hmem, hnd, -, hz⟩ := c03_euclidean _ hne
    refine ⟨L, e, hnd, hz, fun row hr => ((hmem row).1 hr).1.length_eq, ?_⟩
    rintro (h | h)
    · exact absurd h h1
    · exact absurd h h5
  · exact absurd hkind (by simp_all)

theorem filter_le_sum (row : List ℕ) : (row.filter (· ≠ 0)).length ≤ row.sum := by
  induction row with
  | nil => simp
  | cons a row ih =>
    by_cases h : a = 0
    · simpa [h] using ih
    · simp only [List.filter_cons, ne_eq, h, not_false_eq_true, decide_true, if_true, List.length_cons, List.sum_cons]
      have : 1 ≤ a := Nat.one_le_iff_ne_zero.2 h
      simp only [ne_eq] at ih
      omega

theorem head_row (d k : ℕ) : ((List.replicate k 1 ++ List.replicate (d - k) 0 : List ℕ).filter (· ≠ 0)).length = k := by
  simp [List.filter_append]

theorem below_ones (k : ℕ) (po : List ℕ) (hk : k ≤ po.length) (hpos : ∀ o ∈ po, 1 ≤ o) : Below (List.replicate k 1 ++ List.replicate (po.length - k) 0) po := by
  unfold Below
  rw [List.forall₂_iff_get]
  refine ⟨by simp; omega, fun i h1 h3 => ?_⟩
  simp only [List.get_eq_getElem]
  have := hpos _ (List.getElem_mem h3)
  rw [List.getElem_append]
  split_ifs
  · simpa using this
  · simp

theorem ones_getD (k n i : ℕ) (h : i < k) : (List.replicate k 1 ++ List.replicate n 0 : List ℕ).getD i 0 ≠ 0 := by
  rw [List.getD_append _ _ _ _ (by simpa using h)]
  simp [h]

/-! ## Properties -/

/-- C180, the part that holds: for tensor-grid, tensor, Euclidean-degree, total-order and hyperbolic bases, the indices reported by a polynomial leave out no
interaction – over all orders the Sobol' indices sum to one, and every total index is the share of all the terms that contain the input – if the bound
chosen by the code cannot bite: for total-order and hyperbolic bases with parameters of order at most eight, if the orders of the basis do not exceed the largest
order of the parameters; in the other cases, if there are at most eight inputs.
Missing: bases with larger orders than the parameters and more than eight inputs, see `c180_orders_violated` and `c180_many_violated`. -/
theorem c180_complete_partial (po : List ℕ) (r : Request) (hq : 0 < r.q) (hd : 2 ≤ po.length) (hbo : r.orders = [] ∨ r.orders.length = po.length)
    (hkind : lower r.name ∈ ["tensor-grid".toList, "tensor".toList, "euclidean-degree".toList, "total-order".toList, "hyperbolic-basis".toList])
    (hbound : ((lower r.name = "total-order".toList ∨ lower r.name = "hyperbolic-basis".toList) ∧ (∀ o ∈ po, o ≤ 8) ∧ ∀ o ∈ r.orders, ∃ o' ∈ po, o ≤ o') ∨
      (¬ ((lower r.name = "total-order".toList ∨ lower r.name = "hyperbolic-basis".toList) ∧ ∀ o ∈ po, o ≤ 8) ∧ po.length ≤ 8)) :
    ∃ els, (basisRequest po r).setOrders = .ok els ∧ ∀ (c : List ℝ) (v : ℝ), c.length = els.length → variance c = .ok v → v ≠ 0 →
      ∃ s T, polySobol po r c = .ok s ∧ (∃ L : ℕ → List (List ℕ × ℝ), (∀ o, getSobol s o = .ok (L o)) ∧ ∑ o ∈ Finset.Icc 1 po.length, ((L o).map Prod.snd).sum = 1) ∧
        getSobolTotal s po.length = .ok T ∧ T.length = po.length ∧
        ∀ i < po.length, T.getD i 0 = ∑ j ∈ Finset.range els.length, if (els.getD j []).getD i 0 ≠ 0 then c.getD j 0 ^ 2 / v else 0 := by
  have hpo : po ≠ [] := by rintro rfl; simp at hd
  have hR : (basisRequest po r).q = r.q ∧ (basisRequest po r).name = r.name ∧ (basisRequest po r).orders.length = po.length ∧ (basisRequest po r).orders ≠ [] ∧
      ∀ o ∈ (basisRequest po r).orders, o ∈ po ∨ o ∈ r.orders := by
    unfold basisRequest
    split_ifs with h
    · exact ⟨rfl, rfl, rfl, hpo, fun o ho => .inl ho⟩
    · exact ⟨rfl, rfl, hbo.resolve_left h, h, fun o ho => .inr ho⟩
  obtain ⟨hq', hn', hl', hne', hor'⟩ := hR
  obtain ⟨els, hset, hnd, hz, hr, hsum⟩ := kinds (basisRequest po r) (by rw [hq']; exact hq) hne' (by rw [hn']; exact hkind)
  rw [hl'] at hz hr
  rw [hn'] at hsum
  obtain ⟨H, hH, hmax⟩ := npMax_ok hpo
  refine ⟨els, hset, fun c v hc hv hv0 => ?_⟩
  have h2 : 2 ≤ c.length := by
    by_contra h
    rcases c with _ | ⟨a, _ | ⟨b, c⟩⟩
    · cases els with
      | nil => simp at hz
      | cons => simp at hc
    · simp [variance] at hv
    · simp at h
  have hk : ∀ row ∈ els, (row.filter (· ≠ 0)).length ≤ statOrder r.name H := by
    intro row hrow
    unfold statOrder
    rcases hbound with ⟨h1, h3, h4⟩ | ⟨h1, h3⟩
    · rw [if_pos ⟨h3 H hmax.1, h1⟩]
      obtain ⟨m, hm, hsm⟩ := hsum h1 row hrow
      have hmH : m ≤ H := by
        rcases hor' m hm with h | h
        · exact hmax.2 m h
        · obtain ⟨o', ho', h5⟩ := h4 m h
          exact h5.trans (hmax.2 o' ho')
      exact (filter_le_sum row).trans (hsm.trans hmH)
    · rw [if_neg (fun h => h1 ⟨h.2, fun o ho => (hmax.2 o ho).trans h.1⟩)]
      exact (List.length_filter_le _ _).trans (by rw [hr row hrow]; exact h3)
  have hp : polySobol po r c = allSobol c els po.length (some (statOrder r.name H)) := by
    unfold polySobol
    rw [hset, hH]; rfl
  obtain ⟨s, hs, L, hL, -, -, -, hone⟩ := c37_sobol c els po.length (some (statOrder r.name H)) hd h2 hc hr hz hnd v hv hv0
  obtain ⟨s', T, hs', hT, hTl, hTi⟩ := total_bounded c els po.length (some (statOrder r.name H)) hd h2 hc hr
  obtain rfl : s = s' := by rw [hs] at hs'; exact Except.ok.inj hs'
  have hvv : v = varSum c := by rw [variance_ok c h2] at hv; exact (Except.ok.inj hv).symm
  refine ⟨s, T, by rw [hp, hs], ⟨L, hL, hone ?_⟩, hT, hTl, fun i hi => ?_⟩
  · intro k hk' j hj _
    obtain rfl := Option.some.inj hk'
    rw [getD_of_lt _ _ _ hj]
    exact hk _ (List.getElem_mem hj)
  · rw [hTi i hi, hvv]
    refine Finset.sum_congr rfl fun j hj => ?_
    rw [Finset.mem_range] at hj
    have h1 : (nonzero (els.getD j [])).length ≤ sobolOrder (some (statOrder r.name H)) po.length := by
      have h3 := nonzero_length_le hr j hj
      have h4 := hk _ (List.getElem_mem hj)
      rw [nonzero_count] at h3 ⊢
      rw [getD_of_lt _ _ _ hj] at h3 ⊢
      unfold sobolOrder
      simp only
      split_ifs <;> omega
    simp only [h1, true_and]

/-- C180 fails: parameters of order `h`, a total-order basis of a larger order `k`. There is a fit with variance one that is a pure interaction of `h + 1` inputs, for which
all reported total indices are zero, while those inputs have total index one when all orders are considered. -/
theorem c180_orders_violated (d h k level : ℕ) (g : Growth) (q : ℝ) (hd : 2 ≤ d) (hh : h ≤ 8) (hhd : h < d) (hk : h < k) :
    ∃ els, (basisRequest (List.replicate d h) ⟨"total-order".toList, List.replicate d k, level, g, q⟩).setOrders = .ok els ∧
      ∃ c : List ℝ, c.length = els.length ∧ variance c = .ok 1 ∧
        (∃ s, polySobol (List.replicate d h) ⟨"total-order".toList, List.replicate d k, level, g, q⟩ c = .ok s ∧ getSobolTotal s d = .ok (List.replicate d 0)) ∧
        ∃ s T, allSobol c els d none = .ok s ∧ getSobolTotal s d = .ok T ∧ ∀ i ≤ h, T.getD i 0 = 1 := by
  have hrk : List.replicate d k ≠ [] := by rw [ne_eq, List.replicate_eq_nil_iff]; omega
  have hrh : List.replicate d h ≠ [] := by rw [ne_eq, List.replicate_eq_nil_iff]; omega
  have hb : basisRequest (List.replicate d h) ⟨"total-order".toList, List.replicate d k, level, g, q⟩ = ⟨"total-order".toList, List.replicate d k, level, g, q⟩ := if_neg hrk
  obtain ⟨els, m, he, hm, hmem, hnd, -, -, hz⟩ := c01_total_order _ hrk
  obtain ⟨H, hH, hmax⟩ := npMax_ok hrh
  obtain rfl : H = h := (List.mem_replicate.1 hmax.1).2
  obtain rfl : m = k := (List.mem_replicate.1 hm.1).2
  have hset : (basisRequest (List.replicate d H) ⟨"total-order".toList, List.replicate d m, level, g, q⟩).setOrders = .ok els := by
    rw [hb]; exact he
  rw [List.length_replicate] at hz hmem
  have hrow : (List.replicate (H + 1) 1 ++ List.replicate (d - (H + 1)) 0 : List ℕ) ∈ els := by
    rw [hmem]; simp; omega
  obtain ⟨c, hc, hv, ⟨s, T, hs, hT, rfl⟩, ⟨s', T', hs', hT', h1⟩⟩ := row_lost els d H hd (fun row hr => ((hmem row).1 hr).1) hz _ hrow
    (by rw [head_row]; omega)
  refine ⟨els, hset, c, hc, hv, ⟨s, ?_, hT⟩, s', T', hs', hT', fun i hi => h1 i (by omega) ?_⟩
  · unfold polySobol
    rw [hset, hH, List.length_replicate]
    show allSobol c els d (some (statOrder _ H)) = _
    rw [statOrder, if_pos ⟨hh, .inl (show lower "total-order".toList = "total-order".toList by decide)⟩]
    exact hs
  · exact ones_getD _ _ i (by omega)

/-- C180 fails: nine or more inputs and a tensor-grid basis of orders at least one. There is a fit with variance one that is a pure interaction of nine inputs, for which
all reported total indices are zero, while those inputs have total index one when all orders are considered. -/
theorem c180_many_violated (po : List ℕ) (level : ℕ) (g : Growth) (q : ℝ) (hd : 9 ≤ po.length) (hpos : ∀ o ∈ po, 1 ≤ o) :
    ∃ els, (basisRequest po ⟨"tensor-grid".toList, [], level, g, q⟩).setOrders = .ok els ∧
      ∃ c : List ℝ, c.length = els.length ∧ variance c = .ok 1 ∧
        (∃ s, polySobol po ⟨"tensor-grid".toList, [], level, g, q⟩ c = .ok s ∧ getSobolTotal s po.length = .ok (List.replicate po.length 0)) ∧
        ∃ s T, allSobol c els po.length none = .ok s ∧ getSobolTotal s po.length = .ok T ∧ ∀ i ≤ 8, T.getD i 0 = 1 := by
  have hpo : po ≠ [] := by rintro rfl; simp at hd
  obtain ⟨els, he, hmem, hnd, -, -, hz⟩ := c02_tensor_grid po hpo
  obtain ⟨H, hH, hmax⟩ := npMax_ok hpo
  have hset : (basisRequest po ⟨"tensor-grid".toList, [], level, g, q⟩).setOrders = .ok els := he
  have hrow : (List.replicate 9 1 ++ List.replicate (po.length - 9) 0 : List ℕ) ∈ els := by
    rw [hmem]; exact below_ones 9 po hd hpos
  obtain ⟨c, hc, hv, ⟨s, T, hs, hT, rfl⟩, ⟨s', T', hs', hT', h1⟩⟩ := row_lost els po.length 8 (by omega) (fun row hr => ((hmem row).1 hr).length_eq) hz _ hrow
    (by rw [head_row]; omega)
  refine ⟨els, hset, c, hc, hv, ⟨s, ?_, hT⟩, s', T', hs', hT', fun i hi => h1 i (by omega) ?_⟩
  · unfold polySobol
    rw [hset, hH]
    show allSobol c els po.length (some (statOrder _ H)) = _
    rw [statOrder, if_neg (fun h => absurd h.2 (show ¬ (lower "tensor-grid".toList = "total-order".toList ∨ lower "tensor-grid".toList = "hyperbolic-basis".toList) by decide))]
    exact hs
  · exact ones_getD _ _ i (by omega)

/-- The hypotheses of `c180_complete_partial` are met: two inputs of order two, total order, basis without own orders. -/
example : 2 ≤ [2, 2].length ∧ lower "Total-Order".toList ∈ ["tensor-grid".toList, "tensor".toList, "euclidean-degree".toList, "total-order".toList, "hyperbolic-basis".toList] ∧
    ((lower "Total-Order".toList = "total-order".toList ∨ lower "Total-Order".toList = "hyperbolic-basis".toList) ∧ (∀ o ∈ [2, 2], o ≤ 8) ∧ ∀ o ∈ ([] : List ℕ), ∃ o' ∈ [2, 2], o ≤ o') := by
  refine ⟨by decide, by decide, by decide, by decide, by simp⟩

/-- Parameters of order one and a total-order basis of order two in two inputs: the fit `x y` has all total indices zero. -/
example := c180_orders_violated 2 1 2 0 .linear 1 (by norm_num) (by norm_num) (by norm_num) (by norm_num)

end EQ.Stats
