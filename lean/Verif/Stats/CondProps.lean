import Verif.Stats.GridVanish

/-!
# Properties of conditional skewness and kurtosis (C41, C42)
-/

namespace EQ.Stats
open EQ.Basis EQ.Param EQ.Poly EQ.Sampling EQ.Sampling.Spec EQ.Poly.Spec EQ.Stats.Spec
open EQ.ParamSpec

theorem range'_sum (n : ℕ) (f : ℕ → ℝ) :
    ((List.range' 1 (n - 1)).map f).sum = ∑ i ∈ Finset.Ico 1 n, f i := rfl

theorem list_sum_finset {τ : Type} (l : List τ) (s : Finset ℕ) (f : τ → ℕ → ℝ) :
    (l.map fun x => ∑ i ∈ s, f x i).sum = ∑ i ∈ s, (l.map fun x => f x i).sum := by
  induction l with
  | nil => simp
  | cons a l ih => simp [ih, Finset.sum_add_distrib]

/-- Summed over all subsets, the restricted moments of a tuple of non-constant terms give the
moment. -/
theorem momOn_total {els : List (List ℕ)} {d : ℕ} (wts : List ℝ) (W : List (List ℝ))
    (hr : ∀ row ∈ els, row.length = d) (hz : els.head? = some (List.replicate d 0))
    (hnd : els.Nodup) (is : List ℕ) (p : ℕ) (hp : p ∈ is) (h0 : p ≠ 0) (hl : p < els.length) :
    ((List.range' 1 d).map fun o => ((combos d o).map fun S =>
      momOn els d wts W S is).sum).sum = mom wts W is := by
  classical
  set S₀ := (List.range d).filter fun k => ∃ row ∈ is.map fun i => els.getD i [],
    row.getD k 0 ≠ 0 with hS₀
  have hsub : S₀.Sublist (List.range d) := List.filter_sublist
  have hmem : ∀ k < d, k ∈ S₀ ↔ ∃ row ∈ is.map fun i => els.getD i [], row.getD k 0 ≠ 0 := by
    intro k hk
    rw [hS₀, List.mem_filter, List.mem_range]
    simp [hk]
  have hone : 1 ≤ S₀.length ∧ S₀.length ≤ d := by
    refine ⟨?_, by simpa using hsub.length_le⟩
    have h1 := (row_nonzero hr hz hnd p hl).2 h0
    obtain ⟨k, hk⟩ := List.exists_mem_of_length_pos (lt_of_lt_of_le Nat.zero_lt_one h1)
    have hk' := (mem_nonzero).1 hk
    apply List.length_pos_of_mem (a := k)
    have hkd : k < d := by
      rw [← row_len els d hr p hl]
      by_contra h
      exact hk'.2 (List.getD_eq_default _ _ (by omega))
    rw [hmem k hkd]
    exact ⟨_, List.mem_map.2 ⟨p, hp, rfl⟩, hk'.2⟩
  rw [← if_pos (c := 1 ≤ S₀.length ∧ S₀.length ≤ d) (t := mom wts W is) (e := 0) hone,
    ← sum_keys d d S₀ hsub]
  congr 1
  apply List.map_congr_left
  intro o _
  congr 1
  apply List.map_congr_left
  intro S hS
  rw [mem_combos] at hS
  unfold momOn
  have : TogetherInvolve d (is.map fun i => els.getD i []) S ↔ S = S₀ := by
    constructor
    · intro h
      apply sublist_range_ext hS.1 hsub
      intro k
      by_cases hk : k < d
      · rw [h k hk, hmem k hk]
      · exact ⟨fun h' => absurd (List.mem_range.1 (hS.1.subset h')) hk,
          fun h' => absurd (List.mem_range.1 (hsub.subset h')) hk⟩
    · rintro rfl
      exact hmem
  simp only [this]

theorem mom_cube (n : ℕ) (wts : List ℝ) (W : List (List ℝ)) :
    ∑ j ∈ Finset.range wts.length, wts.getD j 0 *
        (∑ i ∈ Finset.Ico 1 n, (W.getD i []).getD j 0) ^ 3 =
      ∑ p ∈ Finset.Ico 1 n, ∑ q ∈ Finset.Ico 1 n, ∑ r ∈ Finset.Ico 1 n, mom wts W [p, q, r] := by
  unfold mom
  have : ∀ j, wts.getD j 0 * (∑ i ∈ Finset.Ico 1 n, (W.getD i []).getD j 0) ^ 3 =
      ∑ p ∈ Finset.Ico 1 n, ∑ q ∈ Finset.Ico 1 n, ∑ r ∈ Finset.Ico 1 n, wts.getD j 0 *
        ([p, q, r].map fun i => (W.getD i []).getD j 0).prod := by
    intro j
    simp only [List.map_cons, List.map_nil, List.prod_cons, List.prod_nil, mul_one,
      ← Finset.mul_sum, ← Finset.sum_mul]
    ring
  simp only [this]
  rw [Finset.sum_comm]
  apply Finset.sum_congr rfl; intro p _
  rw [Finset.sum_comm]
  apply Finset.sum_congr rfl; intro q _
  rw [Finset.sum_comm]

theorem mom_fourth (n : ℕ) (wts : List ℝ) (W : List (List ℝ)) :
    ∑ j ∈ Finset.range wts.length, wts.getD j 0 *
        (∑ i ∈ Finset.Ico 1 n, (W.getD i []).getD j 0) ^ 4 =
      ∑ p ∈ Finset.Ico 1 n, ∑ q ∈ Finset.Ico 1 n, ∑ r ∈ Finset.Ico 1 n, ∑ s ∈ Finset.Ico 1 n,
        mom wts W [p, q, r, s] := by
  unfold mom
  have : ∀ j, wts.getD j 0 * (∑ i ∈ Finset.Ico 1 n, (W.getD i []).getD j 0) ^ 4 =
      ∑ p ∈ Finset.Ico 1 n, ∑ q ∈ Finset.Ico 1 n, ∑ r ∈ Finset.Ico 1 n, ∑ s ∈ Finset.Ico 1 n,
        wts.getD j 0 * ([p, q, r, s].map fun i => (W.getD i []).getD j 0).prod := by
    intro j
    simp only [List.map_cons, List.map_nil, List.prod_cons, List.prod_nil, mul_one,
      ← Finset.mul_sum, ← Finset.sum_mul]
    ring
  simp only [this]
  rw [Finset.sum_comm]
  apply Finset.sum_congr rfl; intro p _
  rw [Finset.sum_comm]
  apply Finset.sum_congr rfl; intro q _
  rw [Finset.sum_comm]
  apply Finset.sum_congr rfl; intro r _
  rw [Finset.sum_comm]

section
variable {els : List (List ℕ)} {d : ℕ} {wts : List ℝ} {W : List (List ℝ)}
  (hr : ∀ row ∈ els, row.length = d) (hz : els.head? = some (List.replicate d 0))
  (hnd : els.Nodup)
include hr hz hnd

theorem triple_total :
    ((List.range' 1 d).map fun o => ((combos d o).map fun S =>
      ((List.range' 1 (els.length - 1)).map fun p =>
        ((List.range' 1 (els.length - 1)).map fun q =>
          ((List.range' 1 (els.length - 1)).map fun r =>
            momOn els d wts W S [p, q, r]).sum).sum).sum).sum).sum =
      ∑ p ∈ Finset.Ico 1 els.length, ∑ q ∈ Finset.Ico 1 els.length,
        ∑ r ∈ Finset.Ico 1 els.length, mom wts W [p, q, r] := by
  simp only [range'_sum]
  simp only [list_sum_finset]
  apply Finset.sum_congr rfl; intro p hp
  rw [Finset.mem_Ico] at hp
  apply Finset.sum_congr rfl; intro q _
  apply Finset.sum_congr rfl; intro r _
  exact momOn_total wts W hr hz hnd [p, q, r] p (by simp) (by omega) hp.2

theorem quad_total :
    ((List.range' 1 d).map fun o => ((combos d o).map fun S =>
      ((List.range' 1 (els.length - 1)).map fun p =>
        ((List.range' 1 (els.length - 1)).map fun q =>
          ((List.range' 1 (els.length - 1)).map fun r =>
            ((List.range' 1 (els.length - 1)).map fun s =>
              momOn els d wts W S [p, q, r, s]).sum).sum).sum).sum).sum).sum =
      ∑ p ∈ Finset.Ico 1 els.length, ∑ q ∈ Finset.Ico 1 els.length,
        ∑ r ∈ Finset.Ico 1 els.length, ∑ s ∈ Finset.Ico 1 els.length, mom wts W [p, q, r, s] := by
  simp only [range'_sum]
  simp only [list_sum_finset]
  apply Finset.sum_congr rfl; intro p hp
  rw [Finset.mem_Ico] at hp
  apply Finset.sum_congr rfl; intro q _
  apply Finset.sum_congr rfl; intro r _
  apply Finset.sum_congr rfl; intro s _
  exact momOn_total wts W hr hz hnd [p, q, r, s] p (by simp) (by omega) hp.2

end

/-! ## On a tensor grid of Gauss rules -/

section
variable (B : Expansion) (hB : Regular B) (hR : B.dims = 1 ∨ B.invR = none)
  (hne : B.params ≠ []) (hP : ∀ P ∈ B.params, Valid P) (orders : List ℕ)
  (ho : orders.length = B.dims) (hb : ∀ row ∈ B.elements, List.Forall₂ (· ≤ ·) row orders)
  (hz : B.elements.head? = some (List.replicate B.dims 0)) (hnd : B.elements.Nodup)
  (c : List ℝ) (hc : c.length = B.elements.length)
include hB hR hne hP ho hb hz hnd hc

omit hP hnd hb hne in
theorem grid_setting (f : List ℝ → ℝ) (m : ℝ) (hm : mean c = .ok m)
    (hf : B.polyfit c (gpts B.params orders) = .ok ((gpts B.params orders).map f)) :
    B.getPoly none (gpts B.params orders) = .ok (gpoly B.params orders B.elements) ∧
    ∀ k, dotW ((totalEvals (weightedEvals (gpoly B.params orders B.elements) c)
      (gwts B.params orders).length).map (· ^ k)) (gwts B.params orders) =
        centralSum (gpts B.params orders) (gwts B.params orders) f m k ∧
      centralSum (gpts B.params orders) (gwts B.params orders) f m k =
        ∑ j ∈ Finset.range (gwts B.params orders).length, (gwts B.params orders).getD j 0 *
          (∑ i ∈ Finset.Ico 1 B.elements.length,
            ((weightedEvals (gpoly B.params orders B.elements) c).getD i []).getD j 0) ^ k := by
  have hp : ∀ x ∈ gpts B.params orders, x.length = B.dims := gpts_mem B.params orders ho
  obtain ⟨P, hP', hsh, hone⟩ := c40_first_row B hB hR hz _ hp
  have hpl := getPoly_plain B hB hR _ hp
  have hPe : P = gpoly B.params orders B.elements := by
    rw [hP'] at hpl; exact Except.ok.inj hpl
  rw [hPe] at hP' hsh hone
  refine ⟨hP', fun k => ?_⟩
  have h1 := centralSum_eq B _ (gwts B.params orders) (gwts_length _ _) _ hP' hsh hone c f hf m hm k
  refine ⟨h1, ?_⟩
  have hlenP : (gpoly B.params orders B.elements).length = B.elements.length := by simp [gpoly]
  rw [← h1, moment_eq _ c (by rw [hlenP]; exact hc) _ (by rw [gwts_length]; exact hsh) k]
  apply Finset.sum_congr rfl
  intro j hj
  rw [Finset.mem_range, gwts_length] at hj
  congr 2
  rw [hlenP, Finset.range_eq_Ico]
  have hpos : 0 < B.elements.length := List.length_pos_iff.2 hB.ne
  rw [Finset.sum_eq_sum_Ico_succ_bot hpos]
  simp only [if_true, zero_add]
  apply Finset.sum_congr rfl
  intro i hi
  rw [Finset.mem_Ico] at hi
  rw [if_neg (by omega), weightedEvals_getD _ _ (by rw [hlenP]; exact hc)]
  intro row hrow
  rw [hsh row hrow]; exact hj

omit hB hR hne hz hnd hP ho hb in
theorem momOn_joint (S is : List ℕ) (his : ∀ i ∈ is, i < B.elements.length) :
    momOn B.elements B.dims (gwts B.params orders)
        (weightedEvals (gpoly B.params orders B.elements) c) S is =
      jointMoment B.params B.elements c (gpts B.params orders) (gwts B.params orders) S is := by
  unfold momOn jointMoment Expansion.dims
  split_ifs
  · unfold mom
    rw [gwts_length]
    apply Finset.sum_congr rfl
    intro j hj
    rw [Finset.mem_range] at hj
    congr 2
    apply List.map_congr_left
    intro i hi
    have hi' := his i hi
    rw [weightedEvals_getD _ _ (by simpa [gpoly] using hc)]
    · unfold entry gpoly
      rw [getD_map' _ _ _ _ hi', getD_map' _ _ _ _ hj, getD_of_lt B.elements [] i hi',
        getD_of_lt _ [] j hj]
    · intro row hrow
      obtain ⟨r, _, rfl⟩ := List.mem_map.1 hrow
      simpa using hj
  · rfl

/-- C40. On a tensor grid of Gauss rules whose orders dominate the index set, the reported mean and
variance are those of the values of the fit under the quadrature, so that skewness and kurtosis are
the standardised third and fourth central moments of these values. -/
theorem c40_grid (h2 : 2 ≤ c.length) (f : List ℝ → ℝ) :
    ∃ pts wts, tensorGrid (localRules B.params orders) = .ok (pts, wts) ∧
      (B.polyfit c pts = .ok (pts.map f) → ∃ m v, mean c = .ok m ∧ variance c = .ok v ∧
        centralSum pts wts f 0 1 = m ∧ centralSum pts wts f m 2 = v) := by
  refine ⟨_, _, tensorGrid_gpts B.params hne orders ho, fun hf => ?_⟩
  obtain ⟨c0, hm⟩ : ∃ m, mean c = .ok m := by
    cases c with
    | nil => simp at h2
    | cons a l => exact ⟨a, rfl⟩
  refine ⟨c0, _, hm, variance_ok c h2, ?_, ?_⟩
  · have h1 := ((grid_setting B hB hR orders ho hz c hc f c0 hm hf).2 1).2
    have hv := grid_vanish B.params hP orders ho B.elements hb c hc
    have hzero : ∑ j ∈ Finset.range (gwts B.params orders).length, (gwts B.params orders).getD j 0 *
          (∑ i ∈ Finset.Ico 1 B.elements.length,
            ((weightedEvals (gpoly B.params orders B.elements) c).getD i []).getD j 0) ^ 1 = 0 := by
      simp only [pow_one, Finset.mul_sum]
      rw [Finset.sum_comm]
      apply Finset.sum_eq_zero
      intro i hi
      rw [Finset.mem_Ico] at hi
      have hk := (row_nonzero hB.rows hz hnd i hi.2).2 (by omega)
      obtain ⟨k, hk⟩ := List.exists_mem_of_length_pos (lt_of_lt_of_le Nat.zero_lt_one hk)
      have hk' := (mem_nonzero).1 hk
      have hkd : k < B.params.length := by
        have := row_len B.elements _ hB.rows i hi.2
        unfold Expansion.dims at this
        rw [← this]
        by_contra h
        exact hk'.2 (List.getD_eq_default _ _ (by omega))
      have := hv.one [i] (by simp [hi.2]) k hkd ((B.elements.getD i []).getD k 0) (by
        have := hk'.2
        simp only [List.map_cons, List.map_nil]
        rw [List.filter_cons_of_pos (by simpa using this), List.filter_nil])
      unfold mom at this
      simpa using this
    rw [hzero] at h1
    have hw : ∑ j ∈ Finset.range (gpts B.params orders).length,
        (gwts B.params orders).getD j 0 = 1 := by
      have := grid_orth B.params hP orders ho (List.replicate B.dims 0) (List.replicate B.dims 0)
        (hb _ (List.mem_of_mem_head? hz)) (hb _ (List.mem_of_mem_head? hz))
      rw [if_pos rfl] at this
      rw [← this, ← gwts_length, ← range_map_sum]
      have e : ((List.range (gwts B.params orders).length).map fun j =>
        (gwts B.params orders).getD j 0) = gwts B.params orders :=
        map_range_getD (gwts B.params orders) 0
      rw [e]
      unfold gwts
      congr 1
      apply List.map_congr_left
      intro idx hidx
      have : (gridPoint (localRules B.params orders) idx).length = B.params.length :=
        gpts_mem B.params orders ho _ (List.mem_map_of_mem hidx)
      unfold Expansion.dims
      rw [basisFun_zero B.params _ this]
      ring
    unfold centralSum at h1 ⊢
    simp only [pow_one, mul_sub, Finset.sum_sub_distrib, ← Finset.sum_mul, hw,
      sub_zero, one_mul] at h1 ⊢
    linarith
  · rw [((grid_setting B hB hR orders ho hz c hc f c0 hm hf).2 2).2]
    have : ∀ j, (gwts B.params orders).getD j 0 * (∑ i ∈ Finset.Ico 1 B.elements.length,
            ((weightedEvals (gpoly B.params orders B.elements) c).getD i []).getD j 0) ^ 2 =
        ∑ p ∈ Finset.Ico 1 B.elements.length, ∑ q ∈ Finset.Ico 1 B.elements.length,
          (gwts B.params orders).getD j 0 * ([p, q].map fun i =>
            ((weightedEvals (gpoly B.params orders B.elements) c).getD i []).getD j 0).prod := by
      intro j
      simp only [List.map_cons, List.map_nil, List.prod_cons, List.prod_nil, mul_one,
        ← Finset.mul_sum, ← Finset.sum_mul]
      ring
    simp only [this]
    rw [Finset.sum_comm]
    have e : ∀ p ∈ Finset.Ico 1 B.elements.length,
        ∑ j ∈ Finset.range (gwts B.params orders).length, ∑ q ∈ Finset.Ico 1 B.elements.length,
          (gwts B.params orders).getD j 0 * ([p, q].map fun i =>
            ((weightedEvals (gpoly B.params orders B.elements) c).getD i []).getD j 0).prod =
        c.getD p 0 ^ 2 := by
      intro p hp
      rw [Finset.sum_comm]
      have e' : ∀ q ∈ Finset.Ico 1 B.elements.length,
          ∑ j ∈ Finset.range (gwts B.params orders).length,
          (gwts B.params orders).getD j 0 * ([p, q].map fun i =>
            ((weightedEvals (gpoly B.params orders B.elements) c).getD i []).getD j 0).prod =
          if p = q then c.getD p 0 ^ 2 else 0 := fun q hq =>
        grid_mom_two B.params hP orders ho B.elements hnd hb c hc p q (Finset.mem_Ico.1 hp).2
          (Finset.mem_Ico.1 hq).2
      rw [Finset.sum_congr rfl e', Finset.sum_ite_eq, if_pos hp]
    rw [Finset.sum_congr rfl e, varSum_eq, ← hc, Finset.range_eq_Ico,
      Finset.sum_eq_sum_Ico_succ_bot (by omega : 0 < c.length)]
    simp only [if_true, zero_add]
    apply Finset.sum_congr rfl
    intro i hi
    rw [Finset.mem_Ico] at hi
    rw [if_neg (by omega)]

/-- C41. On such a grid, the conditional skewness index of a set `S` of inputs is the part of the
third central moment that comes from the (ordered) triples of non-constant basis terms which
together involve exactly `S`, divided by the third central moment; the keys of order `o` are the
subsets of size `o`, each once; over all orders the indices add up to one. Partial: `cardinality`
of the basis is the number of its rows, that is, the basis has not been pruned (see
`c41_pruned_violated`). -/
theorem c41_conditional_skewness_partial (f : List ℝ → ℝ) :
    ∃ pts wts P, tensorGrid (localRules B.params orders) = .ok (pts, wts) ∧
      B.getPoly none pts = .ok P ∧
      ∀ m v, B.polyfit c pts = .ok (pts.map f) → mean c = .ok m → variance c = .ok v → 0 < v →
        centralSum pts wts f m 3 ≠ 0 →
        ∃ idx : ℕ → List (List ℕ × ℝ),
          (∀ o, condSkewness o wts (weightedEvals P c) B.elements B.elements.length B.dims v
            (skewness wts (weightedEvals P c) v) = .ok (idx o)) ∧
          (∀ o, ((idx o).map Prod.fst).Nodup ∧ ∀ S, S ∈ (idx o).map Prod.fst ↔
            S.Sublist (List.range B.dims) ∧ S.length = o) ∧
          (∀ o, ∀ t ∈ idx o, t.2 = (∑ p ∈ Finset.Ico 1 B.elements.length,
            ∑ q ∈ Finset.Ico 1 B.elements.length, ∑ r ∈ Finset.Ico 1 B.elements.length,
              jointMoment B.params B.elements c pts wts t.1 [p, q, r]) /
                centralSum pts wts f m 3) ∧
          ((List.range' 1 B.dims).map fun o => ((idx o).map Prod.snd).sum).sum = 1 := by
  refine ⟨_, _, gpoly B.params orders B.elements, tensorGrid_gpts B.params hne orders ho,
    getPoly_plain B hB hR _ (gpts_mem B.params orders ho), fun m v hf hm hv hv0 h3 => ?_⟩
  obtain ⟨_, hk⟩ := grid_setting B hB hR orders ho hz c hc f m hm hf
  have hT : v ^ (1.5 : ℝ) * skewness (gwts B.params orders)
      (weightedEvals (gpoly B.params orders B.elements) c) v =
      centralSum (gpts B.params orders) (gwts B.params orders) f m 3 := by
    unfold skewness
    rw [(hk 3).1]
    field_simp
  have hlenW : (weightedEvals (gpoly B.params orders B.elements) c).length = B.elements.length := by
    simp [weightedEvals, gpoly, hc]
  have hval := fun o => condSkewness_value (els := B.elements) (d := B.dims)
    (wts := gwts B.params orders) (W := weightedEvals (gpoly B.params orders B.elements) c)
    (fun i hi => row_len B.elements _ hB.rows i hi) hlenW
    (fun i hi => by
      rw [getD_of_lt _ _ _ hi]
      simp only [weightedEvals, List.getElem_zipWith, gpoly, List.getElem_map, List.length_map]
      rw [gwts_length])
    (grid_vanish B.params hP orders ho B.elements hb c hc)
    (List.length_pos_iff.2 hne) o v (skewness (gwts B.params orders)
      (weightedEvals (gpoly B.params orders B.elements) c) v)
  rw [hT] at hval
  refine ⟨_, hval, fun o => ?_, fun o t ht => ?_, ?_⟩
  · rw [List.map_map]
    simp only [Function.comp_def, List.map_id']
    exact ⟨combos_nodup _ _, fun S => mem_combos⟩
  · obtain ⟨S, hS, rfl⟩ := List.mem_map.1 ht
    simp only [range'_sum]
    congr 1
    apply Finset.sum_congr rfl; intro p hp
    apply Finset.sum_congr rfl; intro q hq
    apply Finset.sum_congr rfl; intro r hr
    rw [Finset.mem_Ico] at hp hq hr
    exact momOn_joint B orders c hc S [p, q, r] (by simp [hp.2, hq.2, hr.2])
  · simp only [List.map_map, Function.comp_def, div_eq_mul_inv, List.sum_map_mul_right]
    rw [triple_total hB.rows hz hnd, ← mom_cube, ← (hk 3).2, mul_inv_cancel₀ h3]

/-- C42. The same for conditional kurtosis indices and quadruples of basis terms; here the
denominator is never zero. -/
theorem c42_conditional_kurtosis_partial (f : List ℝ → ℝ) :
    ∃ pts wts P, tensorGrid (localRules B.params orders) = .ok (pts, wts) ∧
      B.getPoly none pts = .ok P ∧
      ∀ m v, B.polyfit c pts = .ok (pts.map f) → mean c = .ok m → variance c = .ok v → 0 < v →
        0 < centralSum pts wts f m 4 ∧ ∃ idx : ℕ → List (List ℕ × ℝ),
          (∀ o, condKurtosis o wts (weightedEvals P c) B.elements B.elements.length B.dims v
            (kurtosis wts (weightedEvals P c) v) = .ok (idx o)) ∧
          (∀ o, ((idx o).map Prod.fst).Nodup ∧ ∀ S, S ∈ (idx o).map Prod.fst ↔
            S.Sublist (List.range B.dims) ∧ S.length = o) ∧
          (∀ o, ∀ t ∈ idx o, t.2 = (∑ p ∈ Finset.Ico 1 B.elements.length,
            ∑ q ∈ Finset.Ico 1 B.elements.length, ∑ r ∈ Finset.Ico 1 B.elements.length,
              ∑ s ∈ Finset.Ico 1 B.elements.length,
                jointMoment B.params B.elements c pts wts t.1 [p, q, r, s]) /
                centralSum pts wts f m 4) ∧
          ((List.range' 1 B.dims).map fun o => ((idx o).map Prod.snd).sum).sum = 1 := by
  refine ⟨_, _, gpoly B.params orders B.elements, tensorGrid_gpts B.params hne orders ho,
    getPoly_plain B hB hR _ (gpts_mem B.params orders ho), fun m v hf hm hv hv0 => ?_⟩
  have h4 : 0 < centralSum (gpts B.params orders) (gwts B.params orders) f m 4 := by
    have h2 : 2 ≤ c.length := by
      by_contra h
      unfold variance at hv
      rw [if_pos (by omega)] at hv
      simp at hv
    obtain ⟨pts, wts, hg, hg40⟩ := c40_grid B hB hR hne hP orders ho hb hz hnd c hc h2 f
    rw [tensorGrid_gpts B.params hne orders ho, Except.ok.injEq, Prod.mk.injEq] at hg
    rw [← hg.1, ← hg.2] at hg40
    obtain ⟨m', v', hm', hv', _, e2⟩ := hg40 hf
    rw [hm, Except.ok.injEq] at hm'
    rw [hv, Except.ok.injEq] at hv'
    rw [← hm', ← hv'] at e2
    obtain ⟨pts', wts', hg', _, _, _, _, hpos, _⟩ := c21_parameters B.params hne hP orders ho
    rw [tensorGrid_gpts B.params hne orders ho, Except.ok.injEq, Prod.mk.injEq] at hg'
    rw [← hg'.2] at hpos
    unfold centralSum at e2 ⊢
    have hw : ∀ j ∈ Finset.range (gpts B.params orders).length,
        0 < (gwts B.params orders).getD j 0 := by
      intro j hj
      rw [Finset.mem_range, ← gwts_length] at hj
      rw [getD_of_lt _ _ _ hj]
      exact hpos _ (List.getElem_mem hj)
    obtain ⟨j, hj, hj2⟩ : ∃ j ∈ Finset.range (gpts B.params orders).length,
        (gwts B.params orders).getD j 0 * (f ((gpts B.params orders).getD j []) - m) ^ 2 ≠ 0 := by
      by_contra hcon
      push Not at hcon
      rw [Finset.sum_eq_zero hcon] at e2
      linarith
    apply Finset.sum_pos' (fun i hi => mul_nonneg (hw i hi).le (by positivity))
    refine ⟨j, hj, mul_pos (hw j hj) ?_⟩
    have : f ((gpts B.params orders).getD j []) - m ≠ 0 := by
      intro h; rw [h] at hj2; simp at hj2
    positivity
  refine ⟨h4, ?_⟩
  obtain ⟨_, hk⟩ := grid_setting B hB hR orders ho hz c hc f m hm hf
  have hT : v ^ 2 * kurtosis (gwts B.params orders)
      (weightedEvals (gpoly B.params orders B.elements) c) v =
      centralSum (gpts B.params orders) (gwts B.params orders) f m 4 := by
    unfold kurtosis
    rw [(hk 4).1]
    field_simp
  have hlenW : (weightedEvals (gpoly B.params orders B.elements) c).length = B.elements.length := by
    simp [weightedEvals, gpoly, hc]
  have hval := fun o => condKurtosis_value (els := B.elements) (d := B.dims)
    (wts := gwts B.params orders) (W := weightedEvals (gpoly B.params orders B.elements) c)
    (fun i hi => row_len B.elements _ hB.rows i hi) hlenW
    (fun i hi => by
      rw [getD_of_lt _ _ _ hi]
      simp only [weightedEvals, List.getElem_zipWith, gpoly, List.getElem_map, List.length_map]
      rw [gwts_length])
    (grid_vanish B.params hP orders ho B.elements hb c hc)
    (List.length_pos_iff.2 hne) o v (kurtosis (gwts B.params orders)
      (weightedEvals (gpoly B.params orders B.elements) c) v)
  rw [hT] at hval
  refine ⟨_, hval, fun o => ?_, fun o t ht => ?_, ?_⟩
  · rw [List.map_map]
    simp only [Function.comp_def, List.map_id']
    exact ⟨combos_nodup _ _, fun S => mem_combos⟩
  · obtain ⟨S, hS, rfl⟩ := List.mem_map.1 ht
    simp only [range'_sum]
    congr 1
    apply Finset.sum_congr rfl; intro p hp
    apply Finset.sum_congr rfl; intro q hq
    apply Finset.sum_congr rfl; intro r hr
    apply Finset.sum_congr rfl; intro s hs
    rw [Finset.mem_Ico] at hp hq hr hs
    exact momOn_joint B orders c hc S [p, q, r, s] (by simp [hp.2, hq.2, hr.2, hs.2])
  · simp only [List.map_map, Function.comp_def, div_eq_mul_inv, List.sum_map_mul_right]
    rw [quad_total hB.rows hz hnd, ← mom_fourth, ← (hk 4).2, mul_inv_cancel₀ h4.ne']

end

/-- C41, C42, the case that fails: after a successful `prune` of at least one row the conditional
indices raise `IndexError` for every order, whatever the model, because `cardinality` is stale. -/
theorem c41_pruned_violated (argsort : List ℕ → List ℕ) (ha : Basis.ArgsortContract argsort)
    (els : List (List ℕ)) (k : ℕ) (hk : 0 < k) (hke : k ≤ els.length) (order d : ℕ)
    (wts : List ℝ) (W : List (List ℝ)) (var skew kurt : ℝ) (s : State)
    (hs : (State.ofElements els).prune argsort k = (s, true)) :
    condSkewness order wts W s.elements s.cardinality d var skew = .error .indexError ∧
    condKurtosis order wts W s.elements s.cardinality d var kurt = .error .indexError := by
  obtain ⟨kept, removed, h1, h2, h3, _⟩ := c07_prune_partial argsort ha els k hke
  rw [h1, Prod.mk.injEq] at hs
  have hl := h2.length_eq
  rw [List.length_append, h3] at hl
  have : s.elements.length < s.cardinality := by
    rw [← hs.1]; simp only; omega
  exact ⟨if_pos this, if_pos this⟩

example : ∃ argsort s, Basis.ArgsortContract argsort ∧
    (State.ofElements [[0, 0], [0, 1], [1, 0]]).prune argsort 1 = (s, true) :=
  ⟨stableArgsort, _, stableArgsort_contract, rfl⟩

/-- A two-dimensional case of C41 and C42: two inputs with a skewed law (recurrence coefficients
`α = 0, 1, 1, ...`, `β = 1`), the model `π_1(x_1) + π_1(x_2)`, the grid of order 2. Both central
moments are non-zero (they are `2` for the third). -/
example : ∃ P : MParam, Valid P ∧ (∀ row ∈ [[0, 0], [0, 1], [1, 0]],
      List.Forall₂ (· ≤ ·) row [2, 2]) ∧ variance [0, 1, 1] = .ok (2 : ℝ) ∧
    centralSum (gpts [P, P] [2, 2]) (gwts [P, P] [2, 2])
      (fun x => basisFun [P, P] [0, 1] x + basisFun [P, P] [1, 0] x) 0 3 = 2 := by
  obtain ⟨P, hv, hab, -⟩ := exists_valid (fun k => (if k = 0 then 0 else 1, 1)) rfl
    (fun _ _ => one_pos) none none 0
  have h1 : ∀ x, univ P 1 x = x := by intro x; simp [univ_eq, hab, opoly]
  have h2 : ∀ x, univ P 2 x = (x - 1) * x - 1 := by intro x; simp [univ_eq, hab, opoly]
  have hsq : ∀ x, univ P 1 x * (univ P 1 x * univ P 1 x) =
      univ P 1 x * univ P 2 x + (univ P 1 x * univ P 1 x + univ P 1 x * univ P 0 x) := by
    intro x; rw [h1, h2, univ_zero]; ring
  refine ⟨P, hv, by simp, ?_, ?_⟩
  · simp only [variance, List.length_cons, List.length_nil, List.drop_succ_cons, List.drop_zero,
      List.foldl_cons, List.foldl_nil]
    norm_num
  · have hF := fun i j (hi : i ≤ 2) (hj : j ≤ 2) => localRule_orth P hv 2 i j hi hj
    have hadd : ∀ f g : ℝ → ℝ, (List.zipWith (fun x w => w * (f x + g x)) (P.localRule 2).pts
        (P.localRule 2).wts).sum = (List.zipWith (fun x w => w * f x) (P.localRule 2).pts
        (P.localRule 2).wts).sum + (List.zipWith (fun x w => w * g x) (P.localRule 2).pts
        (P.localRule 2).wts).sum := by
      intro f g
      generalize (P.localRule 2).pts = l
      generalize (P.localRule 2).wts = l'
      induction l generalizing l' with
      | nil => simp
      | cons x l ih =>
        cases l' with
        | nil => simp
        | cons y l' => simp only [List.zipWith_cons_cons, List.sum_cons, ih]; ring
    have c0 : (List.zipWith (fun x w => w * (univ P 0 x * univ P 0 x)) (P.localRule 2).pts
        (P.localRule 2).wts).sum = 1 := hF 0 0 (by omega) (by omega)
    have c1 : (List.zipWith (fun x w => w * (univ P 0 x * univ P 1 x)) (P.localRule 2).pts
        (P.localRule 2).wts).sum = 0 := hF 0 1 (by omega) (by omega)
    have c3 : (List.zipWith (fun x w => w * (univ P 1 x * (univ P 1 x * univ P 1 x)))
        (P.localRule 2).pts (P.localRule 2).wts).sum = 1 := by
      simp only [hsq]
      rw [hadd, hadd, hF 1 2 (by omega) (by omega), hF 1 1 (by omega) (by omega),
        hF 1 0 (by omega) (by omega)]
      norm_num
    have u00 : ∀ x, univ P 0 x * univ P 0 x = 1 := fun x => by rw [univ_zero]; norm_num
    have u01 : ∀ x, univ P 0 x * univ P 1 x = univ P 1 x := fun x => by rw [univ_zero]; ring
    simp only [u00, u01, mul_one] at c0 c1
    have S := grid_moment [P, P] P [2, 2] rfl
    have Saaa := S [[0, 1], [0, 1], [0, 1]] (by simp)
    have Saab := S [[0, 1], [0, 1], [1, 0]] (by simp)
    have Sabb := S [[0, 1], [1, 0], [1, 0]] (by simp)
    have Sbbb := S [[1, 0], [1, 0], [1, 0]] (by simp)
    simp only [factors, localRules, List.length_cons, List.length_nil, List.range_succ,
      List.range_zero, List.nil_append, List.cons_append, List.map_cons, List.map_nil,
      List.zipWith_cons_cons, List.zipWith_nil_right, List.prod_cons, List.prod_nil,
      List.getD_cons_zero, List.getD_cons_succ, mul_one] at Saaa Saab Sabb Sbbb
    simp only [univ_zero, mul_one, one_mul, c0, c1, c3, mul_zero, zero_mul] at Saaa Saab Sabb Sbbb
    have e : ∀ f : List ℝ → ℝ, centralSum (gpts [P, P] [2, 2]) (gwts [P, P] [2, 2]) f 0 3 =
        ((ixs ((localRules [P, P] [2, 2]).map fun r => r.pts.length)).map fun idx =>
          gridWeight (localRules [P, P] [2, 2]) idx *
            f (gridPoint (localRules [P, P] [2, 2]) idx) ^ 3).sum := by
      intro f
      unfold centralSum gpts gwts
      generalize ixs ((localRules [P, P] [2, 2]).map fun r => r.pts.length) = I
      rw [map_eq_range I [] (fun idx => gridWeight (localRules [P, P] [2, 2]) idx *
            f (gridPoint (localRules [P, P] [2, 2]) idx) ^ 3), range_map_sum, List.length_map]
      apply Finset.sum_congr rfl
      intro j hj
      rw [Finset.mem_range] at hj
      rw [getD_map' _ _ _ _ hj, getD_map' _ _ _ _ hj, getD_of_lt I [] j hj, sub_zero]
    rw [e]
    simp only [localRules, List.zipWith_cons_cons, List.zipWith_nil_right, List.map_cons,
      List.map_nil]
    have hexp : ∀ w a b : ℝ, w * (a + b) ^ 3 = w * (a * (a * a)) + (3 * (w * (a * (a * b))) +
        (3 * (w * (a * (b * b))) + w * (b * (b * b)))) := by intro w a b; ring
    simp only [hexp, List.sum_map_add, List.sum_map_mul_left, Saaa, Saab, Sabb, Sbbb]
    norm_num

end EQ.Stats
