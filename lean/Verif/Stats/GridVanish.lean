import Verif.Stats.CondValue

/-!
# Moments of basis terms on a tensor grid of Gauss rules
-/

namespace EQ.Stats
open EQ.Basis EQ.Param EQ.Poly EQ.Sampling EQ.Sampling.Spec EQ.Poly.Spec EQ.Stats.Spec

theorem univ_zero (P : MParam) (x : ℝ) : univ P 0 x = 1 := by
  rw [univ_eq]; simp [opoly]

theorem prod_filter_ne_zero (P : MParam) (x : ℝ) (l : List ℕ) :
    (l.map fun n => univ P n x).prod = ((l.filter (· ≠ 0)).map fun n => univ P n x).prod := by
  induction l with
  | nil => simp
  | cons n l ih =>
    by_cases h : n = 0
    · simp [h, univ_zero, ih]
    · simp [h, ih]

/-- Factors of a product of basis functions, one for each dimension. -/
noncomputable def factors (params : List MParam) (P0 : MParam) (rows : List (List ℕ)) :
    List (ℝ → ℝ) :=
  (List.range params.length).map fun k x =>
    (rows.map fun r => univ (params.getD k P0) (r.getD k 0) x).prod

theorem factors_prod (params : List MParam) (P0 : MParam) (rows : List (List ℕ))
    (hr : ∀ r ∈ rows, r.length = params.length) (x : List ℝ) (hx : x.length = params.length) :
    (List.zipWith (fun f x => f x) (factors params P0 rows) x).prod =
      (rows.map fun r => basisFun params r x).prod := by
  have h1 : (List.zipWith (fun (f : ℝ → ℝ) x => f x) (factors params P0 rows) x) =
      (List.range params.length).map fun k =>
        (rows.map fun r => univ (params.getD k P0) (r.getD k 0) (x.getD k 0)).prod := by
    apply List.ext_getElem
    · simp [factors, hx]
    · intro k h1 h2
      simp only [List.length_map, List.length_range] at h2
      simp only [factors, List.getElem_zipWith, List.getElem_map, List.getElem_range]
      rw [getD_of_lt x 0 k (by omega)]
  rw [h1]
  clear h1
  have h2 : ∀ f : ℕ → ℝ, ((List.range params.length).map f).prod =
      ∏ k ∈ Finset.range params.length, f k := fun f => rfl
  rw [h2]
  clear h2
  induction rows with
  | nil => simp
  | cons r rows ih =>
    simp only [List.map_cons, List.prod_cons]
    rw [Finset.prod_mul_distrib, ih fun r h => hr r (by simp [h]),
      basisFun_eq_range params P0 r x (hr r (by simp)) hx]

/-- The grid sum of a product of basis functions, by dimension. -/
theorem grid_moment (params : List MParam) (P0 : MParam) (orders : List ℕ)
    (ho : orders.length = params.length) (rows : List (List ℕ))
    (hr : ∀ r ∈ rows, r.length = params.length) :
    ((ixs ((localRules params orders).map fun r => r.pts.length)).map fun idx =>
      gridWeight (localRules params orders) idx *
        (rows.map fun r => basisFun params r (gridPoint (localRules params orders) idx)).prod).sum =
      (List.zipWith (fun r f => (List.zipWith (fun x w => w * f x) r.pts r.wts).sum)
        (localRules params orders) (factors params P0 rows)).prod := by
  rw [← grid_sum_prod (localRules params orders) (factors params P0 rows)
    (by simp [factors, localRules_length params orders ho]) (localRules_len_eq params orders)]
  congr 1
  apply List.map_congr_left
  intro idx hidx
  rw [factors_prod params P0 rows hr]
  have hl := ixs_length _ _ hidx
  simp only [gridPoint, List.length_zipWith]
  rw [List.length_map] at hl
  rw [hl, localRules_length params orders ho, Nat.min_self]

theorem grid_moment_zero (params : List MParam) (hP : ∀ P ∈ params, Valid P) (orders : List ℕ)
    (ho : orders.length = params.length) (rows : List (List ℕ))
    (hr : ∀ r ∈ rows, List.Forall₂ (· ≤ ·) r orders) (k : ℕ) (hk : k < params.length) (n m : ℕ)
    (hne : n ≠ m)
    (hf : (rows.map fun r => r.getD k 0).filter (· ≠ 0) = [n, m] ∨
      (m = 0 ∧ (rows.map fun r => r.getD k 0).filter (· ≠ 0) = [n])) :
    ((ixs ((localRules params orders).map fun r => r.pts.length)).map fun idx =>
      gridWeight (localRules params orders) idx *
        (rows.map fun r => basisFun params r (gridPoint (localRules params orders) idx)).prod).sum =
      0 := by
  have hrl : ∀ r ∈ rows, r.length = params.length := fun r h => by rw [(hr r h).length_eq, ho]
  rw [grid_moment params params[k] orders ho rows hrl]
  apply List.prod_eq_zero
  rw [List.mem_iff_getElem]
  have hlen : (List.zipWith (fun (r : LocalRule) f => (List.zipWith (fun x w => w * f x) r.pts r.wts).sum)
        (localRules params orders) (factors params params[k] rows)).length = params.length := by
    simp [factors, localRules_length params orders ho]
  refine ⟨k, by rw [hlen]; exact hk, ?_⟩
  have hle : ∀ a ∈ (rows.map fun r => r.getD k 0).filter (· ≠ 0), a ≤ orders[k] := by
    intro a ha
    obtain ⟨r, hmem, rfl⟩ := List.mem_map.1 (List.mem_filter.1 ha).1
    rw [getD_of_lt r 0 k (by rw [hrl r hmem]; exact hk)]
    exact (List.forall₂_iff_get.1 (hr r hmem)).2 k _ _
  have hprod : ∀ x, (rows.map fun r => univ (params.getD k params[k]) (r.getD k 0) x).prod =
      univ params[k] n x * univ params[k] m x := by
    intro x
    have := prod_filter_ne_zero params[k] x (rows.map fun r => r.getD k 0)
    rw [List.map_map] at this
    rw [getD_of_lt params _ k hk]
    refine Eq.trans this ?_
    rcases hf with hf | ⟨h0, hf⟩
    · rw [hf]; simp
    · rw [hf, h0]; simp [univ_zero]
  simp only [List.getElem_zipWith, factors, List.getElem_map, List.getElem_range, hprod,
    localRules]
  have hn : n ≤ orders[k] := by
    rcases hf with hf | ⟨_, hf⟩ <;> exact hle n (by rw [hf]; simp)
  have hm : m ≤ orders[k] := by
    rcases hf with hf | ⟨h0, hf⟩
    · exact hle m (by rw [hf]; simp)
    · omega
  rw [localRule_orth params[k] (hP _ (List.getElem_mem hk)) orders[k] n m hn hm, if_neg hne]

/-- Points and weights of the grid. -/
noncomputable def gpts (params : List MParam) (orders : List ℕ) : List (List ℝ) :=
  (ixs ((localRules params orders).map fun r => r.pts.length)).map
    (gridPoint (localRules params orders))

/-- Proof device: the weights of the grid as a list. -/
noncomputable def gwts (params : List MParam) (orders : List ℕ) : List ℝ :=
  (ixs ((localRules params orders).map fun r => r.pts.length)).map
    (gridWeight (localRules params orders))

theorem gwts_length (params : List MParam) (orders : List ℕ) :
    (gwts params orders).length = (gpts params orders).length := by
  simp [gwts, gpts]

theorem gpts_mem (params : List MParam) (orders : List ℕ) (ho : orders.length = params.length) :
    ∀ x ∈ gpts params orders, x.length = params.length := by
  intro x hx
  obtain ⟨idx, hidx, rfl⟩ := List.mem_map.1 hx
  have := ixs_length _ _ hidx
  rw [List.length_map] at this
  simp [gridPoint, this, localRules_length params orders ho]

theorem tensorGrid_gpts (params : List MParam) (hne : params ≠ []) (orders : List ℕ)
    (ho : orders.length = params.length) :
    tensorGrid (localRules params orders) = .ok (gpts params orders, gwts params orders) := by
  refine tensorGrid_eq _ ?_ (localRules_len_eq params orders)
  intro h
  have := localRules_length params orders ho
  rw [h] at this
  exact hne (List.length_eq_zero_iff.1 this.symm)

/-- The basis functions at the points of the grid. -/
noncomputable def gpoly (params : List MParam) (orders : List ℕ) (els : List (List ℕ)) :
    List (List ℝ) :=
  els.map fun row => (gpts params orders).map fun x => basisFun params row x

theorem grid_mom (params : List MParam) (orders : List ℕ) (els : List (List ℕ)) (c : List ℝ)
    (hc : c.length = els.length) (is : List ℕ) (his : ∀ i ∈ is, i < els.length) :
    mom (gwts params orders) (weightedEvals (gpoly params orders els) c) is =
      (is.map fun i => c.getD i 0).prod *
        ((ixs ((localRules params orders).map fun r => r.pts.length)).map fun idx =>
          gridWeight (localRules params orders) idx * ((is.map fun i => els.getD i []).map fun r =>
            basisFun params r (gridPoint (localRules params orders) idx)).prod).sum := by
  unfold gwts gpoly gpts
  set I := ixs ((localRules params orders).map fun r => r.pts.length) with hI
  unfold mom
  rw [map_eq_range I [] (fun idx => gridWeight (localRules params orders) idx *
    ((is.map fun i => els.getD i []).map fun r =>
      basisFun params r (gridPoint (localRules params orders) idx)).prod), range_map_sum,
    Finset.mul_sum, List.length_map]
  apply Finset.sum_congr rfl
  intro j hj
  rw [Finset.mem_range] at hj
  have e : (is.map fun i => ((weightedEvals (els.map fun row =>
      (I.map (gridPoint (localRules params orders))).map fun x => basisFun params row x) c).getD
        i []).getD j 0) = is.map fun i => c.getD i 0 *
          basisFun params (els.getD i []) (gridPoint (localRules params orders) (I.getD j [])) := by
    apply List.map_congr_left
    intro i hi
    have hi' := his i hi
    rw [weightedEvals_getD _ _ (by simpa using hc) i j]
    · unfold entry
      rw [getD_map' _ _ _ _ hi', getD_map' _ _ _ _ (by simpa using hj), List.getElem_map,
        getD_of_lt els [] i hi', getD_of_lt I [] j hj]
    · intro row hrow
      obtain ⟨r, _, rfl⟩ := List.mem_map.1 hrow
      simpa using hj
  rw [e, List.prod_map_mul, getD_map' _ _ _ _ hj, getD_of_lt I [] j hj, List.map_map]
  simp only [Function.comp_def]
  ring

/-- On a tensor grid of Gauss rules whose orders dominate the index set, the weighted evaluations
of an uncorrected expansion have the vanishing moments the conditional indices rely on. -/
theorem grid_vanish (params : List MParam) (hP : ∀ P ∈ params, Valid P) (orders : List ℕ)
    (ho : orders.length = params.length) (els : List (List ℕ))
    (hb : ∀ row ∈ els, List.Forall₂ (· ≤ ·) row orders) (c : List ℝ)
    (hc : c.length = els.length) :
    Vanish els params.length (gwts params orders)
      (weightedEvals (gpoly params orders els) c) := by
  have key := grid_mom params orders els c hc
  have hrows : ∀ is : List ℕ, (∀ i ∈ is, i < els.length) →
      ∀ r ∈ is.map fun i => els.getD i [], List.Forall₂ (· ≤ ·) r orders := by
    intro is his r hr
    obtain ⟨i, hi, rfl⟩ := List.mem_map.1 hr
    rw [getD_of_lt els [] i (his i hi)]
    exact hb _ (List.getElem_mem _)
  constructor
  · intro is his k hk n hf
    have hn : n ≠ 0 := by
      have : n ∈ (is.map fun i => (els.getD i []).getD k 0).filter (· ≠ 0) := by rw [hf]; simp
      simpa using (List.mem_filter.1 this).2
    rw [key is his, grid_moment_zero params hP orders ho _ (hrows is his) k hk n 0 hn
      (.inr ⟨rfl, by rw [List.map_map]; exact hf⟩), mul_zero]
  · intro is his k hk n m hne hf
    rw [key is his, grid_moment_zero params hP orders ho _ (hrows is his) k hk n m hne
      (.inl (by rw [List.map_map]; exact hf)), mul_zero]

/-- Second moments on the grid. -/
theorem grid_mom_two (params : List MParam) (hP : ∀ P ∈ params, Valid P) (orders : List ℕ)
    (ho : orders.length = params.length) (els : List (List ℕ)) (hnd : els.Nodup)
    (hb : ∀ row ∈ els, List.Forall₂ (· ≤ ·) row orders) (c : List ℝ)
    (hc : c.length = els.length) (p q : ℕ) (hp : p < els.length) (hq : q < els.length) :
    mom (gwts params orders) (weightedEvals (gpoly params orders els) c) [p, q] =
      if p = q then c.getD p 0 ^ 2 else 0 := by
  rw [grid_mom params orders els c hc [p, q] (by simp [hp, hq])]
  have h := grid_orth params hP orders ho (els.getD p []) (els.getD q [])
    (by rw [getD_of_lt els [] p hp]; exact hb _ (List.getElem_mem _))
    (by rw [getD_of_lt els [] q hq]; exact hb _ (List.getElem_mem _))
  simp only [List.map_cons, List.map_nil, List.prod_cons, List.prod_nil, mul_one]
  rw [h]
  simp only [nodup_getD hnd hp hq]
  split_ifs with e
  · rw [e]; ring
  · ring

end EQ.Stats
