import Verif.Sampling.SparseWitness

/-!
# Properties of meshes (C21–C27)
-/

namespace EQ.Sampling
open EQ.Param EQ.Basis Spec

/-! ## C21 -/

/-- C21. For all univariate rules the tensor-grid mesh lists every combination of univariate
points exactly once (`I` enumerates the index tuples without repetition), with the product of
the univariate weights at the same position. -/
theorem c21_tensor_mesh (rules : List LocalRule) (hne : rules ≠ [])
    (hlen : ∀ r ∈ rules, r.pts.length = r.wts.length) :
    ∃ pts wts, tensorGrid rules = .ok (pts, wts) ∧
      ∃ I : List (List ℕ), I.Nodup ∧
        (∀ idx, idx ∈ I ↔ List.Forall₂ (fun i (r : LocalRule) => i < r.pts.length) idx rules) ∧
        pts = I.map (fun idx => List.zipWith (fun (r : LocalRule) i => r.pts.getD i 0) rules idx) ∧
        wts = I.map (fun idx =>
          (List.zipWith (fun (r : LocalRule) i => r.wts.getD i 0) rules idx).prod) := by
  refine ⟨_, _, tensorGrid_eq rules hne hlen, _, ixs_nodup _, fun idx => ?_, rfl, rfl⟩
  rw [mem_ixs, List.forall₂_map_right_iff]

/-- C21, error branch: no parameters, no mesh. -/
theorem c21_no_dimensions : tensorGrid [] = .error .typeError := rfl

/-- C21. The quadrature sum of a product of univariate functions is the product of the
univariate quadrature sums. -/
theorem c21_factorises (rules : List LocalRule) (hne : rules ≠ [])
    (hlen : ∀ r ∈ rules, r.pts.length = r.wts.length) (fs : List (ℝ → ℝ))
    (hf : fs.length = rules.length) :
    ∃ pts wts, tensorGrid rules = .ok (pts, wts) ∧
      (List.zipWith (fun x w => w * (List.zipWith (fun f t => f t) fs x).prod) pts wts).sum =
        (List.zipWith (fun (r : LocalRule) (f : ℝ → ℝ) =>
          (List.zipWith (fun t w => w * f t) r.pts r.wts).sum) rules fs).prod := by
  refine ⟨_, _, tensorGrid_eq rules hne hlen, ?_⟩
  rw [← grid_sum_prod rules fs hf hlen]
  congr 1
  rw [List.zipWith_map, List.zipWith_self]

/-- C21. If every univariate rule has positive weights that sum to one, so does the mesh. -/
theorem c21_weights_sum_one (rules : List LocalRule) (hne : rules ≠ [])
    (hlen : ∀ r ∈ rules, r.pts.length = r.wts.length)
    (hs : ∀ r ∈ rules, r.wts.sum = 1) (hpos : ∀ r ∈ rules, ∀ w ∈ r.wts, 0 < w) :
    ∃ pts wts, tensorGrid rules = .ok (pts, wts) ∧ pts.length = wts.length ∧ wts.sum = 1 ∧
      ∀ w ∈ wts, 0 < w := by
  refine ⟨_, _, tensorGrid_eq rules hne hlen, by simp, grid_sum_one rules hlen hs, ?_⟩
  intro w hw
  obtain ⟨idx, hidx, rfl⟩ := List.mem_map.1 hw
  rw [mem_ixs, List.forall₂_map_right_iff] at hidx
  have key : ∀ (rules : List LocalRule) (idx : List ℕ),
      (∀ r ∈ rules, r.pts.length = r.wts.length) → (∀ r ∈ rules, ∀ w ∈ r.wts, 0 < w) →
      List.Forall₂ (fun i (r : LocalRule) => i < r.pts.length) idx rules →
      0 < gridWeight rules idx := by
    intro rules idx hlen hpos h
    induction h with
    | nil => simp [gridWeight]
    | @cons i r idx rs hi _ ih =>
      have := ih (fun q hq => hlen q (by simp [hq])) fun q hq => hpos q (by simp [hq])
      have hi' : i < r.wts.length := by rw [← hlen r (by simp)]; exact hi
      have hw : 0 < r.wts.getD i 0 := by
        rw [List.getD_eq_getElem?_getD, List.getElem?_eq_getElem hi']
        exact hpos r (by simp) _ (List.getElem_mem _)
      simp only [gridWeight, List.zipWith_cons_cons, List.prod_cons] at this ⊢
      exact mul_pos hw this
  exact key rules idx hlen hpos hidx

/-- C21 for parameters: with Gauss rules the mesh has `∏ (order+1)` points in lexicographic
order, positive weights, and total weight one. -/
theorem c21_parameters (params : List MParam) (hne : params ≠ []) (hP : ∀ P ∈ params, Valid P)
    (orders : List ℕ) (ho : orders.length = params.length) :
    ∃ pts wts, tensorGrid (localRules params orders) = .ok (pts, wts) ∧
      pts.length = (orders.map (· + 1)).prod ∧ wts.length = pts.length ∧
      pts.Pairwise Spec.LexLt ∧ wts.sum = 1 ∧ (∀ w ∈ wts, 0 < w) ∧
      ∀ x ∈ pts, x.length = params.length := by
  have hl := localRules_len_eq params orders
  have hne' : localRules params orders ≠ [] := by
    intro h
    have := localRules_length params orders ho
    rw [h] at this
    exact hne (List.length_eq_zero_iff.1 this.symm)
  obtain ⟨pts, wts, h1, h2, h3, h4⟩ := c21_weights_sum_one _ hne' hl
    (fun r hr => (localRules_wts params hP orders r hr).1)
    (fun r hr => (localRules_wts params hP orders r hr).2)
  have h5 := tensorGrid_eq _ hne' hl
  rw [h1] at h5
  simp only [Except.ok.injEq, Prod.mk.injEq] at h5
  refine ⟨pts, wts, h1, ?_, h2.symm, ?_, h3, h4, ?_⟩
  · rw [h5.1, List.length_map, localRules_sizes params orders ho]
    have : ∀ ns : List ℕ, (ixs ns).length = ns.prod := by
      intro ns
      induction ns using List.reverseRecOn with
      | nil => rfl
      | append_singleton ns n ih => rw [ixs_concat]; simp [ih]
    rw [this]
  · rw [h5.1]
    exact grid_lex _ (localRules_sorted params hP orders)
  · rw [h5.1]
    intro x hx
    obtain ⟨idx, hidx, rfl⟩ := List.mem_map.1 hx
    have := ixs_length _ _ hidx
    rw [List.length_map] at this
    simp [gridPoint, this, localRules_length params orders ho]

example : tensorGrid [⟨[-1, 1], [1 / 2, 1 / 2]⟩, ⟨[0], [1]⟩] =
    .ok ([[-1, 0], [1, 0]], [1 / 2, 1 / 2]) := by
  simp [tensorGrid, tensorStep, leftSide, rightSide, kronWeights]; norm_num

example : ∃ P : MParam, Valid P := ⟨_, exists_uniform.choose_spec.valid⟩

/-! ## C22 -/

/-- C22. On the tensor grid of the orders, the basis functions evaluated by the library are
discretely orthonormal: for every index set inside the box of the orders (any subset, any row
order), rows `r`, `s` of the polynomial matrix satisfy `Σ_k w_k P[r,k] P[s,k] = [row r = row s]`.
Two or more dimensions. -/
theorem c22_discrete_orthonormal (params : List MParam) (hne : params ≠ [])
    (hd : params.length ≠ 1) (hP : ∀ P ∈ params, Valid P)
    (orders : List ℕ) (ho : orders.length = params.length)
    (basis : List (List ℕ)) (hb : ∀ row ∈ basis, List.Forall₂ (· ≤ ·) row orders) :
    ∃ pts wts, tensorGrid (localRules params orders) = .ok (pts, wts) ∧
      ∀ r s (hr : r < basis.length) (hs : s < basis.length),
        ∑ k ∈ Finset.range pts.length,
          wts.getD k 0 * (entry (multiPoly params basis params.length pts) r k *
            entry (multiPoly params basis params.length pts) s k) =
          if basis[r] = basis[s] then 1 else 0 := by
  have hne' : localRules params orders ≠ [] := by
    intro h
    have := localRules_length params orders ho
    rw [h] at this
    exact hne (List.length_eq_zero_iff.1 this.symm)
  refine ⟨_, _, tensorGrid_eq _ hne' (localRules_len_eq params orders), fun r s hr hs => ?_⟩
  rw [← grid_orth params hP orders ho _ _ (hb _ (List.getElem_mem hr)) (hb _ (List.getElem_mem hs))]
  set I := ixs ((localRules params orders).map fun r => r.pts.length) with hI
  have hbl : ∀ row ∈ basis, row.length = params.length := fun row h => by
    rw [(hb row h).length_eq, ho]
  have hpl : ∀ x ∈ I.map (gridPoint (localRules params orders)), x.length = params.length := by
    intro x hx
    obtain ⟨idx, hidx, rfl⟩ := List.mem_map.1 hx
    have := ixs_length _ _ hidx
    rw [List.length_map] at this
    simp [gridPoint, this, localRules_length params orders ho]
  have e : (I.map fun idx => gridWeight (localRules params orders) idx *
      (basisFun params basis[r] (gridPoint (localRules params orders) idx) *
       basisFun params basis[s] (gridPoint (localRules params orders) idx))).sum =
      ∑ k ∈ Finset.range I.length, (I.map fun idx => gridWeight (localRules params orders) idx *
      (basisFun params basis[r] (gridPoint (localRules params orders) idx) *
       basisFun params basis[s] (gridPoint (localRules params orders) idx))).getD k 0 := by
    conv_lhs => rw [← map_range_getD (I.map _) 0, List.length_map]
    rfl
  rw [e, List.length_map]
  apply Finset.sum_congr rfl
  intro k hk
  rw [Finset.mem_range] at hk
  rw [multiPoly_entry params basis _ hd hbl hpl r k hr (by simpa using hk),
    multiPoly_entry params basis _ hd hbl hpl s k hs (by simpa using hk),
    getD_map_lt _ _ _ _ hk, getD_map_lt _ _ _ _ hk]
  simp

/-- C22 in one dimension: the matrix has the rows of all degrees up to the largest one in the
basis, and these are discretely orthonormal. -/
theorem c22_discrete_orthonormal_one (P : MParam) (hP : Valid P) (order : ℕ)
    (basis : List (List ℕ)) (hb : ∀ row ∈ basis, row.getD 0 0 ≤ order) :
    ∃ pts wts, tensorGrid (localRules [P] [order]) = .ok (pts, wts) ∧
      ∀ r s, r < (multiPoly [P] basis 1 pts).length → s < (multiPoly [P] basis 1 pts).length →
        ∑ k ∈ Finset.range pts.length,
          wts.getD k 0 * (entry (multiPoly [P] basis 1 pts) r k *
            entry (multiPoly [P] basis 1 pts) s k) = if r = s then 1 else 0 := by
  have hne' : localRules [P] [order] ≠ [] := by simp [localRules]
  refine ⟨_, _, tensorGrid_eq _ hne' (localRules_len_eq [P] [order]), fun r s hr hs => ?_⟩
  have hlen : ∀ pts, (multiPoly [P] basis 1 pts).length = colMax basis 0 + 1 := by
    intro pts; simp [multiPoly]
  rw [hlen] at hr hs
  have hc : colMax basis 0 ≤ order := colMax_le _ _ _ hb
  have key := grid_orth [P] (by simpa using hP) [order] rfl [r] [s]
    (.cons (by omega) .nil) (.cons (by omega) .nil)
  simp only [List.cons.injEq, and_true] at key
  rw [← key]
  set I := ixs ((localRules [P] [order]).map fun r => r.pts.length) with hI
  have hpl : ∀ x ∈ I.map (gridPoint (localRules [P] [order])), x.length = 1 := by
    intro x hx
    obtain ⟨idx, hidx, rfl⟩ := List.mem_map.1 hx
    have := ixs_length _ _ hidx
    rw [List.length_map] at this
    simp [gridPoint, this, localRules]
  conv_rhs => rw [← map_range_getD (I.map _) 0, List.length_map]
  rw [List.length_map]
  show _ = ∑ k ∈ Finset.range I.length, _
  apply Finset.sum_congr rfl
  intro k hk
  rw [Finset.mem_range] at hk
  rw [multiPoly_entry_one P basis _ hpl r k (by omega) (by simpa using hk),
    multiPoly_entry_one P basis _ hpl s k (by omega) (by simpa using hk),
    getD_map_lt _ _ _ _ hk, getD_map_lt _ _ _ _ hk]
  simp

example : ∃ params : List MParam, params ≠ [] ∧ params.length ≠ 1 ∧ (∀ P ∈ params, Valid P) ∧
    ∀ row ∈ [[0, 0], [1, 0], [0, 2]], List.Forall₂ (· ≤ ·) row [1, 2] := by
  obtain ⟨P, hP⟩ := exists_uniform
  exact ⟨[P, P], by simp, by simp, by simp [hP.valid], by simp⟩

/-! ## C23 -/

theorem mapM_ok {α β : Type} (f : α → β) (g : α → Except Err β) (l : List α)
    (h : ∀ a ∈ l, g a = .ok (f a)) : l.mapM g = .ok (l.map f) := by
  induction l with
  | nil => rfl
  | cons a l ih =>
    rw [List.mapM_cons, h a (by simp), ih fun b hb => h b (by simp [hb])]
    rfl

/-- The total weight that the stacked (repeated) points give to `x`. -/
noncomputable def totalWeight (pts : List (List ℝ)) (wts : List ℝ) (x : List ℝ) : ℝ :=
  open Classical in (((pts.zip wts).filter fun q => q.1 = x).map Prod.snd).sum

theorem stack_length (G : List ℕ → List (List ℝ) × List ℝ) (hG : ∀ o, (G o).1.length = (G o).2.length)
    (orders : List (List ℕ)) : ∀ factors : List ℚ, factors.length = orders.length →
    (List.zipWith (fun g (a : ℚ) => g.2.map fun w => w * (a : ℝ)) (orders.map G) factors).flatten.length =
      ((orders.map G).map Prod.fst).flatten.length := by
  induction orders with
  | nil => simp
  | cons o os ih =>
    intro factors hfl
    cases factors with
    | nil => simp at hfl
    | cons a as =>
      have := ih as (by simpa using hfl)
      simp only [List.map_cons, List.zipWith_cons_cons, List.flatten_cons, List.length_append,
        List.length_map, hG o] at this ⊢
      omega

theorem stack_sum (G : List ℕ → List (List ℝ) × List ℝ) (hG : ∀ o, (G o).2.sum = 1)
    (orders : List (List ℕ)) : ∀ factors : List ℚ, factors.length = orders.length →
    (List.zipWith (fun g (a : ℚ) => g.2.map fun w => w * (a : ℝ)) (orders.map G) factors).flatten.sum =
      ((factors.sum : ℚ) : ℝ) := by
  induction orders with
  | nil =>
    intro factors hfl
    rw [List.length_eq_zero_iff.1 hfl]; simp
  | cons o os ih =>
    intro factors hfl
    cases factors with
    | nil => simp at hfl
    | cons a as =>
      have := ih as (by simpa using hfl)
      simp only [List.map_cons, List.zipWith_cons_cons, List.flatten_cons, List.sum_append,
        List.sum_cons, Rat.cast_add] at this ⊢
      rw [this, List.sum_map_mul_right, List.map_id', hG o, one_mul]

theorem total_of_nodup (sp : List (List ℝ)) : ∀ (sw : List ℝ), sw.length = sp.length → sp.Nodup →
    ∀ i, i < sp.length → sw.getD i 0 = totalWeight sp sw (sp.getD i []) := by
  classical
  unfold totalWeight
  induction sp with
  | nil => intro sw _ _ i h1; simp at h1
  | cons x xs ih =>
    intro sw hlen hnd i h1
    cases sw with
    | nil => simp at hlen
    | cons w ws =>
      rw [List.nodup_cons] at hnd
      cases i with
      | zero =>
        have : ((xs.zip ws).filter fun q => decide (q.1 = x)) = [] := by
          rw [List.filter_eq_nil_iff]
          intro q hq
          have := (List.of_mem_zip hq).1
          simp only [decide_eq_true_eq]
          rintro rfl
          exact hnd.1 this
        simp [this]
      | succ i =>
        have h1' : i < xs.length := by simpa using h1
        have := ih ws (by simpa using hlen) hnd.2 i h1'
        simp only [List.getD_cons_succ]
        rw [this, List.zip_cons_cons, List.filter_cons_of_neg]
        simp only [decide_eq_true_eq]
        intro he
        apply hnd.1
        rw [he, List.getD_eq_getElem?_getD, List.getElem?_eq_getElem h1']
        exact List.getElem_mem _

/-- C23, the part that holds. The combination of tensor grids has total weight one. The mesh
returned lists each of its distinct points once, in lexicographic order; the weight returned
with a point is the weight of its *first* occurrence in the combination, so the returned
weights miss one exactly by the weight of the repeated occurrences. If no point is shared by
two tensor grids, the weights are the total weights and sum to one. Missing for the full
property: points shared between grids (see `c23_sparse_mesh_violated`). -/
theorem c23_sparse_mesh_partial (params : List MParam) (hne : params ≠ [])
    (hP : ∀ P ∈ params, Valid P) (level : ℕ) (g : Growth) (hg : g ≠ .other) :
    ∃ orders factors S sp sw pts wts,
      sparseGridBasis level g params.length = .ok (orders, factors, S) ∧
      sparseStack params orders factors = .ok (sp, sw) ∧
      sparseGridMesh params level g = .ok (pts, wts) ∧
      sw.length = sp.length ∧ sw.sum = 1 ∧
      pts.Nodup ∧ pts.Pairwise Spec.LexLt ∧ (∀ x, x ∈ pts ↔ x ∈ sp) ∧ wts.length = pts.length ∧
      (∀ k, k < pts.length → ∃ i, i < sp.length ∧ sp.getD i [] = pts.getD k [] ∧
        (∀ j < i, sp.getD j [] ≠ pts.getD k []) ∧ wts.getD k 0 = sw.getD i 0) ∧
      (wts.sum = 1 - (((List.range sp.length).filter fun i =>
        sp.getD i [] ∈ sp.take i).map fun i => sw.getD i 0).sum) ∧
      (sp.Nodup → wts.sum = 1 ∧
        ∀ k, k < pts.length → wts.getD k 0 = totalWeight sp sw (pts.getD k [])) := by
  classical
  obtain ⟨L, orders, factors, S, hS, hL, _, hrel, hfac, hsum, _⟩ :=
    c08_sparse_grid_basis level params.length (by simpa using hne) g hg
  have hol : ∀ o ∈ orders, o.length = params.length := by
    intro o ho
    obtain ⟨i, hi, rfl⟩ := List.getElem_of_mem ho
    have hi' : i < L.length := by rw [hrel.length_eq]; exact hi
    have h1 := (List.forall₂_iff_get.1 hrel).2 i hi' hi
    rw [List.get_eq_getElem, List.get_eq_getElem] at h1
    rw [← h1.length_eq]
    exact ((hL _).1 (List.getElem_mem hi')).1
  have hfl : factors.length = orders.length := by
    rw [hfac, List.length_map, hrel.length_eq]
  let G : List ℕ → List (List ℝ) × List ℝ := fun o =>
    ((ixs ((localRules params o).map fun r => r.pts.length)).map (gridPoint (localRules params o)),
     (ixs ((localRules params o).map fun r => r.pts.length)).map (gridWeight (localRules params o)))
  have hG : ∀ o ∈ orders, tensorGrid (localRules params o) = .ok (G o) := by
    intro o ho
    apply tensorGrid_eq _ _ (localRules_len_eq params o)
    intro h
    have := localRules_length params o (hol o ho)
    rw [h] at this
    exact hne (List.length_eq_zero_iff.1 this.symm)
  have hGl : ∀ o, (G o).1.length = (G o).2.length := fun o => by simp [G]
  have hGs : ∀ o, (G o).2.sum = 1 := fun o =>
    grid_sum_one _ (localRules_len_eq params o) fun r hr => (localRules_wts params hP o r hr).1
  have hGd : ∀ o ∈ orders, ∀ x ∈ (G o).1, x.length = params.length := by
    intro o ho x hx
    obtain ⟨idx, hidx, rfl⟩ := List.mem_map.1 hx
    have := ixs_length _ _ hidx
    rw [List.length_map] at this
    simp [gridPoint, this, localRules_length params o (hol o ho)]
  set sp := ((orders.map G).map Prod.fst).flatten with hsp
  set sw := (List.zipWith (fun g (a : ℚ) => g.2.map fun w => w * (a : ℝ)) (orders.map G) factors).flatten
    with hsw
  have hstack : sparseStack params orders factors = .ok (sp, sw) := by
    unfold sparseStack
    rw [mapM_ok G _ _ hG]
    rfl
  have hlen : sw.length = sp.length := stack_length G hGl orders factors hfl
  have hone : sw.sum = 1 := by
    rw [hsw, stack_sum G hGs orders factors hfl, hsum, Rat.cast_one]
  have hspd : ∀ x ∈ sp, x.length = params.length := by
    intro x hx
    rw [hsp] at hx
    simp only [List.mem_flatten, List.mem_map] at hx
    obtain ⟨l, ⟨q, ⟨o, ho, rfl⟩, rfl⟩, hx⟩ := hx
    exact hGd o ho x hx
  have hsumlaw := unique_sum sp sw hlen
  refine ⟨orders, factors, S, sp, sw, (uniqueIndex sp).map fun i => sp.getD i [],
    (uniqueIndex sp).map fun i => sw.getD i 0, hS, hstack, ?_, hlen, hone,
    uniqueIndex_points_nodup sp, ?_, mem_unique_points sp, by simp, ?_, ?_, ?_⟩
  · unfold sparseGridMesh
    rw [hS]
    show (Except.bind (sparseStack params orders factors) _) = _
    rw [hstack]
    rfl
  · have hs := uniqueIndex_sorted sp
    have hnd := uniqueIndex_points_nodup sp
    refine (List.Pairwise.and hs hnd).imp_of_mem ?_
    intro a b ha hb hab
    rw [mem_unique_points] at ha hb
    exact rowLe_lexLt a b (by rw [hspd a ha, hspd b hb]) hab.1 hab.2
  · intro k hk
    rw [List.length_map] at hk
    have hm := List.getElem_mem hk
    obtain ⟨h1, h2⟩ := (mem_uniqueIndex sp _).1 hm
    refine ⟨(uniqueIndex sp)[k], h1, ?_, fun j hj => ?_, ?_⟩
    · rw [getD_map_lt _ _ _ _ hk]
    · rw [getD_map_lt _ _ _ _ hk]
      have := h2 j hj
      simpa [List.getD_eq_getElem?_getD, List.getElem?_eq_getElem h1,
        List.getElem?_eq_getElem (lt_trans hj h1)] using this
    · rw [getD_map_lt _ _ _ _ hk]
  · rw [hone] at hsumlaw
    have : ((List.range sp.length).filter fun i => i ∉ firstPositions sp) =
        (List.range sp.length).filter fun i => sp.getD i [] ∈ sp.take i := by
      apply List.filter_congr
      intro i hi
      rw [decide_eq_decide]
      unfold firstPositions
      rw [List.mem_filter]
      simp [List.mem_range.1 hi]
    rw [← this]
    linarith
  · intro hnd
    have hfp : firstPositions sp = List.range sp.length := by
      unfold firstPositions
      rw [List.filter_eq_self]
      intro i hi
      rw [List.mem_range] at hi
      simp only [decide_eq_true_eq, List.getD_eq_getElem?_getD, List.getElem?_eq_getElem hi,
        Option.getD_some]
      intro hm
      obtain ⟨j, hj, he⟩ := List.mem_take_iff_getElem.1 hm
      have := (List.Nodup.getElem_inj_iff hnd).1 he
      omega
    constructor
    · rw [hone, hfp] at hsumlaw
      have : ((List.range sp.length).filter fun i => i ∉ List.range sp.length) = [] := by
        rw [List.filter_eq_nil_iff]
        intro i hi
        simpa using hi
      rw [this] at hsumlaw
      simpa using hsumlaw
    · intro k hk
      rw [List.length_map] at hk
      have hm := List.getElem_mem hk
      obtain ⟨h1, _⟩ := (mem_uniqueIndex sp _).1 hm
      rw [getD_map_lt _ _ _ _ hk, getD_map_lt _ _ _ _ hk]
      exact total_of_nodup sp sw hlen hnd _ h1

/-- C23 is false: for two uniform parameters on `[-1, 1]`, level 1 and linear growth, the
origin belongs to two of the tensor grids, one of its weights is dropped, and the weights of the
mesh do not sum to one. -/
theorem c23_sparse_mesh_violated :
    ∃ P : MParam, IsUniform P ∧ ∃ pts wts,
      sparseGridMesh [P, P] 1 .linear = .ok (pts, wts) ∧ wts.sum ≠ 1 := by
  classical
  obtain ⟨P, hP⟩ := exists_uniform
  obtain ⟨orders, factors, S, sp, sw, pts, wts, h1, h2, h3, h4, _, _, _, _, _, _, hlaw, _⟩ :=
    c23_sparse_mesh_partial [P, P] (by simp) (by simp [hP.valid]) 1 .linear (by simp)
  refine ⟨P, hP, pts, wts, h3, ?_⟩
  obtain ⟨a, u1, u2, ha, r1⟩ := hP.rule1
  obtain ⟨c, v1, v2, v3, hc, hv2, r2⟩ := hP.rule2
  have r0 := hP.rule0
  have hb : sparseGridBasis 1 .linear 2 =
      .ok ([[0, 1], [0, 2], [1, 0], [1, 1], [2, 0]], [-1, 1, -1, 1, 1],
        [[0, 0], [0, 1], [0, 0], [0, 1], [0, 2], [0, 0], [1, 0], [0, 0], [0, 1], [1, 0], [1, 1],
         [0, 0], [1, 0], [2, 0]]) := by decide +kernel
  rw [show [P, P].length = 2 from rfl, hb] at h1
  simp only [Except.ok.injEq, Prod.mk.injEq] at h1
  obtain ⟨rfl, rfl, _⟩ := h1
  have hst : sparseStack [P, P] [[0, 1], [0, 2], [1, 0], [1, 1], [2, 0]] [-1, 1, -1, 1, 1] =
      .ok ([[0, -a], [0, a], [0, -c], [0, 0], [0, c], [-a, 0], [a, 0], [-a, -a], [-a, a], [a, -a],
        [a, a], [-c, 0], [0, 0], [c, 0]],
        [-u1, -u2, v1, v2, v3, -u1, -u2, u1 * u1, u1 * u2, u2 * u1, u2 * u2, v1, v2, v3]) := by
    have e1 : (1.0 : ℝ) = 1 := by norm_num
    simp [sparseStack, localRules, r0, r1, r2, tensorGrid, tensorStep, leftSide, rightSide,
      kronWeights, List.mapM_cons, List.replicate, bind, Except.bind, pure, Except.pure, e1]
  rw [hst] at h2
  simp only [Except.ok.injEq, Prod.mk.injEq] at h2
  obtain ⟨rfl, rfl⟩ := h2
  have ha0 : a ≠ 0 := by rintro rfl; norm_num at ha
  have hc0 : c ≠ 0 := by rintro rfl; norm_num at hc
  have hac : a ≠ c := by rintro rfl; rw [ha] at hc; norm_num at hc
  have hac' : a ≠ -c := by rintro rfl; rw [neg_sq, hc] at ha; norm_num at ha
  have hca' : -a ≠ c := by intro h; exact hac' (by linarith)
  have haa : -a ≠ a := by intro h; exact ha0 (by linarith)
  have hcc : -c ≠ c := by intro h; exact hc0 (by linarith)
  have hlaw' : wts.sum = 1 - v2 := by
    rw [hlaw]
    congr 1
    have n12 : ([0, 0] : List ℝ) ∈ ([[0, -a], [0, a], [0, -c], [0, 0], [0, c], [-a, 0], [a, 0],
      [-a, -a], [-a, a], [a, -a], [a, a], [-c, 0]] : List (List ℝ)) := by simp
    have hr : List.range ([[0, -a], [0, a], [0, -c], [0, 0], [0, c], [-a, 0], [a, 0], [-a, -a],
        [-a, a], [a, -a], [a, a], [-c, 0], [0, 0], [c, 0]] : List (List ℝ)).length =
        [0, 1, 2, 3, 4, 5, 6, 7, 8, 9, 10, 11, 12, 13] := rfl
    rw [hr]
    simp only [List.filter_cons, List.filter_nil, List.getD_cons_zero, List.getD_cons_succ,
      List.take_succ_cons, List.take_zero, n12, decide_true, if_true]
    simp [ha0, hc0, hac, hac.symm, hac', hac'.symm, hca', hca'.symm, haa,
      haa.symm, hcc.symm, ha0.symm, hc0.symm]
  rw [hlaw']
  intro h
  linarith

example : ∃ params : List MParam, params ≠ [] ∧ ∀ P ∈ params, Valid P :=
  ⟨[exists_uniform.choose], by simp, by simp [exists_uniform.choose_spec.valid]⟩

end EQ.Sampling
