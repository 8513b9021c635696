import Verif.Sampling.Props
import Mathlib.Data.List.GetD

/-!
# Properties of sampled meshes and of subsampling (C24–C27)
-/

namespace EQ.Sampling
open EQ.Param EQ.Basis Spec

theorem getD_of_lt {α : Type*} (l : List α) (d : α) (i : ℕ) (h : i < l.length) :
    l.getD i d = l[i] := by
  rw [List.getD_eq_getElem?_getD, List.getElem?_eq_getElem h, Option.getD_some]

/-! ## C24 -/

theorem sampleWeights_facts (P : List (List ℝ)) (m : ℕ) (hm : 0 < m)
    (hpos : ∀ k < m, 0 < (P.map fun row => row.getD k 0 ^ 2).sum) :
    (sampleWeights P m).length = m ∧ (∀ w ∈ sampleWeights P m, 0 < w) ∧
    (sampleWeights P m).sum = 1 ∧
    ∃ c, 0 < c ∧ ∀ k < m, (sampleWeights P m).getD k 0 *
      (P.map fun row => row.getD k 0 ^ 2).sum = c := by
  set wts := (columnSquares P m).map fun s => 1.0 / s with hw
  have hlen : wts.length = m := by simp [hw, columnSquares]
  have hwk : ∀ k (h : k < m), wts.getD k 0 = 1 / (P.map fun row => row.getD k 0 ^ 2).sum := by
    intro k h
    rw [hw, columnSquares, List.map_map, getD_map_lt _ _ _ _ (by simpa using h)]
    simp
    norm_num
  have hwpos : ∀ w ∈ wts, 0 < w := by
    intro w hmem
    obtain ⟨k, hk, rfl⟩ := List.getElem_of_mem hmem
    have := hwk k (by omega)
    rw [List.getD_eq_getElem?_getD, List.getElem?_eq_getElem hk, Option.getD_some] at this
    rw [this]
    exact one_div_pos.2 (hpos k (by omega))
  have hsum : 0 < wts.sum := by
    apply List.sum_pos _ hwpos
    intro h
    rw [h] at hlen
    simp at hlen
    omega
  have e : sampleWeights P m = wts.map fun w => w * wts.sum⁻¹ := by
    unfold sampleWeights
    rw [← hw]
    apply List.map_congr_left
    intro w _
    rw [div_eq_mul_inv]
    norm_num
  rw [e]
  refine ⟨by simp [hlen], ?_, ?_, wts.sum⁻¹, inv_pos.2 hsum, fun k hk => ?_⟩
  · intro w hmem
    obtain ⟨v, hv, rfl⟩ := List.mem_map.1 hmem
    exact mul_pos (hwpos v hv) (inv_pos.2 hsum)
  · rw [List.sum_map_mul_right, List.map_id']
    exact mul_inv_cancel₀ hsum.ne'
  · rw [getD_map_lt _ _ _ _ (by omega)]
    have := hwk k hk
    rw [List.getD_eq_getElem?_getD, List.getElem?_eq_getElem (by omega), Option.getD_some] at this
    rw [this]
    have := (hpos k hk).ne'
    field_simp

theorem basisFun_zero (params : List MParam) : ∀ (x : List ℝ), x.length = params.length →
    basisFun params (List.replicate params.length 0) x = 1 := by
  induction params with
  | nil => intro x _; simp [basisFun]
  | cons P Ps ih =>
    intro x hx
    cases x with
    | nil => simp at hx
    | cons a x =>
      simp only [List.length_cons, List.replicate_succ, basisFun]
      rw [ih x (by simpa using hx), univ_eq]
      simp [opoly]

/-- C24 (two or more dimensions), for Monte-Carlo and user-defined meshes. For every non-empty
set of points and every basis that contains the constant, the weights are positive, sum to one,
and are inversely proportional to the sum of squares of the basis functions at the point. -/
theorem c24_sample_weights (params : List MParam) (hd : params.length ≠ 1)
    (basis : List (List ℕ)) (hb : ∀ row ∈ basis, row.length = params.length)
    (hc : List.replicate params.length 0 ∈ basis)
    (pts : List (List ℝ)) (hne : pts ≠ []) (hp : ∀ x ∈ pts, x.length = params.length) :
    let W := sampleWeights (multiPoly params basis params.length pts) pts.length
    W.length = pts.length ∧ (∀ w ∈ W, 0 < w) ∧ W.sum = 1 ∧
    ∃ c, 0 < c ∧ ∀ k (hk : k < pts.length),
      W.getD k 0 * (basis.map fun row => basisFun params row pts[k] ^ 2).sum = c := by
  have hm : 0 < pts.length := List.length_pos_of_ne_nil hne
  have hcol : ∀ k (hk : k < pts.length),
      ((multiPoly params basis params.length pts).map fun row => row.getD k 0 ^ 2).sum =
        (basis.map fun row => basisFun params row pts[k] ^ 2).sum := by
    intro k hk
    congr 1
    have hlen : (multiPoly params basis params.length pts).length = basis.length := by
      simp [multiPoly, hd]
    apply List.ext_getElem
    · simp [hlen]
    · intro r h1 h2
      simp only [List.length_map] at h1 h2
      have := multiPoly_entry params basis pts hd hb hp r k h2 hk
      unfold entry at this
      rw [getD_of_lt (multiPoly params basis params.length pts) _ _ h1] at this
      simp only [List.getElem_map]
      rw [this]
  have hpos : ∀ k (hk : k < pts.length),
      0 < (basis.map fun row => basisFun params row pts[k] ^ 2).sum := by
    intro k hk
    have h1 : (1 : ℝ) ∈ basis.map fun row => basisFun params row pts[k] ^ 2 :=
      List.mem_map.2 ⟨_, hc, by rw [basisFun_zero _ _ (hp _ (List.getElem_mem hk))]; norm_num⟩
    refine lt_of_lt_of_le one_pos (List.single_le_sum ?_ _ h1)
    intro y hy
    obtain ⟨row, _, rfl⟩ := List.mem_map.1 hy
    positivity
  obtain ⟨h1, h2, h3, c, hc, h4⟩ := sampleWeights_facts (multiPoly params basis params.length pts)
    pts.length hm (fun k hk => by rw [hcol k hk]; exact hpos k hk)
  exact ⟨h1, h2, h3, c, hc, fun k hk => by rw [← hcol k hk]; exact h4 k hk⟩

/-- C24 in one dimension: the sum of squares runs over all degrees up to the largest of the
basis. -/
theorem c24_sample_weights_one (P : MParam) (basis : List (List ℕ))
    (pts : List (List ℝ)) (hne : pts ≠ []) (hp : ∀ x ∈ pts, x.length = 1) :
    let W := sampleWeights (multiPoly [P] basis 1 pts) pts.length
    W.length = pts.length ∧ (∀ w ∈ W, 0 < w) ∧ W.sum = 1 ∧
    ∃ c, 0 < c ∧ ∀ k (hk : k < pts.length),
      W.getD k 0 * ∑ n ∈ Finset.range (colMax basis 0 + 1), basisFun [P] [n] pts[k] ^ 2 = c := by
  have hm : 0 < pts.length := List.length_pos_of_ne_nil hne
  have hcol : ∀ k (hk : k < pts.length),
      ((multiPoly [P] basis 1 pts).map fun row => row.getD k 0 ^ 2).sum =
        ∑ n ∈ Finset.range (colMax basis 0 + 1), basisFun [P] [n] pts[k] ^ 2 := by
    intro k hk
    have hlen : (multiPoly [P] basis 1 pts).length = colMax basis 0 + 1 := by simp [multiPoly]
    show _ = ((List.range (colMax basis 0 + 1)).map fun n => basisFun [P] [n] pts[k] ^ 2).sum
    congr 1
    apply List.ext_getElem
    · simp [hlen]
    · intro r h1 h2
      simp only [List.length_map, List.length_range] at h1 h2
      have := multiPoly_entry_one P basis pts hp r k (by omega) hk
      unfold entry at this
      rw [getD_of_lt (multiPoly [P] basis 1 pts) _ _ h1] at this
      simp only [List.getElem_map, List.getElem_range]
      rw [this]
  have hpos : ∀ k (hk : k < pts.length),
      0 < ∑ n ∈ Finset.range (colMax basis 0 + 1), basisFun [P] [n] pts[k] ^ 2 := by
    intro k hk
    have h0 : basisFun [P] [0] pts[k] ^ 2 = 1 := by
      have := basisFun_zero [P] pts[k] (hp _ (List.getElem_mem hk))
      simp only [List.length_singleton, List.replicate_one] at this
      rw [this]; norm_num
    refine lt_of_lt_of_le one_pos ?_
    rw [← h0]
    exact Finset.single_le_sum (f := fun n => basisFun [P] [n] pts[k] ^ 2)
      (fun n _ => sq_nonneg _) (Finset.mem_range.2 (by omega))
  obtain ⟨h1, h2, h3, c, hc, h4⟩ := sampleWeights_facts (multiPoly [P] basis 1 pts)
    pts.length hm (fun k hk => by rw [hcol k hk]; exact hpos k hk)
  exact ⟨h1, h2, h3, c, hc, fun k hk => by rw [← hcol k hk]; exact h4 k hk⟩

example : List.replicate 2 0 ∈ [[0, 0], [1, 0], [0, 1]] ∧
    ∀ row ∈ [[0, 0], [1, 0], [0, 1]], row.length = 2 := by simp

/-! ## C25 -/

/-- C25 for the QR, SVD and LU methods: whatever permutation of the `m` rows the factorisation
returns, the first `k ≤ m` pivots are `k` distinct rows of the mesh. -/
theorem c25_pivots_distinct (pvec : List ℕ) (m k : ℕ) (hperm : pvec.Perm (List.range m))
    (hk : k ≤ m) :
    (takePivots pvec k).length = k ∧ (takePivots pvec k).Nodup ∧ ∀ i ∈ takePivots pvec k, i < m := by
  have hl : pvec.length = m := by simpa using hperm.length_eq
  refine ⟨by simp [takePivots, hl, hk], (hperm.nodup_iff.2 List.nodup_range).sublist
    (List.take_sublist _ _), fun i hi => ?_⟩
  exact List.mem_range.1 (hperm.mem_iff.1 (List.mem_of_mem_take hi))

/-- The matrix of a permutation `π` of `m` rows: row `i` has its one in column `π i`. -/
def permMatrix {m : ℕ} (π : Equiv.Perm (Fin m)) : List (List ℝ) :=
  List.ofFn fun i => List.ofFn fun j => if π i = j then 1 else 0

theorem luPivots_eq {m : ℕ} (π : Equiv.Perm (Fin m)) (k : ℕ) :
    luPivots (permMatrix π) k = (List.ofFn fun i => ((π i : Fin m) : ℕ)).take k := by
  classical
  unfold luPivots permMatrix
  congr 1
  have : ∀ i : Fin m, ((List.range (List.ofFn fun j : Fin m => if π i = j then (1 : ℝ) else 0).length).filter
      fun j => decide ((List.ofFn fun j : Fin m => if π i = j then (1 : ℝ) else 0).getD j 0 = 1)) =
      [((π i : Fin m) : ℕ)] := by
    intro i
    rw [List.length_ofFn]
    have h1 : ∀ j ∈ List.range m,
        decide ((List.ofFn fun j : Fin m => if π i = j then (1 : ℝ) else 0).getD j 0 = 1) =
          decide (j = ((π i : Fin m) : ℕ)) := by
      intro j hj
      rw [List.mem_range] at hj
      rw [List.getD_eq_getElem?_getD, List.getElem?_eq_getElem (by simpa using hj)]
      simp only [List.getElem_ofFn, Option.getD_some]
      by_cases h : π i = ⟨j, hj⟩
      · simp [h]
      · have h' : ¬ j = ((π i : Fin m) : ℕ) := fun e => h (Fin.ext e.symm)
        simp [h, h']
    rw [List.filter_congr h1]
    have := List.nodup_range (n := m)
    have hmem : ((π i : Fin m) : ℕ) ∈ List.range m := List.mem_range.2 (π i).2
    have h2 := List.filter_beq (l := List.range m) (((π i : Fin m) : ℕ))
    simp only [beq_eq_decide] at h2
    rw [h2, List.count_eq_one_of_mem this hmem]
    rfl
  rw [List.ofFn_eq_map, List.ofFn_eq_map, List.flatMap_map]
  have h3 : ∀ l : List (Fin m), l.flatMap (fun i =>
      (List.range (List.ofFn fun j : Fin m => if π i = j then (1 : ℝ) else 0).length).filter
        fun j => decide ((List.ofFn fun j : Fin m => if π i = j then (1 : ℝ) else 0).getD j 0 = 1)) =
      l.map fun i => ((π i : Fin m) : ℕ) := by
    intro l
    induction l with
    | nil => rfl
    | cons i l ih => rw [List.flatMap_cons, this i, ih]; rfl
  exact h3 _

/-- C25 for LU. -/
theorem c25_lu_distinct {m : ℕ} (π : Equiv.Perm (Fin m)) (k : ℕ) (hk : k ≤ m) :
    (luPivots (permMatrix π) k).length = k ∧ (luPivots (permMatrix π) k).Nodup ∧
    ∀ i ∈ luPivots (permMatrix π) k, i < m := by
  rw [luPivots_eq]
  refine ⟨by simp [hk], ?_, fun i hi => ?_⟩
  · apply List.Nodup.sublist (List.take_sublist _ _)
    rw [List.nodup_ofFn]
    intro a b h
    exact π.injective (Fin.ext h)
  · obtain ⟨j, rfl⟩ := List.mem_ofFn.1 (List.mem_of_mem_take hi)
    exact (π j).2

/-- C25: the retained weights are the original ones rescaled to sum to one (for every list of
distinct rows with positive weights), and points keep their weights. -/
theorem c25_renormalised (pts : List (List ℝ)) (wts : List ℝ) (z : List ℕ) (hz : z ≠ [])
    (hlt : ∀ i ∈ z, i < wts.length) (hpos : ∀ w ∈ wts, 0 < w) :
    let R := subsample pts wts z
    R.1.length = z.length ∧ R.2.length = z.length ∧ R.2.sum = 1 ∧ (∀ w ∈ R.2, 0 < w) ∧
    ∃ c, 0 < c ∧ ∀ k (hk : k < z.length),
      R.1.getD k [] = pts.getD z[k] [] ∧ R.2.getD k 0 = c * wts.getD z[k] 0 := by
  have hp : ∀ w ∈ z.map (fun i => wts.getD i 0), 0 < w := by
    intro w hw
    obtain ⟨i, hi, rfl⟩ := List.mem_map.1 hw
    rw [List.getD_eq_getElem?_getD, List.getElem?_eq_getElem (hlt i hi), Option.getD_some]
    exact hpos _ (List.getElem_mem _)
  have hs : 0 < (z.map fun i => wts.getD i 0).sum := List.sum_pos _ hp (by simpa using hz)
  simp only [subsample]
  refine ⟨by simp, by simp, ?_, ?_, ((z.map fun i => wts.getD i 0).sum)⁻¹, inv_pos.2 hs,
    fun k hk => ⟨?_, ?_⟩⟩
  · simp only [div_eq_mul_inv]
    rw [List.sum_map_mul_right, List.map_id']
    exact mul_inv_cancel₀ hs.ne'
  · intro w hw
    obtain ⟨v, hv, rfl⟩ := List.mem_map.1 hw
    exact div_pos (hp v hv) hs
  · rw [getD_map_lt _ _ _ _ hk]
  · rw [getD_map_lt _ _ _ _ (by simpa using hk), List.getElem_map, div_eq_mul_inv, mul_comm]

/-- C25 for the Newton method, the part that holds: the selection is a set of distinct rows, at
most `k` of them, and exactly `k` if the relaxed solution has a strict gap between its `k`
largest entries and the rest (`s` is the sorted relaxed solution). Missing: ties at the
threshold, see `c25_newton_violated`. -/
theorem c25_newton_partial (z : List ℝ) (k : ℕ) (hk : k < z.length) :
    (newtonSelect z k).Nodup ∧ (∀ i ∈ newtonSelect z k, i < z.length) ∧
    (newtonSelect z k).length ≤ k ∧
    ∀ s : List ℝ, s.Perm z → s.Pairwise (· ≤ ·) →
      s.getD (z.length - k - 1) 0 < s.getD (z.length - k) 0 ∨ k = 0 →
      (newtonSelect z k).length = k := by
  classical
  have hnd : (newtonSelect z k).Nodup := List.nodup_range.filter _
  set zs := z.mergeSort (fun a b => a ≤ b) with hzs
  have hperm : zs.Perm z := List.mergeSort_perm _ _
  have hsorted : zs.Pairwise (· ≤ ·) := by
    have := List.pairwise_mergeSort (le := fun a b : ℝ => decide (a ≤ b))
      (by intro a b c h1 h2; simp only [decide_eq_true_eq] at *; exact h1.trans h2)
      (by intro a b; simp only [Bool.or_eq_true, decide_eq_true_eq]; exact le_total a b) z
    exact this.imp fun {a b} h => by simpa using h
  have hlen : zs.length = z.length := hperm.length_eq
  set t := zs.getD (z.length - k - 1) 0 with ht
  -- the number selected is the number of entries of the sorted list above the threshold
  have hcount : (newtonSelect z k).length = (zs.filter fun a => decide (a > t)).length := by
    have h1 : (newtonSelect z k).length = (z.filter fun a => decide (a > t)).length := by
      unfold newtonSelect
      simp only [← hzs, ← ht]
      conv_rhs => rw [← map_range_getD z 0, List.filter_map, List.length_map]
      rfl
    rw [h1]
    exact ((hperm.filter _).length_eq).symm
  have hsplit : zs = zs.take (z.length - k) ++ zs.drop (z.length - k) := (List.take_append_drop _ _).symm
  have htake : (zs.take (z.length - k)).filter (fun a => decide (a > t)) = [] := by
    rw [List.filter_eq_nil_iff]
    intro a ha
    simp only [decide_eq_true_eq, not_lt, gt_iff_lt]
    obtain ⟨i, hi, rfl⟩ := List.mem_take_iff_getElem.1 ha
    rw [ht, List.getD_eq_getElem?_getD, List.getElem?_eq_getElem (by omega), Option.getD_some]
    rcases Nat.lt_or_ge i (z.length - k - 1) with h | h
    · exact List.pairwise_iff_getElem.1 hsorted i _ (by omega) (by omega) h
    · have : i = z.length - k - 1 := by omega
      subst this
      exact le_rfl
  have hcount2 : (newtonSelect z k).length =
      ((zs.drop (z.length - k)).filter fun a => decide (a > t)).length := by
    rw [hcount]
    conv_lhs => rw [hsplit, List.filter_append, htake, List.nil_append]
  have hdl : (zs.drop (z.length - k)).length = k := by
    rw [List.length_drop, hlen]; omega
  refine ⟨hnd, fun i hi => List.mem_range.1 (List.mem_filter.1 hi).1, ?_, ?_⟩
  · rw [hcount2]
    exact (List.length_filter_le _ _).trans hdl.le
  · intro s hs hss hgap
    have hszs : s = zs := (hs.trans hperm.symm).eq_of_pairwise'
      (r := (· ≤ ·)) hss hsorted
    rw [hszs] at hgap
    rw [hcount2]
    rw [List.filter_eq_self.2, hdl]
    intro a ha
    simp only [decide_eq_true_eq, gt_iff_lt]
    rcases hgap with hgap | h0
    · obtain ⟨i, hi, rfl⟩ := List.getElem_of_mem ha
      rw [List.length_drop] at hi
      rw [List.getElem_drop]
      refine lt_of_lt_of_le hgap ?_
      rw [List.getD_eq_getElem?_getD, List.getElem?_eq_getElem (by omega), Option.getD_some]
      rcases Nat.eq_zero_or_pos i with h | h
      · subst h; exact le_rfl
      · exact List.pairwise_iff_getElem.1 hsorted _ _ (by omega) (by omega) (by omega)
    · subst h0
      rw [List.drop_of_length_le (by omega)] at ha
      simp at ha

/-- C25 is false for the Newton method when entries of the relaxed solution tie at the
threshold: fewer rows than requested are returned, here none. -/
theorem c25_newton_violated : ∃ (z : List ℝ) (k : ℕ), 0 < k ∧ k < z.length ∧
    newtonSelect z k = [] := by
  refine ⟨[1 / 2, 1 / 2], 1, by norm_num, by simp, ?_⟩
  classical
  have h : (([1 / 2, 1 / 2] : List ℝ).mergeSort fun a b => decide (a ≤ b)) = [1 / 2, 1 / 2] :=
    List.mergeSort_of_pairwise (by simp)
  unfold newtonSelect
  rw [List.filter_eq_nil_iff]
  intro i hi
  simp only [h]
  simp at hi
  have : i = 0 ∨ i = 1 := by omega
  rcases this with rfl | rfl <;> norm_num

example : ([2, 0, 1] : List ℕ).Perm (List.range 3) := by decide

example : ∃ s : List ℝ, s.Perm [1, 3, 2] ∧ s.Pairwise (· ≤ ·) ∧ s.getD (3 - 1 - 1) 0 < s.getD (3 - 1) 0 :=
  ⟨[1, 2, 3], by
    refine List.Perm.cons _ (List.Perm.swap _ _ _), by norm_num, by norm_num⟩

/-! ## C26 -/

/-- `A = P L U` read row by row: row `i` of `A` is row `π i` of `L U`. So partial pivoting moved
row `π⁻¹ r` of `A` to position `r`; the first `k` pivot rows are `π⁻¹ 0, .., π⁻¹ (k-1)`. -/
def topRows {m : ℕ} (π : Equiv.Perm (Fin m)) (k : ℕ) : List ℕ :=
  (List.ofFn fun r => ((π.symm r : Fin m) : ℕ)).take k

/-- C26, the part that holds: the selected rows are `π 0, .., π (k-1)`, so they are the pivot
rows whenever the permutation is its own inverse. -/
theorem c26_lu_partial {m : ℕ} (π : Equiv.Perm (Fin m)) (k : ℕ) :
    luPivots (permMatrix π) k = (List.ofFn fun i => ((π i : Fin m) : ℕ)).take k ∧
    (π⁻¹ = π → luPivots (permMatrix π) k = topRows π k) := by
  refine ⟨luPivots_eq π k, fun h => ?_⟩
  rw [luPivots_eq, topRows]
  have : π.symm = π := h
  rw [this]

/-- C26 is false in general: for the cyclic permutation of three rows the one row selected is
not the pivot row. -/
theorem c26_lu_violated : ∃ π : Equiv.Perm (Fin 3),
    luPivots (permMatrix π) 1 ≠ topRows π 1 := by
  refine ⟨finRotate 3, ?_⟩
  rw [luPivots_eq, topRows]
  decide

/-- A matrix whose LU factorisation with partial pivoting has that permutation: `A = P L U` with
`P` the matrix of `finRotate 3`, `L` unit lower triangular with entries at most one in absolute
value, `U` upper triangular. -/
theorem c26_witness_reachable :
    ∃ (A L U : Matrix (Fin 3) (Fin 3) ℚ),
      (∀ i j, A i j = (L * U) (finRotate 3 i) j) ∧
      (∀ i j, i < j → L i j = 0) ∧ (∀ i, L i i = 1) ∧ (∀ i j, |L i j| ≤ 1) ∧
      (∀ i j, j < i → U i j = 0) ∧ (∀ i, U i i ≠ 0) := by
  refine ⟨fun i j => (1 : Matrix (Fin 3) (Fin 3) ℚ) (finRotate 3 i) j, 1, 1, ?_, ?_, ?_, ?_, ?_, ?_⟩
  · intro i j; rw [one_mul]
  · intro i j h; exact Matrix.one_apply_ne h.ne
  · intro i; exact Matrix.one_apply_eq i
  · intro i j
    rw [Matrix.one_apply]
    split_ifs <;> norm_num
  · intro i j h; exact Matrix.one_apply_ne h.ne'
  · intro i; rw [Matrix.one_apply_eq]; norm_num

example : (Equiv.swap (0 : Fin 3) 2)⁻¹ = Equiv.swap 0 2 := Equiv.swap_inv _ _

/-! ## C27 -/

theorem repeatRows_getD (I : List (List ℕ)) (ratio : ℕ) (hr : 0 < ratio) (i : ℕ)
    (hi : i < I.length * ratio) : (repeatRows I ratio).getD i [] = I.getD (i / ratio) [] := by
  induction I generalizing i with
  | nil => simp at hi
  | cons row I ih =>
    have e : repeatRows (row :: I) ratio = List.replicate ratio row ++ repeatRows I ratio := rfl
    rw [e]
    rcases Nat.lt_or_ge i ratio with h | h
    · rw [List.getD_append _ _ _ _ (by simpa using h), Nat.div_eq_of_lt h]
      simp [List.getD_eq_getElem?_getD, h]
    · rw [List.getD_append_right _ _ _ _ (by simpa using h), List.length_replicate,
        ih (i - ratio) (by simp only [List.length_cons, Nat.add_mul, one_mul] at hi; omega)]
      have : i / ratio = (i - ratio) / ratio + 1 := by
        conv_lhs => rw [← Nat.sub_add_cancel h, Nat.add_div_right _ hr]
      rw [this, List.getD_cons_succ]

theorem repeatRows_length (I : List (List ℕ)) (ratio : ℕ) :
    (repeatRows I ratio).length = I.length * ratio := by
  simp [repeatRows]

theorem getD_zipIdx_map {α β : Type*} (f : α × ℕ → β) (l : List α) (d : β) (i : ℕ)
    (h : i < l.length) : (l.zipIdx.map f).getD i d = f (l[i], i) := by
  rw [getD_map_lt _ _ _ _ (by simpa using h)]
  simp

theorem inducedRaw_shape (ray : Bool) (inv : ℕ → ℝ → ℝ) (index : List (List ℕ))
    (u : List (List ℝ)) (n : ℕ) :
    (inducedRaw ray inv index u n).map List.length = index.map List.length := by
  unfold inducedRaw
  have : ∀ (l : List ℕ) (Q : List (List ℝ)), Q.map List.length = index.map List.length →
      (l.foldl (fun Q order =>
        if ray then
          Q.zipIdx.map fun q => q.1.zipIdx.map fun c =>
            if (index.getD q.2 []).getD c.2 0 = order then inv order ((u.getD q.2 []).getD c.2 0)
            else c.1
        else Q) Q).map List.length = index.map List.length := by
    intro l
    induction l with
    | nil => intro Q hQ; exact hQ
    | cons o l ih =>
      intro Q hQ
      rw [List.foldl_cons]
      apply ih
      split_ifs
      · rw [List.map_map, ← hQ]
        apply List.ext_getElem
        · simp
        · intro i h1 h2; simp
      · exact hQ
  apply this
  rw [List.map_map]
  apply List.map_congr_left
  intro row _
  simp

theorem inducedRaw_entry (inv : ℕ → ℝ → ℝ) (index : List (List ℕ)) (u : List (List ℝ)) (n : ℕ)
    (i j : ℕ) (hi : i < index.length) (hj : j < index[i].length) (ho : index[i][j] ≤ n) :
    entry (inducedRaw true inv index u n) i j = inv index[i][j] (entry u i j) := by
  unfold inducedRaw
  have key : ∀ m, ∀ Q, Q = (List.range m).foldl (fun (Q : List (List ℝ)) order =>
        if true = true then
          Q.zipIdx.map fun q => q.1.zipIdx.map fun c =>
            if (index.getD q.2 []).getD c.2 0 = order then inv order ((u.getD q.2 []).getD c.2 0)
            else c.1
        else Q) (index.map fun row => row.map fun _ => (0 : ℝ)) →
      ∃ h1 : i < Q.length, ∃ h2 : j < Q[i].length,
        (index[i][j] < m → Q[i][j] = inv index[i][j] (entry u i j)) := by
    intro m
    induction m with
    | zero => rintro Q rfl; exact ⟨by simpa using hi, by simpa using hj, by simp⟩
    | succ m ih =>
      intro Q' hQ'
      rw [List.range_succ, List.foldl_append] at hQ'
      generalize hg : List.foldl _ _ (List.range m) = Q at hQ'
      obtain ⟨h1, h2, h3⟩ := ih Q hg.symm
      rw [List.foldl_cons, List.foldl_nil, if_pos rfl] at hQ'
      subst hQ'
      refine ⟨by simpa using h1, by simpa using h2, fun hlt => ?_⟩
      have hidx : (index.getD i []).getD j 0 = index[i][j] := by
        simp [List.getD_eq_getElem?_getD, hi, hj]
      simp only [List.getElem_map, List.getElem_zipIdx, Nat.zero_add, hidx]
      split_ifs with hc
      · rw [hc]; rfl
      · exact h3 (by omega)
  obtain ⟨h1, h2, h3⟩ := key (n + 1) _ rfl
  unfold entry
  rw [getD_of_lt _ _ _ h1, getD_of_lt _ _ _ h2]
  exact h3 (by omega)

/-- C27, the part that holds: with the optional package `ray` installed, row `i` of the mesh
consists of the inverse induced CDF values of the random numbers of row `i`, for the orders of
the index-set row that `i` repeats, mapped to the supports. -/
theorem c27_induced_partial (inv : ℕ → ℝ → ℝ) (I : List (List ℕ)) (ratio : ℕ) (hr : 0 < ratio)
    (u : List (List ℝ)) (maxOrder : ℕ) (scal means : List ℝ)
    (hmax : ∀ row ∈ I, ∀ a ∈ row, a ≤ maxOrder) :
    (inducedPoints true inv I ratio u maxOrder scal means).length = I.length * ratio ∧
    ∀ i < I.length * ratio, ∀ j < (I.getD (i / ratio) []).length,
      entry (inducedPoints true inv I ratio u maxOrder scal means) i j =
        scal.getD j 0 * inv ((I.getD (i / ratio) []).getD j 0) (entry u i j) + means.getD j 0 := by
  have hsh := inducedRaw_shape true inv (repeatRows I ratio) u maxOrder
  have hl : (inducedRaw true inv (repeatRows I ratio) u maxOrder).length = I.length * ratio := by
    have := congrArg List.length hsh
    simpa [repeatRows_length] using this
  refine ⟨by simp [inducedPoints, scaleSupport, hl], fun i hi j hj => ?_⟩
  have hi' : i < (repeatRows I ratio).length := by rw [repeatRows_length]; exact hi
  have hrow := repeatRows_getD I ratio hr i hi
  have hrow' : (repeatRows I ratio)[i] = I.getD (i / ratio) [] := by
    rw [← hrow]; simp [List.getD_eq_getElem?_getD, hi']
  have hj' : j < (repeatRows I ratio)[i].length := by rw [hrow']; exact hj
  have hmem : (repeatRows I ratio)[i] ∈ I := by
    have := List.getElem_mem hi'
    unfold repeatRows at this
    simp only [List.mem_flatMap, List.mem_replicate] at this
    obtain ⟨row, h1, _, h2⟩ := this
    exact h2 ▸ h1
  have hent := inducedRaw_entry inv (repeatRows I ratio) u maxOrder i j hi' hj'
    (hmax _ hmem _ (List.getElem_mem _))
  have hlen2 : j < (inducedRaw true inv (repeatRows I ratio) u maxOrder)[i].length := by
    have := congrArg (fun l => l[i]?) hsh
    simp only [List.getElem?_map, List.getElem?_eq_getElem hi',
      List.getElem?_eq_getElem (show i < (inducedRaw true inv (repeatRows I ratio) u maxOrder).length by omega),
      Option.map_some, Option.some.injEq] at this
    omega
  unfold inducedPoints scaleSupport entry
  rw [getD_map_lt _ _ _ _ (by omega), getD_zipIdx_map _ _ _ _ hlen2]
  simp only
  congr 2
  unfold entry at hent
  rw [getD_of_lt (inducedRaw true inv (repeatRows I ratio) u maxOrder) _ _ (by omega),
    getD_of_lt _ _ _ hlen2] at hent
  rw [hent, ← hrow]
  have : (repeatRows I ratio)[i][j] = ((repeatRows I ratio).getD i []).getD j 0 := by
    simp [List.getD_eq_getElem?_getD, hi', hj']
  rw [← this]

/-- C27 is false without the optional package: every point of the mesh is the vector of the
parameter means, whatever the random numbers. -/
theorem c27_induced_violated (inv : ℕ → ℝ → ℝ) (I : List (List ℕ)) (ratio : ℕ)
    (u : List (List ℝ)) (maxOrder : ℕ) (scal means : List ℝ)
    (hI : ∀ row ∈ I, row.length = means.length) :
    ∀ x ∈ inducedPoints false inv I ratio u maxOrder scal means, x = means := by
  have hfold : ∀ (l : List ℕ) (Q : List (List ℝ)), l.foldl (fun Q _ => Q) Q = Q := by
    intro l
    induction l with
    | nil => intro Q; rfl
    | cons a l ih => intro Q; exact ih Q
  intro x hx
  unfold inducedPoints scaleSupport inducedRaw at hx
  simp only [Bool.false_eq_true, if_false, hfold] at hx
  rw [List.map_map] at hx
  obtain ⟨row, hrow, rfl⟩ := List.mem_map.1 hx
  unfold repeatRows at hrow
  simp only [List.mem_flatMap, List.mem_replicate] at hrow
  obtain ⟨row', h1, _, rfl⟩ := hrow
  have := hI row h1
  apply List.ext_getElem
  · simp [this]
  · intro j h2 h3
    simp [List.getD_eq_getElem?_getD, h3]

example : ∀ row ∈ [[0, 0], [1, 0], [0, 2]], ∀ a ∈ row, a ≤ 2 := by decide

/-- C24 is false for the induced mesh: its weights are not normalised. For one uniform parameter
of order one (without the optional package, so that every point is the mean), the 14 weights sum
to two. -/
theorem c24_induced_violated : ∃ P : MParam, IsUniform P ∧
    ∀ (inv : ℕ → ℝ → ℝ) (u : List (List ℝ)),
      (inducedWeights (multiPoly [P] [[0], [1]] 1
        (inducedPoints false inv [[0], [1]] 7 u 1 [1] [P.mean])) 2 14).sum = 2 := by
  obtain ⟨P, hP⟩ := exists_uniform
  refine ⟨P, hP, fun inv u => ?_⟩
  have hpts : inducedPoints false inv [[0], [1]] 7 u 1 [1] [P.mean] = List.replicate 14 [0] := by
    rw [List.eq_replicate_iff]
    refine ⟨?_, ?_⟩
    · have := congrArg List.length (inducedRaw_shape false inv (repeatRows [[0], [1]] 7) u 1)
      simp only [List.length_map, repeatRows_length] at this
      simp [inducedPoints, scaleSupport, this]
    · intro x hx
      have := c27_induced_violated inv [[0], [1]] 7 u 1 [1] [P.mean] (by simp) x hx
      rw [this, hP.mean]
  rw [hpts]
  have h0 : univ P 0 0 = 1 := by rw [univ_eq]; simp [opoly]
  have h1 : univ P 1 0 = 0 := by rw [univ_eq, hP.ab]; simp [opoly, leg_a]
  have hM : multiPoly [P] [[0], [1]] 1 (List.replicate 14 [0]) =
      [List.replicate 14 1, List.replicate 14 0] := by
    unfold multiPoly
    rw [if_pos rfl]
    have hc : colMax [[0], [1]] 0 = 1 := rfl
    simp only [hc, List.map_replicate, List.range_succ, List.range_zero, List.nil_append,
      List.map_cons, List.map_nil, List.getD_cons_zero, List.cons_append]
    rw [poly_eq_univ P 2 0 (by norm_num), poly_eq_univ P 2 1 (by norm_num), h0, h1]
  rw [hM]
  unfold inducedWeights columnSquares
  simp [List.range_succ, List.replicate]
  norm_num

end EQ.Sampling
