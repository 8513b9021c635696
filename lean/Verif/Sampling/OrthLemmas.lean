import Verif.Sampling.Lemmas
import Verif.Sampling.Spec

/-!
# Helper lemmas: basis functions on the tensor grid
-/

namespace EQ.Sampling
open EQ.Param EQ.Basis Spec

theorem getD_map_lt {α β : Type*} (f : α → β) (l : List α) (d : β) (i : ℕ) (h : i < l.length) :
    (l.map f).getD i d = f l[i] := by
  simp [List.getD_eq_getElem?_getD, h]

theorem le_foldl_max (l : List ℕ) : ∀ a, a ≤ l.foldl max a ∧ ∀ x ∈ l, x ≤ l.foldl max a := by
  induction l with
  | nil => intro a; simp
  | cons b l ih =>
    intro a
    obtain ⟨h1, h2⟩ := ih (max a b)
    refine ⟨le_trans (le_max_left _ _) h1, fun x hx => ?_⟩
    rcases List.mem_cons.1 hx with rfl | hx
    · exact le_trans (le_max_right _ _) h1
    · exact h2 x hx

theorem foldl_max_le (l : List ℕ) (b : ℕ) : ∀ a, a ≤ b → (∀ x ∈ l, x ≤ b) → l.foldl max a ≤ b := by
  induction l with
  | nil => intro a h _; exact h
  | cons c l ih =>
    intro a h hl
    exact ih _ (max_le h (hl c (by simp))) fun x hx => hl x (by simp [hx])

theorem le_colMax (basis : List (List ℕ)) (i : ℕ) (row : List ℕ) (h : row ∈ basis) :
    row.getD i 0 ≤ colMax basis i :=
  (le_foldl_max _ 0).2 _ (List.mem_map.2 ⟨row, h, rfl⟩)

theorem colMax_le (basis : List (List ℕ)) (i b : ℕ) (h : ∀ row ∈ basis, row.getD i 0 ≤ b) :
    colMax basis i ≤ b := by
  apply foldl_max_le _ _ _ (Nat.zero_le _)
  intro x hx
  obtain ⟨row, hr, rfl⟩ := List.mem_map.1 hx
  exact h row hr

theorem univ_eq (P : MParam) (n : ℕ) (x : ℝ) : univ P n x = (opoly P.ab n).eval x :=
  (orthoTables_eq P.ab (n + 1) x n (by omega)).1

theorem poly_eq_univ (P : MParam) (order n : ℕ) (h : n < order) (x : ℝ) :
    (orthoTables P.ab order x).poly n = univ P n x := by
  rw [univ_eq, (orthoTables_eq P.ab order x n h).1]

theorem getD_ab (params : List MParam) (k : ℕ) (hk : k < params.length) :
    (params.map MParam.ab).getD k (fun _ => (0, 0)) = params[k].ab := by
  simp [List.getD_eq_getElem?_getD, hk]

theorem basisFun_eq_prod (params : List MParam) : ∀ (row : List ℕ) (x : List ℝ),
    row.length = params.length → x.length = params.length →
    basisFun params row x =
      (List.zipWith (fun f x => f x) (List.zipWith (fun P n => univ P n) params row) x).prod := by
  induction params with
  | nil => intro row x h1 h2; simp [basisFun]
  | cons P Ps ih =>
    intro row x h1 h2
    cases row with
    | nil => simp at h1
    | cons n row =>
      cases x with
      | nil => simp at h2
      | cons a x =>
        simp [basisFun, ih row x (by simpa using h1) (by simpa using h2)]

theorem foldl_mul_range (F : ℕ → ℝ) : ∀ d, (List.range d).foldl (fun acc k => acc * F k) 1 =
    ∏ k ∈ Finset.range d, F k := by
  intro d
  induction d with
  | zero => simp
  | succ d ih => rw [List.range_succ, List.foldl_append, ih, Finset.prod_range_succ]; rfl

theorem basisFun_eq_range (params : List MParam) (P0 : MParam) : ∀ (row : List ℕ) (x : List ℝ),
    row.length = params.length → x.length = params.length →
    basisFun params row x =
      ∏ k ∈ Finset.range params.length, univ (params.getD k P0) (row.getD k 0) (x.getD k 0) := by
  induction params with
  | nil => intro row x h1 h2; simp [basisFun]
  | cons P Ps ih =>
    intro row x h1 h2
    cases row with
    | nil => simp at h1
    | cons n row =>
      cases x with
      | nil => simp at h2
      | cons a x =>
        simp only [basisFun, ih row x (by simpa using h1) (by simpa using h2), List.length_cons,
          Finset.prod_range_succ' _ Ps.length, List.getD_cons_zero, List.getD_cons_succ]
        ring

theorem multiPoly_entry (params : List MParam) (basis : List (List ℕ)) (pts : List (List ℝ))
    (hd : params.length ≠ 1) (hb : ∀ row ∈ basis, row.length = params.length)
    (hp : ∀ x ∈ pts, x.length = params.length) (r k : ℕ) (hr : r < basis.length)
    (hk : k < pts.length) :
    entry (multiPoly params basis params.length pts) r k = basisFun params basis[r] pts[k] := by
  have hne : basis[r] ∈ basis := List.getElem_mem _
  unfold multiPoly entry
  simp only [if_neg hd]
  rw [getD_map_lt _ _ _ _ hr, getD_map_lt _ _ _ _ hk, foldl_mul_range]
  rcases params with _ | ⟨P, Ps⟩
  · simp [basisFun]
  · rw [basisFun_eq_range _ P _ _ (hb _ hne) (hp _ (List.getElem_mem _))]
    apply Finset.prod_congr rfl
    intro i hi
    rw [Finset.mem_range] at hi
    rw [getD_ab _ _ hi, poly_eq_univ _ _ _ (Nat.lt_succ_of_le (le_colMax basis i _ hne))]
    simp [List.getD_eq_getElem?_getD, List.getElem?_eq_getElem hi]

theorem multiPoly_entry_one (P : MParam) (basis : List (List ℕ)) (pts : List (List ℝ))
    (hp : ∀ x ∈ pts, x.length = 1) (r k : ℕ) (hr : r ≤ colMax basis 0)
    (hk : k < pts.length) :
    entry (multiPoly [P] basis 1 pts) r k = basisFun [P] [r] pts[k] := by
  have hx := hp _ (List.getElem_mem hk)
  obtain ⟨x, hx⟩ := List.length_eq_one_iff.1 hx
  unfold multiPoly entry
  simp only [if_pos]
  rw [getD_map_lt _ _ _ _ (by simpa using Nat.lt_succ_of_le hr), getD_map_lt _ _ _ _ hk, hx,
    List.getElem_range]
  simp only [List.map_cons, List.map_nil, List.getD_cons_zero, basisFun, mul_one]
  rw [poly_eq_univ _ _ _ (by omega)]

/-! ### Univariate rules -/

theorem localRule_length (P : MParam) (o : ℕ) :
    (P.localRule o).pts.length = o + 1 ∧ (P.localRule o).wts.length = o + 1 := by
  unfold MParam.localRule
  split_ifs with h
  · simp [h]
  · simp

theorem localRule_len_eq (P : MParam) (o : ℕ) :
    (P.localRule o).pts.length = (P.localRule o).wts.length := by
  rw [(localRule_length P o).1, (localRule_length P o).2]

theorem zipWith_ofFn_sum {n : ℕ} (p w : Fin n → ℝ) (f : ℝ → ℝ) :
    (List.zipWith (fun x w => w * f x) (List.ofFn p) (List.ofFn w)).sum = ∑ i, w i * f (p i) := by
  have : List.zipWith (fun x w => w * f x) (List.ofFn p) (List.ofFn w) =
      List.ofFn fun i => w i * f (p i) := by
    apply List.ext_getElem
    · simp
    · intro i h1 h2; simp
  rw [this, List.sum_ofFn]

theorem localRule_orth (P : MParam) (hP : Valid P) (o i j : ℕ) (hi : i ≤ o) (hj : j ≤ o) :
    (List.zipWith (fun x w => w * (univ P i x * univ P j x)) (P.localRule o).pts
      (P.localRule o).wts).sum = if i = j then 1 else 0 := by
  unfold MParam.localRule
  split_ifs with ho hij hij
  · have h1 : i = 0 := by omega
    have h2 : j = 0 := by omega
    subst h1 h2
    simp only [univ_eq, opoly]
    simp [onePointRule]
    rcases P.lower with _ | l <;> rcases P.upper with _ | u <;> simp <;> norm_num
    split_ifs <;> rfl
  · omega
  all_goals
    rw [zipWith_ofFn_sum _ _ (fun x => univ P i x * univ P j x)]
    have h := (c14_gauss_exact P.ab o (fun k h1 _ => hP.pos k h1) _ _ (hP.eigh o) _ (hP.sort o)).1 i j hi hj
    rw [hP.b0] at h
    simp only [poly_eq_univ P _ i (show i < o + 2 by omega),
      poly_eq_univ P _ j (show j < o + 2 by omega)] at h
    simpa [hij] using h

theorem localRule_sum (P : MParam) (hP : Valid P) (o : ℕ) : (P.localRule o).wts.sum = 1 := by
  have h := localRule_orth P hP o 0 0 (Nat.zero_le _) (Nat.zero_le _)
  simp only [univ_eq, opoly, if_true] at h
  rw [← h]
  congr 1
  apply List.ext_getElem
  · simp [localRule_len_eq P o]
  · intro i h1 h2; simp

theorem localRule_pos (P : MParam) (hP : Valid P) (o : ℕ) : ∀ w ∈ (P.localRule o).wts, 0 < w := by
  unfold MParam.localRule
  split_ifs with ho
  · intro w hw
    simp [onePointRule] at hw
    revert hw
    rcases P.lower with _ | l <;> rcases P.upper with _ | u <;> simp <;>
      (try split_ifs) <;> intro h <;> rw [h] <;> norm_num
  · intro w hw
    obtain ⟨u, rfl⟩ := (List.mem_ofFn).1 hw
    exact (c13_gauss_weights P.ab o (fun k h1 _ => hP.pos k h1) (by rw [hP.b0]; norm_num) _ _
      (hP.eigh o) _ (hP.sort o)).2.1 u

theorem localRule_sorted (P : MParam) (hP : Valid P) (o : ℕ) :
    (P.localRule o).pts.Pairwise (· < ·) := by
  unfold MParam.localRule
  split_ifs with ho
  · simp
  · rw [List.pairwise_ofFn]
    intro i j hij
    exact (c13_gauss_weights P.ab o (fun k h1 _ => hP.pos k h1) (by rw [hP.b0]; norm_num) _ _
      (hP.eigh o) _ (hP.sort o)).1 hij

theorem localRules_length (params : List MParam) (orders : List ℕ)
    (h : orders.length = params.length) : (localRules params orders).length = params.length := by
  simp [localRules, h]

theorem localRules_len_eq (params : List MParam) (orders : List ℕ) :
    ∀ r ∈ localRules params orders, r.pts.length = r.wts.length := by
  intro r hr
  unfold localRules at hr
  rw [List.mem_iff_getElem] at hr
  obtain ⟨i, hi, rfl⟩ := hr
  rw [List.getElem_zipWith]
  exact localRule_len_eq _ _

theorem localRules_sizes (params : List MParam) : ∀ (orders : List ℕ),
    orders.length = params.length →
    (localRules params orders).map (fun r => r.pts.length) = orders.map (· + 1) := by
  induction params with
  | nil => intro orders h; rw [List.length_eq_zero_iff.1 h]; rfl
  | cons P Ps ih =>
    intro orders h
    cases orders with
    | nil => simp at h
    | cons o os =>
      have := ih os (by simpa using h)
      simp only [localRules, List.zipWith_cons_cons, List.map_cons, (localRule_length P o).1] at *
      rw [this]

/-- The grid sum of a product of two basis functions. -/
theorem grid_orth (params : List MParam) (hP : ∀ P ∈ params, Valid P) (orders : List ℕ)
    (ho : orders.length = params.length) (n m : List ℕ)
    (hn : List.Forall₂ (· ≤ ·) n orders) (hm : List.Forall₂ (· ≤ ·) m orders) :
    ((ixs ((localRules params orders).map fun r => r.pts.length)).map fun idx =>
      gridWeight (localRules params orders) idx *
        (basisFun params n (gridPoint (localRules params orders) idx) *
         basisFun params m (gridPoint (localRules params orders) idx))).sum =
      if n = m then 1 else 0 := by
  have hln : n.length = params.length := by rw [hn.length_eq, ho]
  have hlm : m.length = params.length := by rw [hm.length_eq, ho]
  let fs : List (ℝ → ℝ) := List.zipWith (fun f g => fun x => f x * g x)
    (List.zipWith (fun P n => univ P n) params n) (List.zipWith (fun P n => univ P n) params m)
  have hfs : fs.length = (localRules params orders).length := by
    simp [fs, hln, hlm, localRules_length params orders ho]
  have key := grid_sum_prod (localRules params orders) fs hfs (localRules_len_eq params orders)
  have e1 : ∀ x : List ℝ, x.length = params.length →
      basisFun params n x * basisFun params m x = (List.zipWith (fun f x => f x) fs x).prod := by
    intro x hx
    rw [basisFun_eq_prod _ _ _ hln hx, basisFun_eq_prod _ _ _ hlm hx]
    clear key hfs hn hm hP ho
    simp only [fs]
    clear fs
    induction params generalizing n m x with
    | nil => simp
    | cons P Ps ih =>
      cases n with
      | nil => simp at hln
      | cons a n =>
        cases m with
        | nil => simp at hlm
        | cons b m =>
          cases x with
          | nil => simp at hx
          | cons c x =>
            simp only [List.zipWith_cons_cons, List.prod_cons]
            rw [← ih n m (by simpa using hln) (by simpa using hlm) x (by simpa using hx)]
            ring
  have e2 : ∀ idx ∈ ixs ((localRules params orders).map fun r => r.pts.length),
      gridWeight (localRules params orders) idx *
        (basisFun params n (gridPoint (localRules params orders) idx) *
         basisFun params m (gridPoint (localRules params orders) idx)) =
      gridWeight (localRules params orders) idx *
        (List.zipWith (fun f x => f x) fs (gridPoint (localRules params orders) idx)).prod := by
    intro idx hidx
    have hl := ixs_length _ _ hidx
    rw [e1]
    simp only [gridPoint, List.length_zipWith]
    rw [List.length_map] at hl
    rw [hl, localRules_length params orders ho, Nat.min_self]
  rw [List.map_congr_left e2, key]
  clear key e1 e2 hfs
  simp only [fs]
  clear fs
  induction params generalizing n m orders with
  | nil =>
    have h1 : n = [] := List.length_eq_zero_iff.1 hln
    have h2 : m = [] := List.length_eq_zero_iff.1 hlm
    simp [h1, h2, localRules]
  | cons P Ps ih =>
    cases orders with
    | nil => simp at ho
    | cons o os =>
      cases hn with
      | cons ha hn =>
        cases hm with
        | cons hb hm =>
          rename_i a n b m
          have hPP : Valid P := hP P (by simp)
          have := ih (fun Q hQ => hP Q (by simp [hQ])) os (by simpa using ho) n m hn hm
            (by simpa using hln) (by simpa using hlm)
          simp only [localRules, List.zipWith_cons_cons, List.prod_cons] at this ⊢
          rw [this, localRule_orth P hPP o a b ha hb]
          by_cases h1 : a = b <;> by_cases h2 : n = m <;> simp [h1, h2]

end EQ.Sampling
