import Verif.Stats.StructureProps
import Verif.Stats.GridProps

/-!
# The structure of a model is found in its fit (C188)
-/

namespace EQ.Stats
open EQ.Param EQ.Poly EQ.Poly.Spec EQ.Sampling EQ.Sampling.Spec EQ.Stats.Spec EQ.Basis

/-! ## Lemmas -/

theorem ixs_foldl (ns : List ℕ) (I : List (List ℕ)) :
    ns.foldl (fun I n => I.flatMap fun row => (List.range n).map fun c => row ++ [c]) I = I.flatMap fun row => (ixs ns).map (row ++ ·) := by
  induction ns using List.reverseRecOn with
  | nil => simp [ixs]
  | append_singleton ns n ih =>
    rw [List.foldl_append, ih, ixs_concat]
    simp only [List.foldl_cons, List.foldl_nil, List.flatMap_assoc, List.flatMap_map, List.map_flatMap, List.map_map]
    refine List.flatMap_congr fun row _ => List.flatMap_congr fun idx _ => ?_
    refine List.map_congr_left fun c _ => ?_
    simp

theorem ixs_cons (n : ℕ) (ns : List ℕ) : ixs (n :: ns) = (List.range n).flatMap fun c => (ixs ns).map (c :: ·) := by
  have : ixs (n :: ns) = ns.foldl (fun I n => I.flatMap fun row => (List.range n).map fun c => row ++ [c]) ((List.range n).map fun c => [c]) := by
    simp [ixs]
  rw [this, ixs_foldl, List.flatMap_map]
  rfl

theorem sum_flatMap' {α β : Type*} (l : List α) (f : α → List β) (g : β → ℝ) :
    ((l.flatMap f).map g).sum = (l.map fun a => ((f a).map g).sum).sum := by
  induction l with
  | nil => rfl
  | cons a l ih => simp [ih]

/-- Sums over tuples, one entry after the other. -/
theorem ixs_sum (n : ℕ) (ns : List ℕ) (F : List ℕ → ℝ) :
    ((ixs (n :: ns)).map F).sum = ∑ c ∈ Finset.range n, ((ixs ns).map fun idx => F (c :: idx)).sum := by
  rw [ixs_cons, sum_flatMap', range_map_sum]
  refine Finset.sum_congr rfl fun c _ => ?_
  rw [List.map_map]
  rfl

/-- The weighted sum of a function over the tensor grid of the rules. -/
noncomputable def gridSum (rules : List LocalRule) (F : List ℝ → ℝ) : ℝ :=
  ((ixs (rules.map fun r => r.pts.length)).map fun idx => gridWeight rules idx * F (gridPoint rules idx)).sum

/-- The weighted sum of a function over the points of a rule. -/
noncomputable def ruleSum (r : LocalRule) (F : ℝ → ℝ) : ℝ := ∑ c ∈ Finset.range r.pts.length, r.wts.getD c 0 * F (r.pts.getD c 0)

theorem gridSum_nil (F : List ℝ → ℝ) : gridSum [] F = F [] := by simp [gridSum, ixs, gridWeight, gridPoint]

theorem sum_mul_left' {α : Type*} (l : List α) (a : ℝ) (f : α → ℝ) : (l.map fun x => a * f x).sum = a * (l.map f).sum := by
  induction l with
  | nil => simp
  | cons b l ih => simp [ih, mul_add]

theorem gridSum_cons (r : LocalRule) (rs : List LocalRule) (F : List ℝ → ℝ) :
    gridSum (r :: rs) F = ruleSum r fun t => gridSum rs fun xs => F (t :: xs) := by
  unfold gridSum ruleSum
  rw [List.map_cons, ixs_sum]
  refine Finset.sum_congr rfl fun c _ => ?_
  rw [← sum_mul_left']
  congr 1
  refine List.map_congr_left fun idx _ => ?_
  simp only [gridWeight, gridPoint, List.zipWith_cons_cons, List.prod_cons]
  ring

theorem gridSum_mul (rs : List LocalRule) (a : ℝ) (F : List ℝ → ℝ) : gridSum rs (fun x => a * F x) = a * gridSum rs F := by
  unfold gridSum
  rw [← sum_mul_left']
  congr 1
  refine List.map_congr_left fun idx _ => ?_
  ring

theorem gridSum_add (rs : List LocalRule) (F G : List ℝ → ℝ) : gridSum rs (fun x => F x + G x) = gridSum rs F + gridSum rs G := by
  unfold gridSum
  rw [← List.sum_map_add]
  congr 1
  refine List.map_congr_left fun idx _ => ?_
  ring

theorem gridSum_zero (rs : List LocalRule) : gridSum rs (fun _ => 0) = 0 := by
  have := gridSum_mul rs 0 fun _ => 0
  simpa using this

theorem gridSum_sum (rs : List LocalRule) (n : ℕ) (F : ℕ → List ℝ → ℝ) :
    gridSum rs (fun x => ∑ j ∈ Finset.range n, F j x) = ∑ j ∈ Finset.range n, gridSum rs (F j) := by
  induction n with
  | zero => simpa using gridSum_zero rs
  | succ n ih =>
    rw [Finset.sum_range_succ, ← ih, ← gridSum_add]
    congr 1
    funext x
    rw [Finset.sum_range_succ]

theorem gridPoint_len (rs : List LocalRule) (idx : List ℕ) (h : idx ∈ ixs (rs.map fun r => r.pts.length)) : (gridPoint rs idx).length = rs.length := by
  have := ixs_length _ _ h
  simp [gridPoint, this]

theorem gridSum_congr (rs : List LocalRule) (F G : List ℝ → ℝ) (h : ∀ x, x.length = rs.length → F x = G x) : gridSum rs F = gridSum rs G := by
  unfold gridSum
  congr 1
  refine List.map_congr_left fun idx hi => ?_
  rw [h _ (gridPoint_len rs idx hi)]

theorem ruleSum_eq (P : MParam) (o : ℕ) (F : ℝ → ℝ) :
    (List.zipWith (fun x w => w * F x) (P.localRule o).pts (P.localRule o).wts).sum = ruleSum (P.localRule o) F := by
  unfold ruleSum
  have hl := localRule_len_eq P o
  generalize (P.localRule o) = r at hl
  rw [← range_map_sum]
  congr 1
  apply List.ext_getElem
  · simp [hl]
  · intro i h1 h2
    simp only [List.length_map, List.length_range] at h2
    rw [List.getElem_zipWith, List.getElem_map, List.getElem_range, getD_of_lt _ _ _ h2, getD_of_lt _ _ _ (hl ▸ h2)]

theorem ruleSum_univ (P : MParam) (hP : Valid P) (o n : ℕ) (hn : n ≤ o) (h0 : n ≠ 0) : ruleSum (P.localRule o) (univ P n) = 0 := by
  have h := localRule_orth P hP o n 0 hn (Nat.zero_le _)
  rw [if_neg h0, ruleSum_eq P o fun x => univ P n x * univ P 0 x] at h
  rw [← h]
  unfold ruleSum
  refine Finset.sum_congr rfl fun c _ => ?_
  beta_reduce
  rw [univ_zero, mul_one]

/-- If the model ignores an input, so do its coefficients. -/
theorem gridSum_inert (params : List MParam) (hP : ∀ P ∈ params, Valid P) (orders : List ℕ) (ho : orders.length = params.length) (row : List ℕ)
    (hrow : List.Forall₂ (· ≤ ·) row orders) (i : ℕ) (hi : row.getD i 0 ≠ 0) (g : List ℝ → ℝ) (hg : Inert params.length i g) :
    gridSum (localRules params orders) (fun x => basisFun params row x * g x) = 0 := by
  induction params generalizing orders row i g with
  | nil =>
    obtain rfl : orders = [] := List.length_eq_zero_iff.1 ho
    cases hrow
    simp at hi
  | cons P Ps ih =>
    cases hrow with
    | nil => simp at ho
    | cons hn hrest =>
      rename_i n o row orders
      rw [show localRules (P :: Ps) (o :: orders) = P.localRule o :: localRules Ps orders from rfl, gridSum_cons]
      have ho : orders.length = Ps.length := by simpa using ho
      have hl : (localRules Ps orders).length = Ps.length := localRules_length Ps orders ho
      cases i with
      | zero =>
        have hn0 : n ≠ 0 := by simpa using hi
        have e : (fun t => gridSum (localRules Ps orders) fun xs => basisFun (P :: Ps) (n :: row) (t :: xs) * g (t :: xs)) =
            fun t => univ P n t * gridSum (localRules Ps orders) fun xs => basisFun Ps row xs * g (0 :: xs) := by
          funext t
          rw [← gridSum_mul]
          refine gridSum_congr _ _ _ fun xs hxs => ?_
          have := hg (0 :: xs) (by simp [hxs, hl]) t
          rw [List.set_cons_zero] at this
          rw [this]
          simp only [basisFun]
          ring
        rw [e]
        unfold ruleSum
        have h0 := ruleSum_univ P (hP P (by simp)) o n hn hn0
        unfold ruleSum at h0
        simp only [← mul_assoc]
        rw [← Finset.sum_mul, h0, zero_mul]
      | succ i =>
        have e : (fun t => gridSum (localRules Ps orders) fun xs => basisFun (P :: Ps) (n :: row) (t :: xs) * g (t :: xs)) = fun _ => 0 := by
          funext t
          have := ih (fun Q hQ => hP Q (by simp [hQ])) orders ho row hrest i (by simpa using hi) (fun xs => univ P n t * g (t :: xs)) (by
            intro xs hxs s
            have := hg (t :: xs) (by simp [hxs]) s
            rw [List.set_cons_succ] at this
            simp only [this])
          rw [← this]
          congr 1
          funext xs
          simp only [basisFun]
          ring
        rw [e]
        simp [ruleSum]

/-- The coefficients on the tensor grid of the values of a function. -/
theorem grid_coeffs (B : Expansion) (hB : Regular B) (hR : B.invR = none) (hne : B.params ≠ []) (hP : ∀ P ∈ B.params, Valid P) (orders : List ℕ)
    (ho : orders.length = B.dims) (hbox : ∀ row ∈ B.elements, List.Forall₂ (· ≤ ·) row orders) (hnd : B.elements.Nodup) :
    ∃ pts wts, tensorGrid (localRules B.params orders) = .ok (pts, wts) ∧ ∀ g : List ℝ → ℝ,
      ∃ c, B.integrate pts wts (pts.map g) = .ok c ∧ c.length = B.elements.length ∧
        ∀ r < B.elements.length, c.getD r 0 = gridSum (localRules B.params orders) fun x => basisFun B.params (B.elements.getD r []) x * g x := by
  obtain ⟨pts, wts, h1, -, -, -, -, -, hfit⟩ := grid_fit B hB hR hne hP orders ho hbox hnd
  refine ⟨pts, wts, h1, fun g => ?_⟩
  obtain ⟨c, hc, hcl, hcr⟩ := hfit (pts.map g) (by simp)
  refine ⟨c, hc, hcl, fun r hr => ?_⟩
  rw [hcr r hr]
  have hne' : localRules B.params orders ≠ [] := by
    intro h
    have := localRules_length B.params orders ho
    rw [h] at this
    exact hne (List.length_eq_zero_iff.1 this.symm)
  have h5 := tensorGrid_eq _ hne' (localRules_len_eq B.params orders)
  rw [h1] at h5
  simp only [Except.ok.injEq, Prod.mk.injEq] at h5
  unfold gridSum
  set I := ixs ((localRules B.params orders).map fun r => r.pts.length)
  have hpl : pts.length = I.length := by rw [h5.1, List.length_map]
  conv_rhs => rw [map_eq_range I [], range_map_sum]
  rw [hpl]
  refine Finset.sum_congr rfl fun j hj => ?_
  rw [Finset.mem_range] at hj
  rw [getD_map_lt g pts 0 j (by omega), getD_of_lt pts [] j (by omega), h5.2, getD_map_lt _ _ _ _ hj, getD_of_lt _ _ _ hj]
  simp only [h5.1, List.getElem_map]

theorem gridSum_few (params : List MParam) (hP : ∀ P ∈ params, Valid P) (orders : List ℕ) (ho : orders.length = params.length) (row : List ℕ)
    (hrow : List.Forall₂ (· ≤ ·) row orders) (k : ℕ) (hk : k < (nonzero row).length) (g : List ℝ → ℝ) (hg : SumOfFew params.length k g) :
    gridSum (localRules params orders) (fun x => basisFun params row x * g x) = 0 := by
  obtain ⟨n, h, S, hS, hsum⟩ := hg
  rw [gridSum_congr _ _ (fun x => ∑ j ∈ Finset.range n, basisFun params row x * h j x) (fun x hx => by
    rw [hsum x (by rw [hx, localRules_length params orders ho]), Finset.mul_sum]), gridSum_sum]
  refine Finset.sum_eq_zero fun j _ => ?_
  obtain ⟨i, hi, hiS⟩ : ∃ i ∈ (nonzero row).toFinset, i ∉ S j := by
    by_contra hcon
    push Not at hcon
    have h1 := Finset.card_le_card (show (nonzero row).toFinset ⊆ S j from hcon)
    rw [List.toFinset_card_of_nodup ((nonzero_sublist row).nodup List.nodup_range)] at h1
    have := (hS j).1
    omega
  obtain ⟨hlt, hne⟩ := mem_nonzero.1 (List.mem_toFinset.1 hi)
  refine gridSum_inert params hP orders ho row hrow i hne (h j) ((hS j).2 i ?_ hiS)
  rw [hrow.length_eq, ho] at hlt
  exact hlt

/-! ## Properties -/

/-- **C188.** Numerical integration on the tensor grid of the orders, with any index set of different rows inside the orders and any model: if the model
ignores an input, so does the fit; if the model is a sum of functions of at most `k` inputs each, so is the fit, and all Sobol' indices of higher order are
zero. -/
theorem c188_structure (B : Expansion) (hB : Regular B) (hR : B.invR = none) (hne : B.params ≠ []) (hP : ∀ P ∈ B.params, Valid P) (orders : List ℕ)
    (ho : orders.length = B.dims) (hbox : ∀ row ∈ B.elements, List.Forall₂ (· ≤ ·) row orders) (hnd : B.elements.Nodup) :
    ∃ pts wts, tensorGrid (localRules B.params orders) = .ok (pts, wts) ∧ ∀ g : List ℝ → ℝ,
      ∃ c f, B.integrate pts wts (pts.map g) = .ok c ∧ (∀ x, x.length = B.dims → B.polyfit c [x] = .ok [f x]) ∧
        (∀ i < B.dims, Inert B.dims i g → Inert B.dims i f) ∧
        ∀ k, SumOfFew B.dims k g → SumOfFew B.dims k f ∧
          (2 ≤ B.dims → 2 ≤ B.elements.length → ∃ s, allSobol c B.elements B.dims none = .ok s ∧
            ∀ o, ∃ L, getSobol s o = .ok L ∧ (k < o → ∀ v ∈ L, v.2 = 0)) := by
  obtain ⟨pts, wts, h1, hfit⟩ := grid_coeffs B hB hR hne hP orders ho hbox hnd
  refine ⟨pts, wts, h1, fun g => ?_⟩
  obtain ⟨c, hc, hcl, hcr⟩ := hfit g
  have hrow : ∀ r < B.elements.length, List.Forall₂ (· ≤ ·) (B.elements.getD r []) orders := fun r hr => by
    rw [getD_of_lt _ _ _ hr]
    exact hbox _ (List.getElem_mem hr)
  refine ⟨c, expansion B.params B.elements c, hc, fun x hx => ?_, fun i hi hg x hx t => ?_, fun k hg => ?_⟩
  · rw [polyfit_eq B hB c hcl [x] (by simpa using hx), eff_none B hR]
    rfl
  · rw [sum_expansion _ _ _ hcl, sum_expansion _ _ _ hcl]
    refine Finset.sum_congr rfl fun r hr => ?_
    have hr := Finset.mem_range.1 hr
    by_cases h0 : (B.elements.getD r []).getD i 0 = 0
    · rw [basisFun_set _ _ _ _ _ h0]
    · rw [hcr r hr, gridSum_inert B.params hP orders ho _ (hrow r hr) i h0 g hg, zero_mul, zero_mul]
  · have hzero : ∀ r < B.elements.length, k < (nonzero (B.elements.getD r [])).length → c.getD r 0 = 0 := fun r hr hk => by
      rw [hcr r hr]
      exact gridSum_few B.params hP orders ho _ (hrow r hr) k hk g hg
    refine ⟨⟨B.elements.length, fun j x => c.getD j 0 * basisFun B.params (B.elements.getD j []) x,
      fun j => if c.getD j 0 = 0 then ∅ else (nonzero (B.elements.getD j [])).toFinset, fun j => ⟨?_, fun i hi hiS => ?_⟩, fun x _ => sum_expansion _ _ _ hcl _⟩, ?_⟩
    · beta_reduce
      split_ifs with h0
      · simp
      · refine (List.toFinset_card_le _).trans ?_
        by_contra hlt
        by_cases hj : j < B.elements.length
        · exact h0 (hzero j hj (by omega))
        · exact h0 (List.getD_eq_default _ _ (by omega))
    · intro x hx t
      beta_reduce at hiS
      split_ifs at hiS with h0
      · simp only [h0, zero_mul]
      · simp only
        rw [basisFun_set]
        by_contra hne
        by_cases hj : j < B.elements.length
        · exact hiS (List.mem_toFinset.2 (mem_nonzero.2 ⟨by rw [row_len _ _ hB.rows j hj]; exact hi, hne⟩))
        · exact h0 (List.getD_eq_default _ _ (by omega))
    · intro hd h2
      obtain ⟨D, hD, hval⟩ := allSobol_ok c B.elements B.dims none hd (hcl ▸ h2)
      refine ⟨_, hD, fun o => ⟨_, rfl, fun hko v hv => ?_⟩⟩
      obtain ⟨S, hS, rfl⟩ := List.mem_map.1 hv
      obtain ⟨hS1, hS2⟩ := List.mem_filter.1 hS
      obtain ⟨o', ho', hS3⟩ := List.mem_flatMap.1 hS1
      rw [List.mem_range'_1] at ho'
      rw [mem_combos] at hS3
      have hlen : S.length = o := by simpa using hS2
      show D S = 0
      rw [hval S hS3.1 (by omega) (by omega)]
      unfold share
      refine List.sum_eq_zero fun y hy => ?_
      obtain ⟨rc, hrc, rfl⟩ := List.mem_map.1 hy
      obtain ⟨r, hr, hrr⟩ := List.mem_iff_getElem.1 hrc
      rw [List.getElem_zip] at hrr
      have hr1 : r < B.elements.length := by simp at hr; omega
      split_ifs with hz
      · have := hzero r hr1 (by rw [getD_of_lt _ _ _ hr1, show B.elements[r] = rc.1 from congrArg Prod.fst hrr, hz]; omega)
        rw [getD_of_lt _ _ _ (by omega), show c[r] = rc.2 from congrArg Prod.snd hrr] at this
        rw [this]
        simp
      · rfl

/-! ### Products -/

/-- Numerical integration in one variable: `h` is the fit of degree `o` of the function `g`. -/
def FitOf (P : MParam) (o : ℕ) (g h : ℝ → ℝ) : Prop :=
  ∃ pts wts c, tensorGrid (localRules [P] [o]) = .ok (pts, wts) ∧
    (Expansion.mk [P] ((List.range (o + 1)).map fun i => [i]) none).integrate pts wts (pts.map fun x => g (x.headD 0)) = .ok c ∧
    ∀ t, (Expansion.mk [P] ((List.range (o + 1)).map fun i => [i]) none).polyfit c [[t]] = .ok [h t]

/-- The product of functions of single inputs. -/
def prodOf (gs : List (ℝ → ℝ)) (x : List ℝ) : ℝ := (List.zipWith (fun g t => g t) gs x).prod

/-- The fit in one variable, written out. -/
noncomputable def fit1 (P : MParam) (o : ℕ) (g : ℝ → ℝ) (t : ℝ) : ℝ :=
  ∑ n ∈ Finset.range (o + 1), ruleSum (P.localRule o) (fun x => univ P n x * g x) * univ P n t

theorem fitOf_fit1 (P : MParam) (hP : Valid P) (o : ℕ) (g : ℝ → ℝ) : FitOf P o g (fit1 P o g) := by
  set B : Expansion := ⟨[P], (List.range (o + 1)).map fun i => [i], none⟩ with hBdef
  have hB : Regular B := ⟨by simp [hBdef], by simp [hBdef, Expansion.dims], fun _ => ⟨o, rfl⟩, by simp [SquareOpt, hBdef]⟩
  have hrow : ∀ r < o + 1, B.elements.getD r [] = [r] := fun r hr => by
    rw [hBdef]
    simp only
    rw [getD_map_lt _ _ _ _ (by simpa using hr)]
    simp
  obtain ⟨pts, wts, h1, hfit⟩ := grid_coeffs B hB rfl (by simp [hBdef]) (by simpa [hBdef] using hP) [o] rfl
    (by simp [hBdef]) (by
      simp only [hBdef]
      exact List.nodup_range.map fun a b h => by simpa using h)
  obtain ⟨c, hc, hcl, hcr⟩ := hfit fun x => g (x.headD 0)
  refine ⟨pts, wts, c, h1, hc, fun t => ?_⟩
  rw [polyfit_eq B hB c hcl [[t]] (by simp [hBdef, Expansion.dims]), eff_none B rfl]
  simp only [List.map_cons, List.map_nil, Except.ok.injEq, List.cons.injEq, and_true]
  rw [sum_expansion _ _ _ hcl]
  unfold fit1
  have hlen : B.elements.length = o + 1 := by simp [hBdef]
  rw [hlen]
  refine Finset.sum_congr rfl fun n hn => ?_
  have hn := Finset.mem_range.1 hn
  rw [hcr n (by omega), hrow n hn]
  show gridSum [P.localRule o] _ * (univ P n t * 1) = _
  rw [gridSum_cons]
  simp only [gridSum_nil, mul_one]
  congr 2
  funext x
  show univ P n x * 1 * g x = _
  rw [mul_one]

theorem gridSum_prod (params : List MParam) (orders : List ℕ) (gs : List (ℝ → ℝ)) (row : List ℕ) (ho : orders.length = params.length)
    (hg : gs.length = params.length) (hr : row.length = params.length) :
    gridSum (localRules params orders) (fun x => basisFun params row x * prodOf gs x) =
      (List.zipWith (fun (p : MParam × ℕ) (q : ℕ × (ℝ → ℝ)) => ruleSum (p.1.localRule p.2) fun x => univ p.1 q.1 x * q.2 x) (params.zip orders) (row.zip gs)).prod := by
  induction params generalizing orders gs row with
  | nil =>
    obtain rfl : orders = [] := List.length_eq_zero_iff.1 ho
    obtain rfl : gs = [] := List.length_eq_zero_iff.1 hg
    obtain rfl : row = [] := List.length_eq_zero_iff.1 hr
    simp [localRules, gridSum_nil, prodOf, basisFun]
  | cons P Ps ih =>
    match orders, gs, row with
    | [], _, _ => simp at ho
    | _, [], _ => simp at hg
    | _, _, [] => simp at hr
    | o :: orders, g :: gs, n :: row =>
      rw [show localRules (P :: Ps) (o :: orders) = P.localRule o :: localRules Ps orders from rfl, gridSum_cons]
      simp only [List.zip_cons_cons, List.zipWith_cons_cons, List.prod_cons]
      rw [← ih orders gs row (by simpa using ho) (by simpa using hg) (by simpa using hr)]
      unfold ruleSum
      rw [Finset.sum_mul]
      refine Finset.sum_congr rfl fun c _ => ?_
      rw [mul_assoc]
      congr 1
      rw [← gridSum_mul]
      beta_reduce
      congr 1
      funext xs
      simp only [basisFun, prodOf, List.zipWith_cons_cons, List.prod_cons]
      ring

theorem box_sum (params : List MParam) (orders : List ℕ) (gs : List (ℝ → ℝ)) (x : List ℝ) (ho : orders.length = params.length)
    (hg : gs.length = params.length) (hx : x.length = params.length) :
    ((ixs (orders.map (· + 1))).map fun row => (List.zipWith (fun (p : MParam × ℕ) (q : ℕ × (ℝ → ℝ)) =>
      ruleSum (p.1.localRule p.2) fun x => univ p.1 q.1 x * q.2 x) (params.zip orders) (row.zip gs)).prod * basisFun params row x).sum =
      prodOf (List.zipWith (fun (p : MParam × ℕ) g => fit1 p.1 p.2 g) (params.zip orders) gs) x := by
  induction params generalizing orders gs x with
  | nil =>
    obtain rfl : orders = [] := List.length_eq_zero_iff.1 ho
    simp [ixs, prodOf, basisFun]
  | cons P Ps ih =>
    match orders, gs, x with
    | [], _, _ => simp at ho
    | _, [], _ => simp at hg
    | _, _, [] => simp at hx
    | o :: orders, g :: gs, t :: x =>
      rw [List.map_cons, ixs_sum]
      simp only [List.zip_cons_cons, List.zipWith_cons_cons, prodOf, List.prod_cons]
      rw [show (List.zipWith (fun g t => g t) (List.zipWith (fun (p : MParam × ℕ) g => fit1 p.1 p.2 g) (Ps.zip orders) gs) x).prod =
        prodOf (List.zipWith (fun (p : MParam × ℕ) g => fit1 p.1 p.2 g) (Ps.zip orders) gs) x from rfl,
        ← ih orders gs x (by simpa using ho) (by simpa using hg) (by simpa using hx), fit1, Finset.sum_mul]
      refine Finset.sum_congr rfl fun n _ => ?_
      rw [← sum_mul_left']
      congr 1
      refine List.map_congr_left fun row _ => ?_
      simp only [basisFun]
      ring

/-- **C188, products.** Numerical integration with the tensor-grid index set of a product of functions of single inputs gives the product of the fits of
these functions. -/
theorem c188_product (B : Expansion) (hB : Regular B) (hR : B.invR = none) (hne : B.params ≠ []) (hP : ∀ P ∈ B.params, Valid P) (orders : List ℕ)
    (ho : orders.length = B.dims) (hbasis : tensorGridBasis orders = .ok B.elements) :
    ∃ pts wts, tensorGrid (localRules B.params orders) = .ok (pts, wts) ∧ ∀ gs : List (ℝ → ℝ), gs.length = B.dims →
      ∃ (c : List ℝ) (f : List ℝ → ℝ) (hs : List (ℝ → ℝ)), B.integrate pts wts (pts.map (prodOf gs)) = .ok c ∧
        (∀ x, x.length = B.dims → B.polyfit c [x] = .ok [f x]) ∧
        List.Forall₂ (fun (p : (MParam × ℕ) × (ℝ → ℝ)) h => FitOf p.1.1 p.1.2 p.2 h) ((B.params.zip orders).zip gs) hs ∧
        ∀ x, x.length = B.dims → f x = prodOf hs x := by
  have hone : orders ≠ [] := by
    intro h
    rw [h] at ho
    exact hne (List.length_eq_zero_iff.1 ho.symm)
  obtain ⟨L, hL, hmem, hnd, hlen, -, -⟩ := c02_tensor_grid orders hone
  rw [hbasis] at hL
  obtain rfl : B.elements = L := Except.ok.inj hL
  obtain ⟨pts, wts, h1, hfit⟩ := grid_coeffs B hB hR hne hP orders ho (fun row h => (hmem row).1 h) hnd
  refine ⟨pts, wts, h1, fun gs hgs => ?_⟩
  obtain ⟨c, hc, hcl, hcr⟩ := hfit (prodOf gs)
  refine ⟨c, expansion B.params B.elements c, List.zipWith (fun (p : MParam × ℕ) g => fit1 p.1 p.2 g) (B.params.zip orders) gs, hc, fun x hx => ?_, ?_, fun x hx => ?_⟩
  · rw [polyfit_eq B hB c hcl [x] (by simpa using hx), eff_none B hR]
    rfl
  · rw [List.forall₂_iff_get]
    refine ⟨by simp, fun i h h' => ?_⟩
    simp only [List.get_eq_getElem, List.getElem_zip, List.getElem_zipWith]
    exact fitOf_fit1 _ (hP _ (List.getElem_mem _)) _ _
  · rw [← box_sum B.params orders gs x ho hgs hx, sum_expansion _ _ _ hcl]
    have hperm : B.elements.Perm (ixs (orders.map (· + 1))) := by
      rw [List.perm_ext_iff_of_nodup hnd (ixs_nodup _)]
      intro row
      rw [hmem, mem_ixs, List.forall₂_map_right_iff]
      show List.Forall₂ (· ≤ ·) row orders ↔ _
      simp only [Nat.lt_succ_iff]
    rw [← (hperm.map _).sum_eq, map_eq_range B.elements [], range_map_sum]
    refine Finset.sum_congr rfl fun r hr => ?_
    have hr := Finset.mem_range.1 hr
    rw [hcr r hr, gridSum_prod B.params orders gs _ ho hgs (row_len _ _ hB.rows r hr)]

/-- Two uniform inputs, linear in each, and models with and without interactions: the hypotheses of both theorems. -/
example : ∃ P : MParam, Valid P ∧ Regular (Expansion.mk [P, P] [[0, 0], [0, 1], [1, 0], [1, 1]] none) ∧
    tensorGridBasis [1, 1] = .ok [[0, 0], [0, 1], [1, 0], [1, 1]] ∧ SumOfFew 2 1 (fun x => Real.exp (x.getD 0 0) + |x.getD 1 0|) ∧
    Inert 2 1 (fun x => Real.exp (x.getD 0 0)) := by
  refine ⟨_, exists_uniform.choose_spec.valid, ⟨by simp, by simp [Expansion.dims], by simp [Expansion.dims], ?_⟩, rfl, ?_, ?_⟩
  · simp [SquareOpt]
  · refine ⟨2, fun j x => if j = 0 then Real.exp (x.getD 0 0) else if j = 1 then |x.getD 1 0| else 0, fun j => {j}, fun j => ⟨by simp, fun i hi hne x hx t => ?_⟩, fun x _ => ?_⟩
    · match x, hx with
      | [a, b], _ =>
        have hne : i ≠ j := by simpa using hne
        interval_cases i
        · simp only [List.set_cons_zero]
          rw [if_neg (Ne.symm hne), if_neg (Ne.symm hne)]
          simp
        · simp only [List.set_cons_succ, List.set_cons_zero]
          rw [if_neg (Ne.symm hne), if_neg (Ne.symm hne)]
          simp
    · rw [Finset.sum_range_succ, Finset.sum_range_one]
      simp
  · intro x hx t
    match x, hx with
    | [a, b], _ => simp

end EQ.Stats
