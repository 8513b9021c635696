import Verif.Stats.SobolLemmas
import Verif.Sampling.SampleProps
import Verif.Param.Props
import Mathlib.Analysis.SpecialFunctions.Pow.Real

/-!
# Properties of moments and Sobol' indices (C32, C37-C40)
-/

namespace EQ.Stats
open EQ.Basis EQ.Param EQ.Poly EQ.Sampling EQ.Sampling.Spec EQ.Poly.Spec EQ.Stats.Spec
open EQ.ParamSpec

/-! ## C32 -/

/-- The expansion as a sum over positions, with the first row zero. -/
theorem getD_zero_of_head {els : List (List ℕ)} {d : ℕ}
    (h : els.head? = some (List.replicate d 0)) : els.getD 0 [] = List.replicate d 0 := by
  cases els with
  | nil => simp at h
  | cons a l => simpa using h

theorem row_len (els : List (List ℕ)) (d : ℕ) (hr : ∀ row ∈ els, row.length = d) (i : ℕ)
    (hi : i < els.length) : (els.getD i []).length = d := by
  rw [getD_of_lt _ _ _ hi]
  exact hr _ (List.getElem_mem hi)

theorem nodup_getD {els : List (List ℕ)} (hnd : els.Nodup) {i j : ℕ} (hi : i < els.length)
    (hj : j < els.length) : els.getD i [] = els.getD j [] ↔ i = j := by
  rw [getD_of_lt _ _ _ hi, getD_of_lt _ _ _ hj]
  exact hnd.getElem_inj_iff

/-- Mean and second moment of a sum of basis functions with distinct multi-indices. -/
theorem expansion_moments (params : List MParam) (Es : List ((ℝ → ℝ) → ℝ))
    (hlaw : List.Forall₂ Law params Es) (els : List (List ℕ)) (hne : els ≠ [])
    (hr : ∀ row ∈ els, row.length = params.length) (hnd : els.Nodup)
    (hz : els.head? = some (List.replicate params.length 0)) (g h : ℕ → ℝ) :
    prodE Es (fun x => ∑ i ∈ Finset.range els.length, g i * basisFun params (els.getD i []) x) =
      g 0 ∧
    prodE Es (fun x =>
      (∑ i ∈ Finset.range els.length, g i * basisFun params (els.getD i []) x) *
      ∑ i ∈ Finset.range els.length, h i * basisFun params (els.getD i []) x) =
      ∑ i ∈ Finset.range els.length, g i * h i := by
  have hpos : 0 < els.length := List.length_pos_iff.2 hne
  -- rows outside the range do not matter
  let r : ℕ → List ℕ := fun i => if i < els.length then els.getD i [] else
    List.replicate params.length 0
  have hrl : ∀ i, (r i).length = params.length := by
    intro i
    by_cases hi : i < els.length
    · simp only [r, if_pos hi]; exact row_len els _ hr i hi
    · simp [r, hi]
  have hre : ∀ (f : ℕ → ℝ) (x : List ℝ),
      ∑ i ∈ Finset.range els.length, f i * basisFun params (els.getD i []) x =
      ∑ i ∈ Finset.range els.length, f i * basisFun params (r i) x := by
    intro f x
    apply Finset.sum_congr rfl
    intro i hi
    rw [Finset.mem_range] at hi
    simp [r, hi]
  have hinj : ∀ i < els.length, ∀ j < els.length, r i = r j ↔ i = j := by
    intro i hi j hj
    simp only [r, if_pos hi, if_pos hj]
    exact nodup_getD hnd hi hj
  constructor
  · simp only [hre]
    rw [prodE_lin params Es hlaw _ r hrl, Finset.sum_eq_single 0]
    · rw [if_pos, mul_one]
      simp only [r, if_pos hpos]
      exact getD_zero_of_head hz
    · intro i hi h0
      rw [Finset.mem_range] at hi
      rw [if_neg, mul_zero]
      intro h
      apply h0
      rw [← hinj i hi 0 hpos, h]
      simp only [r, if_pos hpos]
      exact (getD_zero_of_head hz).symm
    · intro h; simp at h; exact absurd h hne
  · simp only [hre]
    rw [prodE_gram params Es hlaw _ _ r r hrl hrl]
    apply Finset.sum_congr rfl
    intro i hi
    rw [Finset.mem_range] at hi
    rw [Finset.sum_eq_single i]
    · simp
    · intro j hj hji
      rw [Finset.mem_range] at hj
      rw [if_neg, mul_zero]
      intro h
      exact hji ((hinj i hi j hj).1 h).symm
    · intro h; simp at h; omega

theorem eff_plain (B : Expansion) (hR : B.dims = 1 ∨ B.invR = none) (c : List ℝ) :
    B.eff c = c := by
  unfold Expansion.eff
  rcases hR with h | h
  · simp [h]
  · simp [h, effCoeffs]

theorem polyfit_single (B : Expansion) (hB : Regular B) (hR : B.dims = 1 ∨ B.invR = none)
    (c : List ℝ) (hc : c.length = B.elements.length) (f : List ℝ → ℝ)
    (hf : ∀ x, x.length = B.dims → B.polyfit c [x] = .ok [f x]) (x : List ℝ)
    (hx : x.length = B.dims) : f x = expansion B.params B.elements c x := by
  have h1 := polyfit_eq B hB c hc [x] (by simpa using hx)
  rw [hf x hx, eff_plain B hR] at h1
  simpa using h1

/-- C32. For an expansion with at least two coefficients whose index set starts with the constant
and has no repeated row, over independent inputs whose laws make the univariate polynomials
orthonormal: `get_mean` is the expectation and `get_variance` the variance of the function that
`get_polyfit` evaluates. -/
theorem c32_mean_variance_partial (B : Expansion) (hB : Regular B)
    (hR : B.dims = 1 ∨ B.invR = none)
    (hz : B.elements.head? = some (List.replicate B.dims 0)) (hnd : B.elements.Nodup)
    (Es : List ((ℝ → ℝ) → ℝ)) (hlaw : List.Forall₂ Law B.params Es)
    (c : List ℝ) (hc : c.length = B.elements.length) (h2 : 2 ≤ c.length)
    (f : List ℝ → ℝ) (hf : ∀ x, x.length = B.dims → B.polyfit c [x] = .ok [f x]) :
    mean c = .ok (prodE Es f) ∧
    variance c = .ok (prodE Es fun x => (f x - prodE Es f) ^ 2) := by
  have hl := forall₂_law_length hlaw
  have hfe : ∀ x, x.length = Es.length → f x = ∑ i ∈ Finset.range B.elements.length,
      c.getD i 0 * basisFun B.params (B.elements.getD i []) x := by
    intro x hx
    rw [polyfit_single B hB hR c hc f hf x (by unfold Expansion.dims; omega), sum_expansion _ _ _ hc]
  have hpos : 0 < B.elements.length := List.length_pos_iff.2 hB.ne
  have hm : prodE Es f = c.getD 0 0 := by
    rw [prodE_congr Es f _ hfe]
    exact (expansion_moments B.params Es hlaw B.elements hB.ne hB.rows hnd hz
      (fun i => c.getD i 0) (fun i => c.getD i 0)).1
  constructor
  · rw [hm]
    cases c with
    | nil => simp at h2
    | cons a l => rfl
  · rw [hm, variance_ok c h2, varSum_eq, hc]
    congr 1
    have hg := (expansion_moments B.params Es hlaw B.elements hB.ne hB.rows hnd hz
      (fun i => if i = 0 then 0 else c.getD i 0) (fun i => if i = 0 then 0 else c.getD i 0)).2
    rw [← prodE_congr Es _ _ (fun x hx => ?_)] at hg
    · rw [hg]
      apply Finset.sum_congr rfl
      intro i _
      split_ifs <;> ring
    · rw [hfe x hx, sq]
      have : ∑ i ∈ Finset.range B.elements.length,
          c.getD i 0 * basisFun B.params (B.elements.getD i []) x - c.getD 0 0 =
          ∑ i ∈ Finset.range B.elements.length,
            (if i = 0 then 0 else c.getD i 0) * basisFun B.params (B.elements.getD i []) x := by
        obtain ⟨n, hn⟩ : ∃ n, B.elements.length = n + 1 := ⟨_, (Nat.succ_pred_eq_of_pos hpos).symm⟩
        rw [hn, Finset.sum_range_succ', Finset.sum_range_succ']
        rw [getD_zero_of_head hz]
        unfold Expansion.dims
        rw [basisFun_zero B.params x (by omega)]
        simp
      rw [this]

/-- C32, the case that fails: an expansion with one coefficient is the constant function, whose
variance is `0`, but `get_variance` raises (the local variable is never assigned). -/
theorem c32_constant_violated (a : ℝ) : variance [a] = .error .unboundLocalError := by
  simp [variance]

/-- The parameters of the library do satisfy `Law`: Beta laws. -/
theorem law_beta (A B l u : ℝ) (hA : 0 < A) (hB : 0 < B) (hlu : l < u) (P : MParam)
    (hP : P.ab = jtab (B - 1) (A - 1) l u) : Law P (betaE A B l u) := by
  refine ⟨⟨betaL hA hB hlu, fun p => (betaL_apply hA hB hlu p).symm⟩, fun i j => ?_⟩
  rw [← beta_orthonormal hA hB hlu i j]
  congr 1
  funext x
  rw [univ_eq, univ_eq, hP]

/-- Two uniform inputs and a linear model: the hypotheses of `c32_mean_variance_partial`. -/
example : ∃ (P : MParam) (E : (ℝ → ℝ) → ℝ), Valid P ∧
    List.Forall₂ Law (Expansion.mk [P, P] [[0, 0], [0, 1], [1, 0]] none).params [E, E] ∧
    Regular ⟨[P, P], [[0, 0], [0, 1], [1, 0]], none⟩ := by
  obtain ⟨P, hv, hab, -⟩ := exists_valid (jtab (1 - 1) (1 - 1) (-1) 1)
    (by norm_num [jtab, jacobiRow]) (fun k hk => beta_tab_pos one_pos one_pos (by norm_num) k hk)
    none none 0
  have hl := law_beta 1 1 (-1) 1 one_pos one_pos (by norm_num) P hab
  exact ⟨P, _, hv, .cons hl (.cons hl .nil), ⟨by simp, by simp [Expansion.dims],
    by simp [Expansion.dims], by simp [SquareOpt]⟩⟩

/-! ## C37 -/

theorem zip_sum (els : List (List ℕ)) (c : List ℝ) (hc : c.length = els.length)
    (g : List ℕ → ℝ → ℝ) :
    ((List.zip els c).map fun rc => g rc.1 rc.2).sum =
      ∑ i ∈ Finset.range els.length, g (els.getD i []) (c.getD i 0) := by
  rw [← zipWith_sum g els c [] 0 hc.symm, List.zip, List.map_zipWith]

theorem row_nonzero {els : List (List ℕ)} {d : ℕ} (hr : ∀ row ∈ els, row.length = d)
    (hz : els.head? = some (List.replicate d 0)) (hnd : els.Nodup) (i : ℕ) (hi : i < els.length) :
    1 ≤ (nonzero (els.getD i [])).length ↔ i ≠ 0 := by
  have hpos : 0 < els.length := by omega
  rw [Nat.one_le_iff_ne_zero, ne_eq, List.length_eq_zero_iff,
    nonzero_eq_nil (row_len els d hr i hi), ← getD_zero_of_head hz, nodup_getD hnd hi hpos]

theorem nonzero_length_le {els : List (List ℕ)} {d : ℕ} (hr : ∀ row ∈ els, row.length = d)
    (i : ℕ) (hi : i < els.length) : (nonzero (els.getD i [])).length ≤ d := by
  have := (nonzero_sublist (els.getD i [])).length_le
  rwa [List.length_range, row_len els d hr i hi] at this

/-- The dictionary of Sobol' indices: keys and values. -/
theorem allSobol_ok (c : List ℝ) (els : List (List ℕ)) (d : ℕ) (maxOrder : Option ℕ)
    (hd : 2 ≤ d) (h2 : 2 ≤ c.length) : ∃ D : Dict,
    allSobol c els d maxOrder =
      .ok (.many ((List.range' 1 (sobolOrder maxOrder d)).flatMap (combos d)) D) ∧
    ∀ S, S.Sublist (List.range d) → 1 ≤ S.length → S.length ≤ sobolOrder maxOrder d →
      D S = share els c (varSum c) S := by
  refine ⟨_, by unfold allSobol; rw [variance_ok c h2]; simp only; rw [if_neg (by omega)], ?_⟩
  intro S hS h1 h3
  rw [sobolFold_value els c (varSum c) d _ List.nodup_range' _ S hS, if_pos]
  rw [List.mem_range'_1]; omega

theorem share_nonneg (els : List (List ℕ)) (c : List ℝ) (S : List ℕ) :
    0 ≤ share els c (varSum c) S := by
  unfold share
  apply List.sum_nonneg
  intro y hy
  obtain ⟨rc, _, rfl⟩ := List.mem_map.1 hy
  split_ifs
  · exact div_nonneg (sq_nonneg _) (varSum_nonneg c)
  · exact le_refl _

/-- Sum of the shares satisfying `p`, over subsets of at most `m` inputs. -/
theorem sum_share' (els : List (List ℕ)) (c : List ℝ) (d m : ℕ) (hc : c.length = els.length)
    (hr : ∀ row ∈ els, row.length = d) (p : List ℕ → Prop) [DecidablePred p] :
    ((List.range' 1 m).map fun o => ((combos d o).map fun S =>
      if p S then share els c (varSum c) S else 0).sum).sum =
    ∑ i ∈ Finset.range els.length,
      if 1 ≤ (nonzero (els.getD i [])).length ∧ (nonzero (els.getD i [])).length ≤ m ∧
        p (nonzero (els.getD i [])) then c.getD i 0 ^ 2 / varSum c else 0 := by
  rw [sum_share els c (varSum c) d m hr p]
  exact zip_sum els c hc fun row a => if 1 ≤ (nonzero row).length ∧ (nonzero row).length ≤ m ∧
    p (nonzero row) then a ^ 2 / varSum c else 0

/-- C37. In two or more dimensions, for an index set that starts with the constant and has no
repeated rows, and non-zero variance: `get_sobol(order)` returns exactly one non-negative value for
every subset of `order` inputs, and over the orders `1..d` the values sum to `1`. With a bound
`maxOrder` on the order the same holds if no row with a non-zero coefficient involves more inputs
than the bound. -/
theorem c37_sobol (c : List ℝ) (els : List (List ℕ)) (d : ℕ) (maxOrder : Option ℕ) (hd : 2 ≤ d)
    (h2 : 2 ≤ c.length) (hc : c.length = els.length) (hr : ∀ row ∈ els, row.length = d)
    (hz : els.head? = some (List.replicate d 0)) (hnd : els.Nodup) (v : ℝ)
    (hv : variance c = .ok v) (hv0 : v ≠ 0) :
    ∃ s, allSobol c els d maxOrder = .ok s ∧ ∃ L : ℕ → List (List ℕ × ℝ),
      (∀ o, getSobol s o = .ok (L o)) ∧
      (∀ o, ((L o).map Prod.fst).Nodup) ∧
      (∀ o S, S ∈ (L o).map Prod.fst ↔ S.Sublist (List.range d) ∧ S.length = o ∧ 1 ≤ o ∧
        o ≤ sobolOrder maxOrder d) ∧
      (∀ o, ∀ t ∈ L o, 0 ≤ t.2) ∧
      ((∀ k, maxOrder = some k → ∀ i < els.length, c.getD i 0 ≠ 0 →
          ((els.getD i []).filter (· ≠ 0)).length ≤ k) →
        ∑ o ∈ Finset.Icc 1 d, ((L o).map Prod.snd).sum = 1) := by
  obtain rfl : v = varSum c := by rw [variance_ok c h2] at hv; exact (Except.ok.inj hv).symm
  obtain ⟨D, hD, hval⟩ := allSobol_ok c els d maxOrder hd h2
  have hord : sobolOrder maxOrder d ≤ d := by
    unfold sobolOrder; split
    · exact le_refl _
    · split_ifs <;> omega
  have hfil : ∀ o, ((List.range' 1 (sobolOrder maxOrder d)).flatMap (combos d)).filter
      (fun k => k.length = o) = if 1 ≤ o ∧ o ≤ sobolOrder maxOrder d then combos d o else [] := by
    intro o
    rw [List.filter_flatMap]
    have e : ∀ a, (combos d a).filter (fun k => k.length = o) = if a = o then combos d o else [] := by
      intro a
      by_cases h : a = o
      · subst h
        rw [if_pos rfl, List.filter_eq_self]
        intro S hS
        simpa using (mem_combos.1 hS).2
      · rw [if_neg h, List.filter_eq_nil_iff]
        intro S hS
        rw [(mem_combos.1 hS).2]
        simpa using h
    simp only [e]
    have : ∀ l : List ℕ, l.Nodup → l.flatMap (fun a => if a = o then combos d o else []) =
        if o ∈ l then combos d o else [] := by
      intro l hl
      induction l with
      | nil => rfl
      | cons a l ih =>
        rw [List.nodup_cons] at hl
        rw [List.flatMap_cons, ih hl.2]
        by_cases h : a = o
        · subst h; simp [hl.1]
        · simp [h, Ne.symm h]
    rw [this _ List.nodup_range']
    have : o ∈ List.range' 1 (sobolOrder maxOrder d) ↔ 1 ≤ o ∧ o ≤ sobolOrder maxOrder d := by
      rw [List.mem_range'_1]; omega
    simp only [this]
  refine ⟨_, hD, fun o => (if 1 ≤ o ∧ o ≤ sobolOrder maxOrder d then combos d o else []).map
    fun k => (k, D k), ?_, ?_, ?_, ?_, ?_⟩
  · intro o
    simp only [getSobol, hfil]
  · intro o
    rw [List.map_map]
    split_ifs
    · simpa [Function.comp_def] using combos_nodup d o
    · simp
  · intro o S
    rw [List.map_map]
    split_ifs with h
    · simp only [Function.comp_def, List.map_id', mem_combos, h, and_self, and_true]
    · simp only [List.map_nil, List.not_mem_nil, false_iff]
      tauto
  · intro o t ht
    obtain ⟨S, hS, rfl⟩ := List.mem_map.1 ht
    split_ifs at hS with h
    · rw [mem_combos] at hS
      simp only
      rw [hval S hS.1 (by omega) (by omega)]
      exact share_nonneg els c S
    · simp at hS
  · intro hk
    have e1 : ∀ o ∈ Finset.Icc 1 d, (((if 1 ≤ o ∧ o ≤ sobolOrder maxOrder d then combos d o
        else []).map fun k => (k, D k)).map Prod.snd).sum =
        if o ∈ List.range' 1 (sobolOrder maxOrder d) then
          ((combos d o).map fun S => if True then share els c (varSum c) S else 0).sum else 0 := by
      intro o ho
      have : o ∈ List.range' 1 (sobolOrder maxOrder d) ↔ 1 ≤ o ∧ o ≤ sobolOrder maxOrder d := by
        rw [List.mem_range'_1]; omega
      simp only [this]
      split_ifs with h
      · rw [List.map_map]
        congr 1
        apply List.map_congr_left
        intro S hS
        rw [mem_combos] at hS
        simpa using hval S hS.1 (by omega) (by omega)
      · simp
    rw [Finset.sum_congr rfl e1, ← Finset.sum_filter]
    have e2 : (Finset.Icc 1 d).filter (· ∈ List.range' 1 (sobolOrder maxOrder d)) =
        (List.range' 1 (sobolOrder maxOrder d)).toFinset := by
      ext o
      simp only [Finset.mem_filter, Finset.mem_Icc, List.mem_toFinset, List.mem_range'_1]
      omega
    rw [e2, List.sum_toFinset _ List.nodup_range',
      sum_share' els c d (sobolOrder maxOrder d) hc hr (fun _ => True)]
    have e3 : ∀ i ∈ Finset.range els.length,
        (if 1 ≤ (nonzero (els.getD i [])).length ∧
          (nonzero (els.getD i [])).length ≤ sobolOrder maxOrder d ∧ True then
          c.getD i 0 ^ 2 / varSum c else 0) =
        (if i = 0 then 0 else c.getD i 0 ^ 2) / varSum c := by
      intro i hi
      rw [Finset.mem_range] at hi
      have hrn := row_nonzero hr hz hnd i hi
      by_cases h0 : i = 0
      · rw [if_pos h0, zero_div, if_neg]
        rintro ⟨h1, -⟩
        exact hrn.1 h1 h0
      · have hlen : (nonzero (els.getD i [])).length = ((els.getD i []).filter (· ≠ 0)).length := by
          unfold nonzero
          conv_rhs => rw [← map_range_getD (els.getD i []) 0, List.filter_map, List.length_map]
          rfl
        by_cases hci : c.getD i 0 = 0
        · rw [hci]; simp
        · have : (nonzero (els.getD i [])).length ≤ sobolOrder maxOrder d := by
            have hle := nonzero_length_le hr i hi
            unfold sobolOrder
            split
            · exact hle
            · rename_i k
              have := hk k rfl i hi hci
              split_ifs <;> omega
          rw [if_neg h0, if_pos ⟨hrn.2 h0, this, trivial⟩]
    rw [Finset.sum_congr rfl e3, ← Finset.sum_div, ← hc, ← varSum_eq]
    exact div_self hv0

/-- Three coefficients on two inputs: the hypotheses of `c37_sobol` and of `c38_total`. -/
example : variance [5, 1, 2] = .ok (5 : ℝ) ∧ (5 : ℝ) ≠ 0 ∧
    [[0, 0], [0, 1], [1, 0]].head? = some (List.replicate 2 0) ∧
    [[0, 0], [0, 1], [1, 0]].Nodup := by
  refine ⟨?_, by norm_num, rfl, by decide⟩
  simp only [variance, List.length_cons, List.length_nil, List.drop_succ_cons, List.drop_zero,
    List.foldl_cons, List.foldl_nil]
  norm_num

/-- C37. Each Sobol' index is the variance of the part of the fit that involves exactly those
inputs, divided by the variance of the fit. -/
theorem c37_sobol_meaning (B : Expansion) (hB : Regular B) (hR : B.invR = none) (hd : 2 ≤ B.dims)
    (hz : B.elements.head? = some (List.replicate B.dims 0)) (hnd : B.elements.Nodup)
    (Es : List ((ℝ → ℝ) → ℝ)) (hlaw : List.Forall₂ Law B.params Es)
    (c : List ℝ) (hc : c.length = B.elements.length) (h2 : 2 ≤ c.length)
    (f : List ℝ → ℝ) (hf : ∀ x, x.length = B.dims → B.polyfit c [x] = .ok [f x])
    (_hv : lawVar Es f ≠ 0) (maxOrder : Option ℕ) :
    ∃ s, allSobol c B.elements B.dims maxOrder = .ok s ∧
      ∀ o L, getSobol s o = .ok L → ∀ t ∈ L,
        t.2 = lawVar Es (component B.params B.elements c t.1) / lawVar Es f := by
  classical
  obtain ⟨D, hD, hval⟩ := allSobol_ok c B.elements B.dims maxOrder hd h2
  refine ⟨_, hD, ?_⟩
  intro o L hL t ht
  simp only [getSobol, Except.ok.injEq] at hL
  subst hL
  obtain ⟨S, hS, rfl⟩ := List.mem_map.1 ht
  rw [List.mem_filter, List.mem_flatMap] at hS
  obtain ⟨⟨o', ho', hS⟩, _⟩ := hS
  rw [List.mem_range'_1] at ho'
  rw [mem_combos] at hS
  have hvar : lawVar Es f = varSum c := by
    have := (c32_mean_variance_partial B hB (.inr hR) hz hnd Es hlaw c hc h2 f hf).2
    rw [variance_ok c h2] at this
    exact (Except.ok.inj this).symm
  simp only
  rw [hval S hS.1 (by omega) (by omega), hvar]
  have hl := forall₂_law_length hlaw
  have hcomp : ∀ x, component B.params B.elements c S x = ∑ i ∈ Finset.range B.elements.length,
      (if InvolvesExactly B.dims (B.elements.getD i []) S then c.getD i 0 else 0) *
        basisFun B.params (B.elements.getD i []) x := by
    intro x
    unfold component
    rw [zipWith_sum _ _ _ [] 0 hc.symm]
    apply Finset.sum_congr rfl
    intro i _
    unfold Expansion.dims
    split_ifs <;> simp
  have hmom := expansion_moments B.params Es hlaw B.elements hB.ne hB.rows hnd hz
    (fun i => if InvolvesExactly B.dims (B.elements.getD i []) S then c.getD i 0 else 0)
    (fun i => if InvolvesExactly B.dims (B.elements.getD i []) S then c.getD i 0 else 0)
  have hpos : 0 < B.elements.length := List.length_pos_iff.2 hB.ne
  have h0 : ¬ InvolvesExactly B.dims (B.elements.getD 0 []) S := by
    intro h
    rw [← nonzero_eq_iff (row_len _ _ hB.rows 0 hpos) hS.1] at h
    have := (row_nonzero hB.rows hz hnd 0 hpos).not.2 (by simp)
    rw [h] at this
    omega
  have hm : prodE Es (component B.params B.elements c S) = 0 := by
    rw [prodE_congr Es _ _ fun x _ => hcomp x, hmom.1, if_neg h0]
  unfold lawVar
  rw [hm]
  have : prodE Es (fun x => (component B.params B.elements c S x - 0) ^ 2) =
      ∑ i ∈ Finset.range B.elements.length,
        if InvolvesExactly B.dims (B.elements.getD i []) S then c.getD i 0 ^ 2 else 0 := by
    rw [prodE_congr Es _ _ fun x _ => (by rw [sub_zero, hcomp x, sq]), hmom.2]
    apply Finset.sum_congr rfl
    intro i _
    split_ifs <;> ring
  rw [this, Finset.sum_div]
  unfold share
  rw [zip_sum B.elements c hc fun row a => if nonzero row = S then a ^ 2 / varSum c else 0]
  apply Finset.sum_congr rfl
  intro i hi
  rw [Finset.mem_range] at hi
  rw [← nonzero_eq_iff (row_len _ _ hB.rows i hi) hS.1]
  split_ifs <;> simp

/-! ## C38 -/

theorem total_inner (key : List ℕ) (hk : key.Nodup) (v : ℝ) (T : List ℝ)
    (hlt : ∀ p ∈ key, p < T.length) :
    (key.foldl (fun TSI p => TSI.set p (TSI.getD p 0 + v)) T).length = T.length ∧
    ∀ i < T.length, (key.foldl (fun TSI p => TSI.set p (TSI.getD p 0 + v)) T).getD i 0 =
      T.getD i 0 + if i ∈ key then v else 0 := by
  induction key generalizing T with
  | nil => simp
  | cons p key ih =>
    rw [List.nodup_cons] at hk
    have hp := hlt p (by simp)
    obtain ⟨h1, h2⟩ := ih hk.2 (T.set p (T.getD p 0 + v))
      (by intro q hq; rw [List.length_set]; exact hlt q (by simp [hq]))
    rw [List.length_set] at h1 h2
    refine ⟨by rw [List.foldl_cons, h1], fun i hi => ?_⟩
    rw [List.foldl_cons, h2 i hi, getD_set' T p i _ hp]
    by_cases hip : i = p
    · subst hip; simp [hk.1]
    · simp [hip]

theorem total_outer (keys : List (List ℕ)) (D : Dict) (T : List ℝ)
    (hk : ∀ key ∈ keys, key.Nodup ∧ ∀ p ∈ key, p < T.length) :
    (keys.foldl (fun TSI key => key.foldl (fun TSI p => TSI.set p (TSI.getD p 0 + D key)) TSI)
      T).length = T.length ∧
    ∀ i < T.length, (keys.foldl (fun TSI key =>
      key.foldl (fun TSI p => TSI.set p (TSI.getD p 0 + D key)) TSI) T).getD i 0 =
      T.getD i 0 + (keys.map fun key => if i ∈ key then D key else 0).sum := by
  induction keys generalizing T with
  | nil => simp
  | cons key keys ih =>
    obtain ⟨h1, h2⟩ := total_inner key (hk key (by simp)).1 (D key) T (hk key (by simp)).2
    obtain ⟨h3, h4⟩ := ih (key.foldl (fun TSI p => TSI.set p (TSI.getD p 0 + D key)) T)
      (by intro k hk'; rw [h1]; exact hk k (by simp [hk']))
    refine ⟨by rw [List.foldl_cons, h3, h1], fun i hi => ?_⟩
    rw [List.foldl_cons, h4 i (by omega), h2 i hi, List.map_cons, List.sum_cons, add_assoc]

/-- C38. In two or more dimensions, with non-zero variance: the total index of input `i` is the sum
of the Sobol' indices (as returned by `get_sobol` for the orders `1..d`) of the subsets containing
`i`, which is the share of the variance of the rows that involve `i`; it is between the
first-order index and `1`, and zero if no row with a non-zero coefficient involves `i`. -/
theorem c38_total (c : List ℝ) (els : List (List ℕ)) (d : ℕ) (hd : 2 ≤ d)
    (h2 : 2 ≤ c.length) (hc : c.length = els.length) (hr : ∀ row ∈ els, row.length = d)
    (hz : els.head? = some (List.replicate d 0)) (v : ℝ)
    (hv : variance c = .ok v) (hv0 : v ≠ 0) :
    ∃ s T, allSobol c els d none = .ok s ∧ getSobolTotal s d = .ok T ∧ T.length = d ∧
      ∃ L : ℕ → List (List ℕ × ℝ), (∀ o, getSobol s o = .ok (L o)) ∧
      ∀ i < d,
        T.getD i 0 = ∑ o ∈ Finset.Icc 1 d,
          (((L o).filter fun t => i ∈ t.1).map Prod.snd).sum ∧
        T.getD i 0 = ∑ j ∈ Finset.range els.length,
          (if (els.getD j []).getD i 0 ≠ 0 then c.getD j 0 ^ 2 / v else 0) ∧
        (∀ a, ([i], a) ∈ L 1 → a ≤ T.getD i 0) ∧ T.getD i 0 ≤ 1 ∧
        ((∀ j < els.length, c.getD j 0 ≠ 0 → (els.getD j []).getD i 0 = 0) → T.getD i 0 = 0) := by
  obtain rfl : v = varSum c := by rw [variance_ok c h2] at hv; exact (Except.ok.inj hv).symm
  obtain ⟨D, hD, hval⟩ := allSobol_ok c els d none hd h2
  have ho : sobolOrder none d = d := rfl
  rw [ho] at hD hval
  have hmem : ∀ key ∈ (List.range' 1 d).flatMap (combos d),
      key.Sublist (List.range d) ∧ 1 ≤ key.length ∧ key.length ≤ d := by
    intro key hkey
    rw [List.mem_flatMap] at hkey
    obtain ⟨o, h1, h3⟩ := hkey
    rw [List.mem_range'_1] at h1
    rw [mem_combos] at h3
    exact ⟨h3.1, by omega, by omega⟩
  obtain ⟨hT1, hT2⟩ := total_outer ((List.range' 1 d).flatMap (combos d)) D
    (List.replicate d 0) (by
      intro key hkey
      have := (hmem key hkey).1
      refine ⟨List.nodup_range.sublist this, fun p hp => ?_⟩
      simpa using this.subset hp)
  rw [List.length_replicate] at hT1 hT2
  refine ⟨_, _, hD, rfl, hT1, _, fun o => rfl, ?_⟩
  intro i hi
  have hvpos : 0 < varSum c := lt_of_le_of_ne (varSum_nonneg c) (Ne.symm hv0)
  have hTi := hT2 i hi
  have hrep : (List.replicate d (0 : ℝ)).getD i 0 = 0 := by simp
  rw [hrep, zero_add] at hTi
  have hflat : ∀ g : List ℕ → ℝ, (((List.range' 1 d).flatMap (combos d)).map g).sum =
      ((List.range' 1 d).map fun o => ((combos d o).map g).sum).sum := by
    intro g
    generalize List.range' 1 d = l
    induction l with
    | nil => rfl
    | cons a l ih => rw [List.flatMap_cons, List.map_append, List.sum_append, ih]; rfl
  have hTs : (((List.range' 1 d).flatMap (combos d)).map fun key =>
      if i ∈ key then D key else 0).sum = ∑ j ∈ Finset.range els.length,
          (if (els.getD j []).getD i 0 ≠ 0 then c.getD j 0 ^ 2 / varSum c else 0) := by
    rw [show ((List.range' 1 d).flatMap (combos d)).map (fun key => if i ∈ key then D key else 0) =
      ((List.range' 1 d).flatMap (combos d)).map
        (fun key => if i ∈ key then share els c (varSum c) key else 0) from ?_, hflat,
      sum_share' els c d d hc hr (fun S => i ∈ S)]
    · apply Finset.sum_congr rfl
      intro j hj
      rw [Finset.mem_range] at hj
      have hle := nonzero_length_le hr j hj
      have : i ∈ nonzero (els.getD j []) ↔ (els.getD j []).getD i 0 ≠ 0 := by
        rw [mem_nonzero, row_len els d hr j hj]; simp [hi]
      by_cases hij : i ∈ nonzero (els.getD j [])
      · have h1 : 1 ≤ (nonzero (els.getD j [])).length := List.length_pos_of_mem hij
        rw [if_pos ⟨h1, hle, hij⟩, if_pos (this.1 hij)]
      · rw [if_neg (fun h => hij h.2.2), if_neg (fun h => hij (this.2 h))]
    · apply List.map_congr_left
      intro key hkey
      obtain ⟨h1, h3, h4⟩ := hmem key hkey
      rw [hval key h1 h3 h4]
  have hnn : ∀ j ∈ Finset.range els.length, (0 : ℝ) ≤
      if (els.getD j []).getD i 0 ≠ 0 then c.getD j 0 ^ 2 / varSum c else 0 := by
    intro j _
    split_ifs
    · positivity
    · exact le_refl _
  refine ⟨?_, hTi.trans hTs, ?_, ?_, ?_⟩
  · rw [hTi, hflat]
    have : ∀ o ∈ Finset.Icc 1 d, (((((List.range' 1 d).flatMap (combos d)).filter
        fun k => k.length = o).map fun k => (k, D k)).filter fun t => i ∈ t.1).map Prod.snd =
        (((List.range' 1 d).flatMap (combos d)).filter fun k => k.length = o ∧ i ∈ k).map D := by
      intro o _
      rw [List.filter_map, List.map_map, List.filter_filter]
      simp [Function.comp_def, Bool.and_comm]
    rw [Finset.sum_congr rfl fun o ho => by rw [this o ho]]
    have e2 : (List.range' 1 d).toFinset = Finset.Icc 1 d := by
      ext o
      simp only [Finset.mem_Icc, List.mem_toFinset, List.mem_range'_1]
      omega
    rw [← e2, List.sum_toFinset _ List.nodup_range']
    congr 1
    apply List.map_congr_left
    intro o ho
    rw [List.mem_range'_1] at ho
    have hfil : (((List.range' 1 d).flatMap (combos d)).filter fun k => k.length = o ∧ i ∈ k) =
        (combos d o).filter fun k => i ∈ k := by
      rw [List.filter_flatMap]
      have e : ∀ a, (combos d a).filter (fun k => k.length = o ∧ i ∈ k) =
          if a = o then (combos d o).filter (fun k => i ∈ k) else [] := by
        intro a
        by_cases h : a = o
        · subst h
          rw [if_pos rfl]
          apply List.filter_congr
          intro S hS
          simp [(mem_combos.1 hS).2]
        · rw [if_neg h, List.filter_eq_nil_iff]
          intro S hS
          rw [(mem_combos.1 hS).2]
          simp [h]
      simp only [e]
      have : ∀ l : List ℕ, l.Nodup → o ∈ l →
          l.flatMap (fun a => if a = o then (combos d o).filter (fun k => i ∈ k) else []) =
          (combos d o).filter (fun k => i ∈ k) := by
        intro l hl
        induction l with
        | nil => intro h; simp at h
        | cons a l ih =>
          rw [List.nodup_cons] at hl
          intro h
          rw [List.flatMap_cons]
          by_cases h' : a = o
          · subst h'
            rw [if_pos rfl]
            have : l.flatMap (fun b => if b = a then (combos d a).filter (fun k => i ∈ k)
                else []) = [] := by
              rw [List.flatMap_eq_nil_iff]
              intro b hb
              rw [if_neg]
              rintro rfl
              exact hl.1 hb
            rw [this, List.append_nil]
          · rw [if_neg h', List.nil_append]
            exact ih hl.2 (by simpa [Ne.symm h'] using h)
      exact this _ List.nodup_range' (by rw [List.mem_range'_1]; omega)
    rw [hfil]
    generalize combos d o = l
    induction l with
    | nil => rfl
    | cons a l ih =>
      by_cases h : i ∈ a
      · simp [h, ih]
      · simp [h, ih]
  · intro a ha
    obtain ⟨S, hS, hSe⟩ := List.mem_map.1 ha
    rw [Prod.mk.injEq] at hSe
    obtain ⟨rfl, rfl⟩ := hSe
    rw [List.mem_filter] at hS
    obtain ⟨h1, h3, h4⟩ := hmem _ hS.1
    rw [hval _ h1 h3 h4, hTi, hTs]
    unfold share
    rw [zip_sum els c hc fun row a => if nonzero row = [i] then a ^ 2 / varSum c else 0]
    apply Finset.sum_le_sum
    intro j hj
    rw [Finset.mem_range] at hj
    by_cases h5 : nonzero (els.getD j []) = [i]
    · have : i ∈ nonzero (els.getD j []) := by rw [h5]; simp
      rw [if_pos h5, if_pos (mem_nonzero.1 this).2]
    · rw [if_neg h5]
      exact hnn j (Finset.mem_range.2 hj)
  · rw [hTi, hTs]
    have : ∑ j ∈ Finset.range els.length, (if j = 0 then 0 else c.getD j 0 ^ 2) / varSum c = 1 := by
      rw [← Finset.sum_div, ← hc, ← varSum_eq]
      exact div_self hv0
    rw [← this]
    apply Finset.sum_le_sum
    intro j hj
    rw [Finset.mem_range] at hj
    by_cases h0 : j = 0
    · subst h0
      rw [getD_zero_of_head hz]
      simp [hi]
    · simp only [if_neg h0]
      split_ifs
      · exact le_refl _
      · positivity
  · intro h
    rw [hTi, hTs]
    apply Finset.sum_eq_zero
    intro j hj
    rw [Finset.mem_range] at hj
    by_cases hcj : c.getD j 0 = 0
    · rw [hcj]; simp
    · rw [if_neg (by simpa using h j hj hcj)]

/-! ## C39 -/

/-- C39 fails: in one dimension every Sobol' query raises `TypeError`, and with one coefficient
no statistics object can be built at all (`UnboundLocalError`). -/
theorem c39_violated :
    (∀ (c : List ℝ) (els : List (List ℕ)) (mo : Option ℕ), 2 ≤ c.length →
      ∃ s, allSobol c els 1 mo = .ok s ∧ (∀ o, getSobol s o = .error .typeError) ∧
        ∀ n, getSobolTotal s n = .error .typeError) ∧
    ∀ (a : ℝ) (els : List (List ℕ)) (d : ℕ) (mo : Option ℕ),
      allSobol [a] els d mo = .error .unboundLocalError := by
  refine ⟨fun c els mo h => ⟨.one, ?_, fun _ => rfl, fun _ => rfl⟩, fun a els d mo => ?_⟩
  · simp [allSobol, variance_ok c h]
  · simp [allSobol, c32_constant_violated]

/-- C39, what holds: in every dimension, with at least two coefficients, the statistics are
computed and mean and variance are returned; in two or more dimensions all Sobol' queries
return. -/
theorem c39_queries_partial (c : List ℝ) (els : List (List ℕ)) (d : ℕ) (mo : Option ℕ)
    (h : 2 ≤ c.length) :
    (∃ m, mean c = .ok m) ∧ (∃ v, variance c = .ok v) ∧
    ∃ s, allSobol c els d mo = .ok s ∧
      (d ≠ 1 → (∀ o, ∃ L, getSobol s o = .ok L) ∧ ∀ n, ∃ T, getSobolTotal s n = .ok T) := by
  refine ⟨?_, ⟨_, variance_ok c h⟩, ?_⟩
  · cases c with
    | nil => simp at h
    | cons a l => exact ⟨a, rfl⟩
  · by_cases hd : d = 1
    · exact ⟨.one, by simp [allSobol, variance_ok c h, hd], fun h => absurd hd h⟩
    · exact ⟨_, by unfold allSobol; rw [variance_ok c h]; simp only; rw [if_neg hd],
        fun _ => ⟨fun o => ⟨_, rfl⟩, fun n => ⟨_, rfl⟩⟩⟩

example : ∃ s, allSobol [5, 1, 2] [[0, 0], [0, 1], [1, 0]] 2 none = .ok s :=
  (c39_queries_partial [5, 1, 2] _ 2 none (by simp)).2.2.imp fun _ h => h.1

end EQ.Stats
