import Verif.Stats.InertProps

/-!
# The order of interactions of a fit (C182)
-/

namespace EQ.Stats
open EQ.Param EQ.Poly EQ.Poly.Spec EQ.Sampling EQ.Sampling.Spec EQ.Stats.Spec EQ.Basis

/-! ## Specification -/

/-- The function of `d` inputs is a sum of functions each of which depends on at most `k` of them. -/
def SumOfFew (d k : ℕ) (f : List ℝ → ℝ) : Prop :=
  ∃ (n : ℕ) (g : ℕ → List ℝ → ℝ) (S : ℕ → Finset ℕ), (∀ j, (S j).card ≤ k ∧ ∀ i < d, i ∉ S j → Inert d i (g j)) ∧
    ∀ x, x.length = d → f x = ∑ j ∈ Finset.range n, g j x

/-! ## Lemmas -/

/-- The change of a function when input `t` is set to zero. -/
def diff (t : ℕ) (f : List ℝ → ℝ) (x : List ℝ) : ℝ := f x - f (x.set t 0)

/-- Repeated changes. -/
def diffs (T : List ℕ) (f : List ℝ → ℝ) : List ℝ → ℝ := T.foldr diff f

theorem diffs_cons (t : ℕ) (T : List ℕ) (f : List ℝ → ℝ) : diffs (t :: T) f = diff t (diffs T f) := rfl

theorem diffs_congr {d : ℕ} {f g : List ℝ → ℝ} (h : ∀ x, x.length = d → f x = g x) (T : List ℕ) : ∀ x, x.length = d → diffs T f x = diffs T g x := by
  induction T with
  | nil => exact h
  | cons t T ih =>
    intro x hx
    rw [diffs_cons, diffs_cons, diff, diff, ih x hx, ih _ (by simpa using hx)]

theorem diffs_sum (T : List ℕ) (n : ℕ) (g : ℕ → List ℝ → ℝ) : diffs T (fun x => ∑ j ∈ Finset.range n, g j x) = fun x => ∑ j ∈ Finset.range n, diffs T (g j) x := by
  induction T with
  | nil => rfl
  | cons t T ih =>
    rw [diffs_cons, ih]
    funext x
    rw [diff, ← Finset.sum_sub_distrib]
    rfl

theorem inert_diff {d i : ℕ} {f : List ℝ → ℝ} (h : Inert d i f) (t : ℕ) : Inert d i (diff t f) := by
  intro x hx u
  unfold diff
  rw [h x hx u]
  by_cases e : i = t
  · subst e
    rw [List.set_set]
  · rw [List.set_comm _ _ e, h (x.set t 0) (by simpa using hx) u]

theorem inert_diffs {d i : ℕ} {f : List ℝ → ℝ} (h : Inert d i f) (T : List ℕ) : Inert d i (diffs T f) := by
  induction T with
  | nil => exact h
  | cons t T ih => exact inert_diff ih t

theorem diffs_inert {d i : ℕ} {f : List ℝ → ℝ} (h : Inert d i f) (T : List ℕ) (hi : i ∈ T) : ∀ x, x.length = d → diffs T f x = 0 := by
  induction T with
  | nil => simp at hi
  | cons t T ih =>
    intro x hx
    rw [diffs_cons, diff]
    by_cases e : i ∈ T
    · rw [ih e x hx, ih e _ (by simpa using hx), sub_zero]
    · obtain rfl : i = t := by simpa [e] using hi
      rw [inert_diffs h T x hx 0, sub_self]

/-- A sum of basis functions given by coefficients and rows. -/
noncomputable def phiSum (params : List MParam) (ts : List (ℝ × List ℕ)) (x : List ℝ) : ℝ := (ts.map fun t => t.1 * basisFun params t.2 x).sum

theorem phiSum_append (params : List MParam) (ts us : List (ℝ × List ℕ)) (x : List ℝ) : phiSum params (ts ++ us) x = phiSum params ts x + phiSum params us x := by
  simp [phiSum]

theorem basisFun_at_zero (params : List MParam) (row : List ℕ) (hr : row.length = params.length) (t : ℕ) :
    ∃ κ : ℝ, ∀ x, x.length = params.length → basisFun params row (x.set t 0) = κ * basisFun params (row.set t 0) x := by
  induction params generalizing row t with
  | nil => exact ⟨1, fun x _ => by simp [basisFun]⟩
  | cons P Ps ih =>
    cases row with
    | nil => simp at hr
    | cons n row =>
      cases t with
      | zero =>
        refine ⟨univ P n 0, fun x hx => ?_⟩
        cases x with
        | nil => simp at hx
        | cons y ys => simp [basisFun, EQ.Poly.univ_zero]
      | succ t =>
        obtain ⟨κ, hκ⟩ := ih row (by simpa using hr) t
        refine ⟨κ, fun x hx => ?_⟩
        cases x with
        | nil => simp at hx
        | cons y ys =>
          simp only [List.set_cons_succ, basisFun, hκ ys (by simpa using hx)]
          ring

theorem phiSum_at_zero (params : List MParam) (ts : List (ℝ × List ℕ)) (hr : ∀ t ∈ ts, t.2.length = params.length) (i : ℕ) (hi : i < params.length) :
    ∃ us : List (ℝ × List ℕ), (∀ t ∈ us, t.2.length = params.length ∧ t.2.getD i 0 = 0) ∧
      ∀ x, x.length = params.length → phiSum params ts (x.set i 0) = phiSum params us x := by
  induction ts with
  | nil => exact ⟨[], by simp, fun x _ => rfl⟩
  | cons t ts ih =>
    obtain ⟨us, h1, h2⟩ := ih fun t' h' => hr t' (List.mem_cons_of_mem _ h')
    have htl := hr t List.mem_cons_self
    obtain ⟨κ, hκ⟩ := basisFun_at_zero params t.2 htl i
    refine ⟨(t.1 * κ, t.2.set i 0) :: us, ?_, fun x hx => ?_⟩
    · intro t' h'
      rcases List.mem_cons.1 h' with rfl | h'
      · refine ⟨by simpa using htl, ?_⟩
        simp only
        rw [getD_of_lt _ _ _ (by simpa [htl] using hi)]
        simp
      · exact h1 t' h'
    · have := h2 x hx
      simp only [phiSum, List.map_cons, List.sum_cons] at this ⊢
      rw [this, hκ x hx, mul_assoc]

theorem diffs_phiSum (params : List MParam) (ts : List (ℝ × List ℕ)) (hr : ∀ t ∈ ts, t.2.length = params.length) (T : List ℕ) (hT : ∀ i ∈ T, i < params.length) :
    ∃ us : List (ℝ × List ℕ), (∀ t ∈ us, t.2.length = params.length ∧ ∃ i ∈ T, t.2.getD i 0 = 0) ∧
      ∀ x, x.length = params.length → diffs T (phiSum params ts) x = phiSum params (ts ++ us) x := by
  induction T with
  | nil => exact ⟨[], by simp, fun x _ => by rw [List.append_nil]; rfl⟩
  | cons i T ih =>
    obtain ⟨us, h1, h2⟩ := ih fun j hj => hT j (List.mem_cons_of_mem _ hj)
    obtain ⟨vs, h3, h4⟩ := phiSum_at_zero params (ts ++ us) (fun t ht => by
      rcases List.mem_append.1 ht with h | h
      · exact hr t h
      · exact (h1 t h).1) i (hT i List.mem_cons_self)
    refine ⟨us ++ vs.map (fun t => (-t.1, t.2)), ?_, fun x hx => ?_⟩
    · intro t ht
      rcases List.mem_append.1 ht with h | h
      · obtain ⟨h5, j, hj, h6⟩ := h1 t h
        exact ⟨h5, j, List.mem_cons_of_mem _ hj, h6⟩
      · obtain ⟨v, hv, rfl⟩ := List.mem_map.1 h
        exact ⟨(h3 v hv).1, i, List.mem_cons_self, (h3 v hv).2⟩
    · rw [diffs_cons, diff, h2 x hx, h2 _ (by simpa using hx), h4 x hx, ← List.append_assoc, phiSum_append params (ts ++ us)]
      have : phiSum params (vs.map fun t => (-t.1, t.2)) x = -phiSum params vs x := by
        clear h3 h4
        unfold phiSum
        induction vs with
        | nil => simp
        | cons v vs ih =>
          simp only [List.map_cons, List.sum_cons] at ih ⊢
          rw [ih]
          ring
      rw [this, sub_eq_add_neg]

theorem prodE_phiSum (params : List MParam) (Es : List ((ℝ → ℝ) → ℝ)) (hlaw : List.Forall₂ Law params Es) (ts : List (ℝ × List ℕ))
    (hr : ∀ t ∈ ts, t.2.length = params.length) (r : List ℕ) (hrl : r.length = params.length) :
    prodE Es (fun x => phiSum params ts x * basisFun params r x) = (ts.map fun t => if t.2 = r then t.1 else 0).sum := by
  have h := prodE_gram params Es hlaw ts.length 1 (fun i => (ts.getD i (0, r)).2) (fun _ => r) (fun i => by
    by_cases hi : i < ts.length
    · rw [getD_of_lt _ _ _ hi]; exact hr _ (List.getElem_mem hi)
    · rw [List.getD_eq_default _ _ (by omega)]; exact hrl) (fun _ => hrl) (fun i => (ts.getD i (0, r)).1) fun _ => 1
  simp only [Finset.sum_range_one, one_mul, mul_one] at h
  rw [← range_map_sum, ← map_eq_range ts (0, r) (fun t => t.1 * if t.2 = r then 1 else 0)] at h
  simp only [mul_ite, mul_one, mul_zero] at h
  rw [← h]
  apply prodE_congr
  intro x _
  rw [phiSum, map_eq_range ts (0, r) (fun t => t.1 * basisFun params t.2 x), range_map_sum]

theorem filter_keys (d o : ℕ) : ((List.range' 1 d).flatMap (combos d)).filter (fun k => k.length = o) = if 1 ≤ o ∧ o ≤ d then combos d o else [] := by
  rw [List.filter_flatMap]
  have e : ∀ a, (combos d a).filter (fun k => k.length = o) = if a = o then combos d o else [] := by
    intro a
    by_cases h : a = o
    · subst h
      rw [if_pos rfl, List.filter_eq_self]
      intro S hS
      simpa using (mem_combos.1 hS).2
    · rw [if_neg h, List.filter_eq_nil_iff]
      intro S hS
      rw [(mem_combos.1 hS).2]
      simpa using h
  simp only [e]
  have : ∀ l : List ℕ, l.Nodup → l.flatMap (fun a => if a = o then combos d o else []) = if o ∈ l then combos d o else [] := by
    intro l hl
    induction l with
    | nil => rfl
    | cons a l ih =>
      rw [List.nodup_cons] at hl
      rw [List.flatMap_cons, ih hl.2]
      by_cases h : a = o
      · subst h; simp [hl.1]
      · simp [h, Ne.symm h]
  rw [this _ List.nodup_range']
  have : o ∈ List.range' 1 d ↔ 1 ≤ o ∧ o ≤ d := by rw [List.mem_range'_1]; omega
  simp only [this]

/-- The shares of the first `k` orders sum to one exactly when every row with more than `k` inputs has coefficient zero. -/
theorem shares_eq_one (els : List (List ℕ)) (c : List ℝ) (d k : ℕ) (hc : c.length = els.length) (hr : ∀ row ∈ els, row.length = d)
    (hz : els.head? = some (List.replicate d 0)) (hnd : els.Nodup) (hv : varSum c ≠ 0) :
    ((List.range' 1 k).map fun o => ((combos d o).map fun S => share els c (varSum c) S).sum).sum = 1 ↔
      ∀ i < els.length, k < (nonzero (els.getD i [])).length → c.getD i 0 = 0 := by
  have h := sum_share' els c d k hc hr fun _ => True
  simp only [if_true, and_true] at h
  rw [h]
  have h1 : (1 : ℝ) = ∑ i ∈ Finset.range els.length, if 1 ≤ (nonzero (els.getD i [])).length then c.getD i 0 ^ 2 / varSum c else 0 := by
    conv_lhs => rw [← div_self hv]
    conv_lhs => arg 1; rw [varSum_eq]
    rw [Finset.sum_div, hc]
    apply Finset.sum_congr rfl
    intro i hi
    have := row_nonzero hr hz hnd i (Finset.mem_range.1 hi)
    by_cases e : i = 0
    · rw [if_pos e, if_neg (by rw [this]; simpa using e), zero_div]
    · rw [if_neg e, if_pos (this.2 e)]
  rw [h1, eq_comm, ← sub_eq_zero, ← Finset.sum_sub_distrib, Finset.sum_eq_zero_iff_of_nonneg]
  · refine ⟨fun H i hi hk => ?_, fun H i hi => ?_⟩
    · have := H i (Finset.mem_range.2 hi)
      rw [if_pos (by omega), if_neg (by omega), sub_zero, div_eq_zero_iff] at this
      exact pow_eq_zero_iff two_ne_zero |>.1 (this.resolve_right hv)
    · by_cases hk : k < (nonzero (els.getD i [])).length
      · rw [H i (Finset.mem_range.1 hi) hk]
        simp
      · by_cases h1 : 1 ≤ (nonzero (els.getD i [])).length
        · rw [if_pos h1, if_pos ⟨h1, by omega⟩, sub_self]
        · rw [if_neg h1, if_neg (by tauto), sub_self]
  · intro i _
    have := div_nonneg (sq_nonneg (c.getD i 0)) (varSum_nonneg c)
    by_cases h1 : 1 ≤ (nonzero (els.getD i [])).length
    · by_cases h2 : (nonzero (els.getD i [])).length ≤ k
      · rw [if_pos h1, if_pos ⟨h1, h2⟩, sub_self]
      · rw [if_pos h1, if_neg (by tauto), sub_zero]
        exact this
    · rw [if_neg h1, if_neg (by tauto), sub_self]

/-- A sum of functions of few inputs has no coefficient on a row with more inputs. -/
theorem coeff_zero (params : List MParam) (Es : List ((ℝ → ℝ) → ℝ)) (hlaw : List.Forall₂ Law params Es) (els : List (List ℕ)) (hnd : els.Nodup)
    (hr : ∀ row ∈ els, row.length = params.length) (c : List ℝ) (hc : c.length = els.length) (k : ℕ) (h : SumOfFew params.length k (expansion params els c))
    (i : ℕ) (hi : i < els.length) (hk : k < (nonzero (els.getD i [])).length) : c.getD i 0 = 0 := by
  obtain ⟨n, g, S, hS, hsum⟩ := h
  let ts : List (ℝ × List ℕ) := (List.range els.length).map fun j => (c.getD j 0, els.getD j [])
  have hts : ∀ t ∈ ts, t.2.length = params.length := by
    intro t ht
    obtain ⟨j, hj, rfl⟩ := List.mem_map.1 ht
    exact row_len els _ hr j (List.mem_range.1 hj)
  have hri : (els.getD i []).length = params.length := row_len els _ hr i hi
  obtain ⟨us, hus, hd⟩ := diffs_phiSum params ts hts (nonzero (els.getD i [])) fun j hj => hri ▸ (mem_nonzero.1 hj).1
  have hphi : ∀ x, x.length = params.length → phiSum params ts x = ∑ j ∈ Finset.range n, g j x := by
    intro x hx
    rw [← hsum x hx, sum_expansion _ _ _ hc, phiSum, List.map_map, ← range_map_sum]
    rfl
  have hzero : ∀ x, x.length = params.length → phiSum params (ts ++ us) x = 0 := by
    intro x hx
    rw [← hd x hx, diffs_congr hphi _ x hx, diffs_sum]
    apply Finset.sum_eq_zero
    intro j _
    obtain ⟨t, ht, htS⟩ : ∃ t ∈ nonzero (els.getD i []), t ∉ S j := by
      by_contra hcon
      push Not at hcon
      have hnod : (nonzero (els.getD i [])).Nodup := (nonzero_sublist _).nodup List.nodup_range
      have := Finset.card_le_card (s := (nonzero (els.getD i [])).toFinset) (t := S j) fun t ht => hcon t (List.mem_toFinset.1 ht)
      rw [List.toFinset_card_of_nodup hnod] at this
      have := (hS j).1
      omega
    exact diffs_inert ((hS j).2 t (hri ▸ (mem_nonzero.1 ht).1) htS) _ ht x hx
  have hp := prodE_phiSum params Es hlaw (ts ++ us) (fun t ht => by
    rcases List.mem_append.1 ht with h | h
    · exact hts t h
    · exact (hus t h).1) (els.getD i []) hri
  have hl : params.length = Es.length := hlaw.length_eq
  have hp0 := prodE_phiSum params Es hlaw [] (by simp) (els.getD i []) hri
  rw [prodE_congr Es _ (fun x => phiSum params [] x * basisFun params (els.getD i []) x) (fun x hx => by
    rw [hzero x (by rw [hl, hx])]; simp [phiSum]), hp0, List.map_append, List.sum_append] at hp
  have h1 : (us.map fun t => if t.2 = els.getD i [] then t.1 else 0).sum = 0 := by
    apply List.sum_eq_zero
    intro a ha
    obtain ⟨t, ht, rfl⟩ := List.mem_map.1 ha
    obtain ⟨-, j, hj, h0⟩ := hus t ht
    rw [if_neg]
    intro e
    rw [e] at h0
    exact (mem_nonzero.1 hj).2 h0
  have h2 : (ts.map fun t => if t.2 = els.getD i [] then t.1 else 0).sum = c.getD i 0 := by
    rw [List.map_map]
    have := range_map_sum els.length ((fun t : ℝ × List ℕ => if t.2 = els.getD i [] then t.1 else 0) ∘ fun j => (c.getD j 0, els.getD j []))
    rw [this, Finset.sum_eq_single i]
    · simp
    · intro j hj hji
      simp only [Function.comp_def]
      rw [if_neg]
      rw [nodup_getD hnd (Finset.mem_range.1 hj) hi]
      exact hji
    · intro hni
      exact absurd (Finset.mem_range.2 hi) hni
  rw [h1, h2] at hp
  simpa using hp.symm

/-! ## Properties -/

/-- **C182.** Under the hypotheses of C162, for every `k`: the Sobol' indices of the orders `1..k` sum to one exactly when the fit is a sum of functions of at
most `k` inputs each. In particular the first-order indices sum to one exactly when the fit is additive. -/
theorem c182_structure (B : Expansion) (hB : Regular B) (hR : B.invR = none) (hd : 2 ≤ B.dims) (hz : B.elements.head? = some (List.replicate B.dims 0))
    (hnd : B.elements.Nodup) (Es : List ((ℝ → ℝ) → ℝ)) (hlaw : List.Forall₂ Law B.params Es) (c : List ℝ) (hc : c.length = B.elements.length)
    (h2 : 2 ≤ c.length) (f : List ℝ → ℝ) (hf : ∀ x, x.length = B.dims → B.polyfit c [x] = .ok [f x]) (hv : lawVar Es f ≠ 0) :
    ∃ (s : Sobol) (L : ℕ → List (List ℕ × ℝ)), allSobol c B.elements B.dims none = .ok s ∧ (∀ o, getSobol s o = .ok (L o)) ∧
      ∀ k ≤ B.dims, ∑ o ∈ Finset.Icc 1 k, ((L o).map Prod.snd).sum = 1 ↔ SumOfFew B.dims k f := by
  obtain ⟨D, hD, hval⟩ := allSobol_ok c B.elements B.dims none hd h2
  have hord : sobolOrder none B.dims = B.dims := rfl
  rw [hord] at hD hval
  have hvar : lawVar Es f = varSum c := by
    have := (c32_mean_variance_partial B hB (.inr hR) hz hnd Es hlaw c hc h2 f hf).2
    rw [variance_ok c h2] at this
    exact (Except.ok.inj this).symm
  have hfe : ∀ x, x.length = B.dims → f x = expansion B.params B.elements c x := fun x hx => polyfit_single B hB (.inr hR) c hc f hf x hx
  refine ⟨_, fun o => (if 1 ≤ o ∧ o ≤ B.dims then combos B.dims o else []).map fun k => (k, D k), hD, fun o => ?_, fun k hk => ?_⟩
  · simp only [getSobol, filter_keys]
  · have e : ∑ o ∈ Finset.Icc 1 k, (((if 1 ≤ o ∧ o ≤ B.dims then combos B.dims o else []).map fun k => (k, D k)).map Prod.snd).sum =
        ((List.range' 1 k).map fun o => ((combos B.dims o).map fun S => share B.elements c (varSum c) S).sum).sum := by
      have e2 : Finset.Icc 1 k = (List.range' 1 k).toFinset := by
        ext o
        simp only [Finset.mem_Icc, List.mem_toFinset, List.mem_range'_1]
        omega
      rw [e2, List.sum_toFinset _ List.nodup_range']
      congr 1
      apply List.map_congr_left
      intro o ho
      rw [List.mem_range'_1] at ho
      rw [if_pos (by omega), List.map_map]
      congr 1
      apply List.map_congr_left
      intro S hS
      rw [mem_combos] at hS
      exact hval S hS.1 (by omega) (by omega)
    rw [e, shares_eq_one B.elements c B.dims k hc hB.rows hz hnd (hvar ▸ hv)]
    constructor
    · intro H
      refine ⟨B.elements.length, fun j x => c.getD j 0 * basisFun B.params (B.elements.getD j []) x,
        fun j => if c.getD j 0 = 0 then ∅ else (nonzero (B.elements.getD j [])).toFinset, fun j => ⟨?_, fun i hi hiS => ?_⟩, fun x hx => ?_⟩
      · beta_reduce
        split_ifs with h0
        · simp
        · refine (List.toFinset_card_le _).trans ?_
          by_contra hlt
          by_cases hj : j < B.elements.length
          · exact h0 (H j hj (by omega))
          · exact h0 (List.getD_eq_default _ _ (by omega))
      · intro x hx t
        beta_reduce at hiS
        split_ifs at hiS with h0
        · simp only [h0, zero_mul]
        · simp only
          rw [basisFun_set]
          by_contra hne
          by_cases hj : j < B.elements.length
          · exact hiS (List.mem_toFinset.2 (mem_nonzero.2 ⟨by rw [row_len _ _ hB.rows j hj]; exact hi, hne⟩))
          · exact h0 (List.getD_eq_default _ _ (by omega))
      · rw [hfe x hx, sum_expansion _ _ _ hc]
    · intro H i hi hki
      refine coeff_zero B.params Es hlaw B.elements hnd hB.rows c hc k ?_ i hi hki
      obtain ⟨n, g, S, hS, hsum⟩ := H
      exact ⟨n, g, S, hS, fun x hx => by rw [← hfe x hx]; exact hsum x hx⟩

/-- An additive fit of two inputs, with a variance different from zero: the theorem says that the first-order indices sum to one. The fit with the interaction
is not additive, and they do not. -/
example : ∃ (P : MParam) (E : (ℝ → ℝ) → ℝ) (f g : List ℝ → ℝ),
    let B : Expansion := ⟨[P, P], [[0, 0], [0, 1], [1, 0], [1, 1]], none⟩
    Regular B ∧ B.elements.Nodup ∧ B.elements.head? = some (List.replicate B.dims 0) ∧ List.Forall₂ Law B.params [E, E] ∧
    (∀ x, x.length = B.dims → B.polyfit [3, 1, 2, 0] [x] = .ok [f x]) ∧ lawVar [E, E] f = 5 ∧ SumOfFew B.dims 1 f ∧
    (∀ x, x.length = B.dims → B.polyfit [3, 1, 2, 4] [x] = .ok [g x]) ∧ lawVar [E, E] g = 21 ∧ ¬ SumOfFew B.dims 1 g := by
  obtain ⟨P, -, hab, -⟩ := exists_valid (jtab (1 - 1) (1 - 1) (-1) 1)
    (by norm_num [jtab, jacobiRow]) (fun k hk => beta_tab_pos one_pos one_pos (by norm_num) k hk)
    none none 0
  have hl := law_beta 1 1 (-1) 1 one_pos one_pos (by norm_num) P hab
  have hB : Regular ⟨[P, P], [[0, 0], [0, 1], [1, 0], [1, 1]], none⟩ := ⟨by simp, by simp [Expansion.dims], by simp [Expansion.dims], by simp [SquareOpt]⟩
  have hlaw : List.Forall₂ Law (Expansion.mk [P, P] [[0, 0], [0, 1], [1, 0], [1, 1]] none).params [EQ.ParamSpec.betaE 1 1 (-1) 1, EQ.ParamSpec.betaE 1 1 (-1) 1] :=
    .cons hl (.cons hl .nil)
  have hf : ∀ c : List ℝ, c.length = 4 → ∀ x, x.length = 2 → (Expansion.mk [P, P] [[0, 0], [0, 1], [1, 0], [1, 1]] none).polyfit c [x] =
      .ok [expansion [P, P] [[0, 0], [0, 1], [1, 0], [1, 1]] c x] := by
    intro c hc x hx
    rw [polyfit_eq _ hB c (by simpa using hc) [x] (by simpa [Expansion.dims] using hx), eff_plain _ (.inr rfl)]
    rfl
  have hvar : ∀ (c : List ℝ) (v : ℝ), c.length = 4 → variance c = .ok v →
      lawVar [EQ.ParamSpec.betaE 1 1 (-1) 1, EQ.ParamSpec.betaE 1 1 (-1) 1] (expansion [P, P] [[0, 0], [0, 1], [1, 0], [1, 1]] c) = v := by
    intro c v hc h5
    have := (c32_mean_variance_partial _ hB (.inr rfl) (by simp [Expansion.dims]) (by simp) _ hlaw c (by simpa using hc) (by omega) _ (hf c hc)).2
    rw [h5] at this
    exact (Except.ok.inj this).symm
  refine ⟨P, _, _, _, hB, by simp, by simp [Expansion.dims], hlaw, hf _ (by simp), hvar _ _ (by simp) (by norm_num [variance]), ?_,
    hf _ (by simp), hvar _ _ (by simp) (by norm_num [variance]), ?_⟩
  · refine ⟨3, fun j x => [3, 1, 2].getD j 0 * basisFun [P, P] ([[0, 0], [0, 1], [1, 0]].getD j []) x,
      fun j => (nonzero ([[0, 0], [0, 1], [1, 0]].getD j [])).toFinset, fun j => ⟨?_, fun i hi hiS => ?_⟩, fun x _ => ?_⟩
    · match j with
      | 0 => decide
      | 1 => decide
      | 2 => decide
      | j + 3 => simp [nonzero]
    · intro x _ t
      simp only
      rw [basisFun_set]
      by_contra hne
      have hi2 : i < 2 := hi
      by_cases hj : j < 3
      · refine hiS (List.mem_toFinset.2 (mem_nonzero.2 ⟨?_, hne⟩))
        interval_cases j <;> simpa using hi2
      · have e : [[0, 0], [0, 1], [1, 0]].getD j ([] : List ℕ) = [] := List.getD_eq_default _ _ (by simpa using hj)
        rw [e] at hne
        simp at hne
    · rw [sum_expansion _ _ _ (by simp)]
      simp [Finset.sum_range_succ]
  · intro h
    have := coeff_zero _ _ hlaw _ (by simp) hB.rows [3, 1, 2, 4] (by simp) 1 h 3 (by simp) (by simp [nonzero]; decide)
    simp at this

end EQ.Stats
