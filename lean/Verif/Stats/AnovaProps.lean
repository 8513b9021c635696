import Verif.Stats.Props

/-!
# Sobol' indices as shares of the variances of conditional means: C162
-/

namespace EQ.Stats
open EQ.Param EQ.Poly EQ.Poly.Spec EQ.Sampling EQ.Sampling.Spec EQ.Stats.Spec EQ.Basis
open scoped Polynomial

/-! ## Specification -/

/-- The conditional mean of a function of independent inputs given those with `keep`: the others are integrated out. -/
def condMean : List ((ℝ → ℝ) → ℝ) → (ℕ → Bool) → (List ℝ → ℝ) → List ℝ → ℝ
  | [], _, f, _ => f []
  | E :: Es, keep, f, x =>
    if keep 0 then condMean Es (fun k => keep (k + 1)) (fun ys => f (x.headD 0 :: ys)) x.tail
    else E fun y => condMean Es (fun k => keep (k + 1)) (fun ys => f (y :: ys)) x.tail

/-! ## Proofs -/

theorem law_lin {P : MParam} {E : (ℝ → ℝ) → ℝ} (h : Law P E) {ι : Type} (s : Finset ι) (b : ι → ℝ) (n : ι → ℕ) :
    E (fun y => ∑ i ∈ s, b i * univ P (n i) y) = ∑ i ∈ s, if n i = 0 then b i else 0 := by
  obtain ⟨L, hL⟩ := h.linear
  have hu : ∀ k, L (opoly P.ab k) = if k = 0 then 1 else 0 := by
    intro k
    rw [← hL, ← h.orth k 0]
    congr 1
    funext y
    rw [univ_eq, univ_eq]
    simp [opoly]
  have : (fun y => ∑ i ∈ s, b i * univ P (n i) y) = fun y => (∑ i ∈ s, b i • opoly P.ab (n i)).eval y := by
    funext y
    rw [Polynomial.eval_finsetSum]
    apply Finset.sum_congr rfl
    intro i _
    rw [Polynomial.eval_smul, univ_eq, smul_eq_mul]
  rw [this, hL, map_sum]
  apply Finset.sum_congr rfl
  intro i _
  rw [map_smul, hu, smul_eq_mul]
  split_ifs <;> simp

theorem condMean_congr {Es : List ((ℝ → ℝ) → ℝ)} {keep : ℕ → Bool} {f g : List ℝ → ℝ} (h : ∀ x, x.length = Es.length → f x = g x) (x : List ℝ) :
    condMean Es keep f x = condMean Es keep g x := by
  induction Es generalizing keep f g x with
  | nil => exact h [] rfl
  | cons E Es ih =>
    rw [condMean, condMean]
    split_ifs
    · exact ih (fun y hy => h _ (by simp [hy])) _
    · congr 1
      funext y
      exact ih (fun z hz => h _ (by simp [hz])) _

open Classical in
theorem condMean_lin {params : List MParam} {Es : List ((ℝ → ℝ) → ℝ)} (hlaw : List.Forall₂ Law params Es) {ι : Type} (s : Finset ι) (a : ι → ℝ)
    (r : ι → List ℕ) (hr : ∀ i ∈ s, (r i).length = params.length) (keep : ℕ → Bool) (x : List ℝ) (hx : x.length = params.length) :
    condMean Es keep (fun y => ∑ i ∈ s, a i * basisFun params (r i) y) x =
      ∑ i ∈ s, (if ∀ k, (r i).getD k 0 ≠ 0 → keep k = true then a i else 0) * basisFun params (r i) x := by
  induction hlaw generalizing a r keep x with
  | nil =>
    rw [condMean]
    apply Finset.sum_congr rfl
    intro i hi
    have : r i = [] := List.length_eq_zero_iff.1 (hr i hi)
    rw [this]
    simp [basisFun]
  | @cons P E Ps Es hP hPs ih =>
    obtain ⟨x0, xs, rfl⟩ : ∃ x0 xs, x = x0 :: xs := by
      cases x with
      | nil => simp at hx
      | cons a b => exact ⟨a, b, rfl⟩
    have hrow : ∀ i ∈ s, r i = (r i).headD 0 :: (r i).tail := by
      intro i hi
      have := hr i hi
      cases h : r i with
      | nil => rw [h] at this; simp at this
      | cons n l => rfl
    have hb : ∀ i ∈ s, ∀ y ys, basisFun (P :: Ps) (r i) (y :: ys) = univ P ((r i).headD 0) y * basisFun Ps (r i).tail ys := by
      intro i hi y ys
      conv_lhs => rw [hrow i hi]
      rw [basisFun]
    have hlen : ∀ i ∈ s, (r i).tail.length = Ps.length := fun i hi => by rw [List.length_tail, hr i hi]; simp
    have hxs : xs.length = Ps.length := by simpa using hx
    have hin : ∀ y, condMean Es (fun k => keep (k + 1)) (fun ys => ∑ i ∈ s, a i * basisFun (P :: Ps) (r i) (y :: ys)) xs =
        ∑ i ∈ s, (if ∀ k, (r i).tail.getD k 0 ≠ 0 → keep (k + 1) = true then a i else 0) * basisFun Ps (r i).tail xs * univ P ((r i).headD 0) y := by
      intro y
      have := ih (fun i => a i * univ P ((r i).headD 0) y) (fun i => (r i).tail) hlen (fun k => keep (k + 1)) xs hxs
      rw [show (fun ys => ∑ i ∈ s, a i * basisFun (P :: Ps) (r i) (y :: ys)) =
        fun ys => ∑ i ∈ s, a i * univ P ((r i).headD 0) y * basisFun Ps (r i).tail ys from by
          funext ys
          apply Finset.sum_congr rfl
          intro i hi
          rw [hb i hi]; ring, this]
      apply Finset.sum_congr rfl
      intro i _
      split_ifs <;> ring
    have hsplit : ∀ i ∈ s, (∀ k, (r i).getD k 0 ≠ 0 → keep k = true) ↔
        ((r i).headD 0 ≠ 0 → keep 0 = true) ∧ ∀ k, (r i).tail.getD k 0 ≠ 0 → keep (k + 1) = true := by
      intro i hi
      rw [hrow i hi]
      constructor
      · intro h
        exact ⟨fun h0 => h 0 (by simpa using h0), fun k hk => h (k + 1) (by simpa using hk)⟩
      · rintro ⟨h0, h1⟩ k hk
        cases k with
        | zero => exact h0 (by simpa using hk)
        | succ k => exact h1 k (by simpa using hk)
    rw [condMean]
    by_cases hk : keep 0 = true
    · rw [if_pos hk]
      change condMean Es (fun k => keep (k + 1)) (fun ys => ∑ i ∈ s, a i * basisFun (P :: Ps) (r i) (x0 :: ys)) xs = _
      rw [hin]
      apply Finset.sum_congr rfl
      intro i hi
      rw [hb i hi]
      simp only [hsplit i hi, hk, implies_true, true_and]
      ring
    · rw [if_neg hk]
      change E (fun y => condMean Es (fun k => keep (k + 1)) (fun ys => ∑ i ∈ s, a i * basisFun (P :: Ps) (r i) (y :: ys)) xs) = _
      simp only [hin]
      rw [law_lin hP]
      apply Finset.sum_congr rfl
      intro i hi
      rw [hb i hi]
      simp only [hsplit i hi, hk]
      by_cases h0 : (r i).headD 0 = 0
      · rw [if_pos h0, h0]
        simp only [ne_eq, not_true_eq_false, false_imp_iff, true_and]
        rw [univ_eq]
        simp [opoly]
      · rw [if_neg h0, if_neg, zero_mul]
        rintro ⟨h, -⟩
        exact absurd (h h0) (by simp)

section
variable (B : Expansion) (hB : Regular B) (hR : B.dims = 1 ∨ B.invR = none) (hz : B.elements.head? = some (List.replicate B.dims 0))
  (hnd : B.elements.Nodup) (Es : List ((ℝ → ℝ) → ℝ)) (hlaw : List.Forall₂ Law B.params Es) (c : List ℝ) (hc : c.length = B.elements.length)
  (f : List ℝ → ℝ) (hf : ∀ x, x.length = B.dims → B.polyfit c [x] = .ok [f x])
include hB hR hz hnd hlaw hc hf

omit hR hc hf in
theorem lawVar_sum (g : ℕ → ℝ) (h : List ℝ → ℝ)
    (hh : ∀ x, x.length = B.dims → h x = ∑ i ∈ Finset.range B.elements.length, g i * basisFun B.params (B.elements.getD i []) x) :
    lawVar Es h = ∑ i ∈ Finset.range B.elements.length, if i = 0 then 0 else g i ^ 2 := by
  have hl : B.params.length = Es.length := (forall₂_law_length hlaw).symm
  have hpos : 0 < B.elements.length := List.length_pos_iff.2 hB.ne
  have hm : prodE Es h = g 0 := by
    rw [prodE_congr Es _ _ fun x hx => hh x (by unfold Expansion.dims; omega)]
    exact (expansion_moments B.params Es hlaw B.elements hB.ne hB.rows hnd hz g g).1
  have hg := (expansion_moments B.params Es hlaw B.elements hB.ne hB.rows hnd hz
    (fun i => if i = 0 then 0 else g i) (fun i => if i = 0 then 0 else g i)).2
  rw [lawVar, hm]
  rw [prodE_congr Es _ _ (fun x hx => ?_), hg]
  · apply Finset.sum_congr rfl
    intro i _
    split_ifs <;> ring
  · have hxd : x.length = B.dims := by unfold Expansion.dims; omega
    rw [hh x hxd, sq]
    have : (∑ i ∈ Finset.range B.elements.length, g i * basisFun B.params (B.elements.getD i []) x) - g 0 =
        ∑ i ∈ Finset.range B.elements.length, (if i = 0 then 0 else g i) * basisFun B.params (B.elements.getD i []) x := by
      obtain ⟨n, hn⟩ : ∃ n, B.elements.length = n + 1 := ⟨B.elements.length - 1, by omega⟩
      rw [hn, Finset.sum_range_succ', Finset.sum_range_succ', getD_zero_of_head hz, Expansion.dims, basisFun_zero B.params x hxd]
      simp
    rw [this]

omit hz hnd in
open Classical in
theorem condMean_fit (keep : ℕ → Bool) (x : List ℝ) (hx : x.length = B.dims) :
    condMean Es keep f x = ∑ i ∈ Finset.range B.elements.length,
      (if ∀ k, (B.elements.getD i []).getD k 0 ≠ 0 → keep k = true then c.getD i 0 else 0) * basisFun B.params (B.elements.getD i []) x := by
  have hl : B.params.length = Es.length := (forall₂_law_length hlaw).symm
  rw [condMean_congr (g := fun y => ∑ i ∈ Finset.range B.elements.length, c.getD i 0 * basisFun B.params (B.elements.getD i []) y) (fun y hy => ?_)]
  · exact condMean_lin hlaw _ _ _ (fun i hi => row_len _ _ hB.rows i (Finset.mem_range.1 hi)) keep x hx
  · rw [polyfit_single B hB hR c hc f hf y (by unfold Expansion.dims; omega), sum_expansion _ _ _ hc]

open Classical in
theorem condMean_var (keep : ℕ → Bool) : lawVar Es (condMean Es keep f) = ∑ i ∈ Finset.range B.elements.length,
    if i ≠ 0 ∧ ∀ k, (B.elements.getD i []).getD k 0 ≠ 0 → keep k = true then c.getD i 0 ^ 2 else 0 := by
  rw [lawVar_sum B hB hz hnd Es hlaw _ _ (condMean_fit B hB hR Es hlaw c hc f hf keep)]
  apply Finset.sum_congr rfl
  intro i _
  by_cases h0 : i = 0
  · rw [if_pos h0, if_neg fun h => h.1 h0]
  · by_cases h1 : ∀ k, (B.elements.getD i []).getD k 0 ≠ 0 → keep k = true
    · rw [if_neg h0, if_pos h1, if_pos ⟨h0, h1⟩]
    · rw [if_neg h0, if_neg h1, if_neg fun h => h1 h.2, sq, zero_mul]

open Classical in
theorem condMean_rest (keep : ℕ → Bool) : prodE Es (fun x => (f x - condMean Es keep f x) ^ 2) = ∑ i ∈ Finset.range B.elements.length,
    if ∀ k, (B.elements.getD i []).getD k 0 ≠ 0 → keep k = true then 0 else c.getD i 0 ^ 2 := by
  have hl : B.params.length = Es.length := (forall₂_law_length hlaw).symm
  have hg := (expansion_moments B.params Es hlaw B.elements hB.ne hB.rows hnd hz
    (fun i => if ∀ k, (B.elements.getD i []).getD k 0 ≠ 0 → keep k = true then 0 else c.getD i 0)
    (fun i => if ∀ k, (B.elements.getD i []).getD k 0 ≠ 0 → keep k = true then 0 else c.getD i 0)).2
  rw [prodE_congr Es _ _ (fun x hx => ?_), hg]
  · apply Finset.sum_congr rfl
    intro i _
    split_ifs <;> ring
  · have hxd : x.length = B.dims := by unfold Expansion.dims; omega
    rw [condMean_fit B hB hR Es hlaw c hc f hf keep x hxd, polyfit_single B hB hR c hc f hf x hxd, sum_expansion _ _ _ hc, sq,
      ← Finset.sum_sub_distrib]
    have : ∀ i ∈ Finset.range B.elements.length, c.getD i 0 * basisFun B.params (B.elements.getD i []) x -
        (if ∀ k, (B.elements.getD i []).getD k 0 ≠ 0 → keep k = true then c.getD i 0 else 0) * basisFun B.params (B.elements.getD i []) x =
        (if ∀ k, (B.elements.getD i []).getD k 0 ≠ 0 → keep k = true then 0 else c.getD i 0) * basisFun B.params (B.elements.getD i []) x := by
      intro i _
      split_ifs <;> ring
    rw [Finset.sum_congr rfl this]

end

theorem getSobol_combos (d : ℕ) (D : Dict) (o : ℕ) (h1 : 1 ≤ o) (h2 : o ≤ d) :
    getSobol (.many ((List.range' 1 d).flatMap (combos d)) D) o = .ok ((combos d o).map fun k => (k, D k)) := by
  have hfil : ((List.range' 1 d).flatMap (combos d)).filter (fun k => k.length = o) = combos d o := by
    rw [List.filter_flatMap]
    have e : ∀ a, (combos d a).filter (fun k => k.length = o) = if a = o then combos d o else [] := by
      intro a
      by_cases h : a = o
      · subst h
        rw [if_pos rfl, List.filter_eq_self]
        intro S hS
        simpa using (mem_combos.1 hS).2
      · rw [if_neg h, List.filter_eq_nil_iff]
        intro S hS
        rw [(mem_combos.1 hS).2]
        simpa using h
    simp only [e]
    have : ∀ l : List ℕ, l.Nodup → l.flatMap (fun a => if a = o then combos d o else []) = if o ∈ l then combos d o else [] := by
      intro l hl
      induction l with
      | nil => rfl
      | cons a l ih =>
        rw [List.nodup_cons] at hl
        rw [List.flatMap_cons, ih hl.2]
        by_cases h : a = o
        · subst h; simp [hl.1]
        · simp [h, Ne.symm h]
    rw [this _ List.nodup_range', if_pos (by rw [List.mem_range'_1]; omega)]
  simp only [getSobol, hfil]

/-! ## Properties -/

/-- **C162.** For an expansion in two or more independent inputs whose laws make the univariate polynomials orthonormal, with the constant first, and a
fit of non-zero variance. For every set of inputs: the indices of its subsets, summed over all orders, are the variance of the conditional mean of the
fit given those inputs, divided by the variance of the fit. -/
theorem c162_closed (B : Expansion) (hB : Regular B) (hR : B.invR = none) (hd : 2 ≤ B.dims) (hz : B.elements.head? = some (List.replicate B.dims 0))
    (hnd : B.elements.Nodup) (Es : List ((ℝ → ℝ) → ℝ)) (hlaw : List.Forall₂ Law B.params Es) (c : List ℝ) (hc : c.length = B.elements.length)
    (h2 : 2 ≤ c.length) (f : List ℝ → ℝ) (hf : ∀ x, x.length = B.dims → B.polyfit c [x] = .ok [f x]) (_hv : lawVar Es f ≠ 0) :
    ∃ s, allSobol c B.elements B.dims none = .ok s ∧ ∃ L : ℕ → List (List ℕ × ℝ), (∀ o, getSobol s o = .ok (L o)) ∧
      ∀ keep : ℕ → Bool, ∑ o ∈ Finset.Icc 1 B.dims, (((L o).filter fun t => t.1.all keep).map Prod.snd).sum =
        lawVar Es (condMean Es keep f) / lawVar Es f := by
  classical
  obtain ⟨D, hD, hval⟩ := allSobol_ok c B.elements B.dims none hd h2
  have ho : sobolOrder none B.dims = B.dims := rfl
  rw [ho] at hD hval
  have hvar : lawVar Es f = varSum c := by
    have := (c32_mean_variance_partial B hB (.inr hR) hz hnd Es hlaw c hc h2 f hf).2
    rw [variance_ok c h2] at this
    exact (Except.ok.inj this).symm
  refine ⟨_, hD, _, fun o => rfl, fun keep => ?_⟩
  rw [condMean_var B hB (.inr hR) hz hnd Es hlaw c hc f hf keep, hvar, Finset.sum_div]
  have hs := sum_share' B.elements c B.dims B.dims hc hB.rows (fun S => S.all keep = true)
  have e2 : (List.range' 1 B.dims).toFinset = Finset.Icc 1 B.dims := by
    ext o
    simp only [Finset.mem_Icc, List.mem_toFinset, List.mem_range'_1]
    omega
  rw [← List.sum_toFinset _ List.nodup_range', e2] at hs
  refine Eq.trans ?_ (hs.trans ?_)
  · apply Finset.sum_congr rfl
    intro o ho'
    rw [Finset.mem_Icc] at ho'
    have hg := getSobol_combos B.dims D o ho'.1 ho'.2
    simp only [getSobol, Except.ok.injEq] at hg
    rw [hg, List.filter_map, List.map_map]
    rw [show ((combos B.dims o).map fun S => if S.all keep = true then share B.elements c (varSum c) S else 0) =
      (combos B.dims o).map fun S => if S.all keep = true then D S else 0 from List.map_congr_left fun S hS => by
        rw [mem_combos] at hS
        rw [hval S hS.1 (by omega) (by omega)]]
    generalize combos B.dims o = l
    induction l with
    | nil => rfl
    | cons S l ih =>
      by_cases h : S.all keep = true
      · simp only [List.filter_cons, Function.comp, h, if_true, List.map_cons, List.sum_cons]
        rw [← ih]
      · simp only [List.filter_cons, Function.comp, h, Bool.false_eq_true, if_false, List.map_cons, List.sum_cons, zero_add]
        rw [← ih]
  · apply Finset.sum_congr rfl
    intro i hi
    rw [Finset.mem_range] at hi
    have h1 := row_nonzero hB.rows hz hnd i hi
    have h3 := nonzero_length_le hB.rows i hi
    have h4 : (nonzero (B.elements.getD i [])).all keep = true ↔ ∀ k, (B.elements.getD i []).getD k 0 ≠ 0 → keep k = true := by
      rw [List.all_eq_true]
      constructor
      · intro h k hk
        refine h k (mem_nonzero.2 ⟨?_, hk⟩)
        by_contra hn
        exact hk (by rw [List.getD_eq_default _ _ (by omega)])
      · intro h k hk
        exact h k (mem_nonzero.1 hk).2
    by_cases ha : 1 ≤ (nonzero (B.elements.getD i [])).length ∧ (nonzero (B.elements.getD i [])).all keep = true
    · rw [if_pos ⟨ha.1, h3, ha.2⟩, if_pos ⟨h1.1 ha.1, h4.1 ha.2⟩]
    · rw [if_neg fun h => ha ⟨h.1, h.2.2⟩, if_neg fun h => ha ⟨h1.2 h.1, h4.2 h.2⟩, zero_div]

/-- **C162.** Under the same hypotheses the first-order index of an input is the variance of the conditional mean given that input, divided by the variance
of the fit. -/
theorem c162_first (B : Expansion) (hB : Regular B) (hR : B.invR = none) (hd : 2 ≤ B.dims) (hz : B.elements.head? = some (List.replicate B.dims 0))
    (hnd : B.elements.Nodup) (Es : List ((ℝ → ℝ) → ℝ)) (hlaw : List.Forall₂ Law B.params Es) (c : List ℝ) (hc : c.length = B.elements.length)
    (h2 : 2 ≤ c.length) (f : List ℝ → ℝ) (hf : ∀ x, x.length = B.dims → B.polyfit c [x] = .ok [f x]) (_hv : lawVar Es f ≠ 0) :
    ∃ s L, allSobol c B.elements B.dims none = .ok s ∧ getSobol s 1 = .ok L ∧
      ∀ i < B.dims, ([i], lawVar Es (condMean Es (fun k => k == i) f) / lawVar Es f) ∈ L := by
  classical
  obtain ⟨D, hD, hval⟩ := allSobol_ok c B.elements B.dims none hd h2
  have ho : sobolOrder none B.dims = B.dims := rfl
  rw [ho] at hD hval
  have hvar : lawVar Es f = varSum c := by
    have := (c32_mean_variance_partial B hB (.inr hR) hz hnd Es hlaw c hc h2 f hf).2
    rw [variance_ok c h2] at this
    exact (Except.ok.inj this).symm
  refine ⟨_, _, hD, getSobol_combos B.dims D 1 le_rfl (by omega), fun i hi => ?_⟩
  have hsub : [i].Sublist (List.range B.dims) := List.singleton_sublist.2 (List.mem_range.2 hi)
  rw [List.mem_map]
  refine ⟨[i], mem_combos.2 ⟨hsub, rfl⟩, ?_⟩
  rw [Prod.mk.injEq]
  refine ⟨rfl, ?_⟩
  rw [hval [i] hsub (by simp) (by simp; omega), condMean_var B hB (.inr hR) hz hnd Es hlaw c hc f hf, hvar, Finset.sum_div]
  unfold share
  rw [zip_sum B.elements c hc fun row a => if nonzero row = [i] then a ^ 2 / varSum c else 0]
  apply Finset.sum_congr rfl
  intro j hj
  rw [Finset.mem_range] at hj
  have h1 := row_nonzero hB.rows hz hnd j hj
  have hiff : nonzero (B.elements.getD j []) = [i] ↔ j ≠ 0 ∧ ∀ k, (B.elements.getD j []).getD k 0 ≠ 0 → (k == i) = true := by
    rw [← h1]
    constructor
    · intro h
      refine ⟨by rw [h]; simp, fun k hk => ?_⟩
      have hkl : k < (B.elements.getD j []).length := by
        by_contra hn
        exact hk (by rw [List.getD_eq_default _ _ (by omega)])
      have := mem_nonzero.2 ⟨hkl, hk⟩
      rw [h] at this
      simpa using this
    · rintro ⟨hl, hk⟩
      rw [nonzero_eq_iff (row_len _ _ hB.rows j hj) hsub]
      obtain ⟨k, hkm⟩ := List.exists_mem_of_length_pos (l := nonzero (B.elements.getD j [])) (by omega)
      have hk' := (mem_nonzero.1 hkm).2
      have hki : k = i := by simpa using hk k hk'
      subst hki
      intro m hm
      constructor
      · intro h
        rw [List.mem_singleton.1 h]; exact hk'
      · intro h
        simpa using hk m h
  by_cases h : nonzero (B.elements.getD j []) = [i]
  · rw [if_pos h, if_pos (hiff.1 h)]
  · rw [if_neg h, if_neg fun h' => h (hiff.2 h'), zero_div]

/-- **C162.** Under the same hypotheses the total index of an input is the mean variance left when all other inputs are known, divided by the variance of
the fit; which is one minus the share of the conditional mean given all other inputs. -/
theorem c162_total (B : Expansion) (hB : Regular B) (hR : B.invR = none) (hd : 2 ≤ B.dims) (hz : B.elements.head? = some (List.replicate B.dims 0))
    (hnd : B.elements.Nodup) (Es : List ((ℝ → ℝ) → ℝ)) (hlaw : List.Forall₂ Law B.params Es) (c : List ℝ) (hc : c.length = B.elements.length)
    (h2 : 2 ≤ c.length) (f : List ℝ → ℝ) (hf : ∀ x, x.length = B.dims → B.polyfit c [x] = .ok [f x]) (hv : lawVar Es f ≠ 0) :
    ∃ s T, allSobol c B.elements B.dims none = .ok s ∧ getSobolTotal s B.dims = .ok T ∧ T.length = B.dims ∧ ∀ i < B.dims,
      T.getD i 0 = prodE Es (fun x => (f x - condMean Es (fun k => k != i) f x) ^ 2) / lawVar Es f ∧
      T.getD i 0 = 1 - lawVar Es (condMean Es (fun k => k != i) f) / lawVar Es f := by
  classical
  have hvar := (c32_mean_variance_partial B hB (.inr hR) hz hnd Es hlaw c hc h2 f hf).2
  obtain ⟨s, T, hs, hT, hl, L, -, hi⟩ := c38_total c B.elements B.dims hd h2 hc hB.rows hz (lawVar Es f) hvar hv
  refine ⟨s, T, hs, hT, hl, fun i hid => ?_⟩
  have hpos : 0 < B.elements.length := List.length_pos_iff.2 hB.ne
  have hcond : ∀ j, (∀ k, (B.elements.getD j []).getD k 0 ≠ 0 → (k != i) = true) ↔ (B.elements.getD j []).getD i 0 = 0 := by
    intro j
    constructor
    · intro h
      by_contra hn
      simpa using h i hn
    · intro h k hk
      simp only [bne_iff_ne, ne_eq]
      rintro rfl
      exact hk h
  have e1 := (hi i hid).2.1
  have e2 := condMean_rest B hB (.inr hR) hz hnd Es hlaw c hc f hf (fun k => k != i)
  have e3 := condMean_var B hB (.inr hR) hz hnd Es hlaw c hc f hf (fun k => k != i)
  have e4 : lawVar Es f = ∑ i ∈ Finset.range B.elements.length, if i = 0 then 0 else c.getD i 0 ^ 2 := by
    refine lawVar_sum B hB hz hnd Es hlaw _ _ fun x hx => ?_
    rw [polyfit_single B hB (.inr hR) c hc f hf x hx, sum_expansion _ _ _ hc]
  simp only [hcond] at e2 e3
  have hfirst : T.getD i 0 = prodE Es (fun x => (f x - condMean Es (fun k => k != i) f x) ^ 2) / lawVar Es f := by
    rw [e1, e2, Finset.sum_div]
    apply Finset.sum_congr rfl
    intro j _
    generalize (B.elements.getD j []).getD i 0 = m
    by_cases h : m = 0 <;> simp [h]
  refine ⟨hfirst, ?_⟩
  rw [hfirst, eq_sub_iff_add_eq, ← add_div, div_eq_one_iff_eq hv, e2, e3, e4, ← Finset.sum_add_distrib]
  apply Finset.sum_congr rfl
  intro j hj
  by_cases h0 : j = 0
  · subst h0
    have : (B.elements.getD 0 []).getD i 0 = 0 := by rw [getD_zero_of_head hz]; simp
    rw [if_pos this, if_neg (by simp), if_pos rfl, add_zero]
  · generalize (B.elements.getD j []).getD i 0 = m
    by_cases h : m = 0 <;> simp [h, h0]

/-- Two uniform inputs and a linear model meet the hypotheses of C162. -/
example : ∃ (P : MParam) (E : (ℝ → ℝ) → ℝ) (f : List ℝ → ℝ),
    let B : Expansion := ⟨[P, P], [[0, 0], [0, 1], [1, 0]], none⟩
    Regular B ∧ B.elements.Nodup ∧ B.elements.head? = some (List.replicate B.dims 0) ∧ List.Forall₂ Law B.params [E, E] ∧
    (∀ x, x.length = B.dims → B.polyfit [3, 1, 2] [x] = .ok [f x]) ∧ lawVar [E, E] f = 5 := by
  obtain ⟨P, -, hab, -⟩ := exists_valid (jtab (1 - 1) (1 - 1) (-1) 1)
    (by norm_num [jtab, jacobiRow]) (fun k hk => beta_tab_pos one_pos one_pos (by norm_num) k hk)
    none none 0
  have hl := law_beta 1 1 (-1) 1 one_pos one_pos (by norm_num) P hab
  have hB : Regular ⟨[P, P], [[0, 0], [0, 1], [1, 0]], none⟩ := ⟨by simp, by simp [Expansion.dims], by simp [Expansion.dims], by simp [SquareOpt]⟩
  have hlaw : List.Forall₂ Law (Expansion.mk [P, P] [[0, 0], [0, 1], [1, 0]] none).params [EQ.ParamSpec.betaE 1 1 (-1) 1, EQ.ParamSpec.betaE 1 1 (-1) 1] :=
    .cons hl (.cons hl .nil)
  have hf : ∀ x, x.length = 2 → (Expansion.mk [P, P] [[0, 0], [0, 1], [1, 0]] none).polyfit [3, 1, 2] [x] =
      .ok [expansion [P, P] [[0, 0], [0, 1], [1, 0]] [3, 1, 2] x] := by
    intro x hx
    rw [polyfit_eq _ hB [3, 1, 2] (by simp) [x] (by simpa [Expansion.dims] using hx), eff_plain _ (.inr rfl)]
    rfl
  refine ⟨P, _, _, hB, by simp, by simp [Expansion.dims], hlaw, hf, ?_⟩
  have := (c32_mean_variance_partial _ hB (.inr rfl) (by simp [Expansion.dims]) (by simp) _ hlaw [3, 1, 2] (by simp) (by simp) _ hf).2
  have h5 : variance [3, 1, 2] = .ok 5 := by norm_num [variance]
  rw [h5] at this
  exact (Except.ok.inj this).symm

end EQ.Stats
