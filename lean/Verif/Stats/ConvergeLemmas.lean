import Verif.Stats.IndexLemmas

/-!
# Mean squared error of fits on tensor grids

Lemmas for C178 and C179.
-/

namespace EQ.Stats
open EQ.Param EQ.ParamSpec EQ.Basis EQ.Sampling EQ.Sampling.Spec EQ.Poly EQ.Poly.Spec EQ.Stats.Spec Set
open scoped Polynomial

/-- What is used of one input. -/
structure Input (P : MParam) (E : (ℝ → ℝ) → ℝ) (l u : ℝ) : Prop where
  valid : Valid P
  law : Law P E
  mean : MeanOn E (Icc l u)
  pts : ∀ n ≠ 0, ∀ t ∈ (P.localRule n).pts, t ∈ Icc l u

theorem beta_mean {A B l u : ℝ} (hA : 0 < A) (hB : 0 < B) (hlu : l < u) : MeanOn (betaE A B l u) (Icc l u) := by
  have hI := betaWeight_integrable hA hB hlu
  have hm := betaWeight_mass_pos hA hB hlu
  have hc : ∀ f, ContinuousOn f (Icc l u) → IntervalIntegrable (fun x => f x * betaWeight A B l u x) MeasureTheory.volume l u := by
    intro f hf
    rw [← uIcc_of_le hlu.le] at hf
    exact hI.continuousOn_mul hf
  refine ⟨fun f g h => ?_, fun f g hf hg => ?_, fun a f hf => ?_, fun f hf h => ?_, ?_⟩
  · unfold betaE
    rw [intervalIntegral.integral_congr (g := fun x => g x * betaWeight A B l u x)]
    intro x hx
    rw [uIcc_of_le hlu.le] at hx
    simp only
    rw [h x hx]
  · unfold betaE
    rw [← add_div, ← intervalIntegral.integral_add (hc f hf) (hc g hg)]
    congr 1
    apply intervalIntegral.integral_congr
    intro x _
    simp only
    ring
  · unfold betaE
    rw [← mul_div_assoc, ← intervalIntegral.integral_const_mul]
    congr 1
    apply intervalIntegral.integral_congr
    intro x _
    simp only
    ring
  · refine div_nonneg (intervalIntegral.integral_nonneg hlu.le fun x hx => mul_nonneg (h x hx) ?_) hm.le
    exact mul_nonneg (Real.rpow_nonneg (by linarith [hx.1]) _) (Real.rpow_nonneg (by linarith [hx.2]) _)
  · unfold betaE
    simp only [one_mul]
    exact div_self hm.ne'

theorem beta_input {A B l u : ℝ} (hA : 0 < A) (hB : 0 < B) (hlu : l < u) {P : MParam} (hv : Valid P) (hab : P.ab = jtab (B - 1) (A - 1) l u) :
    Input P (betaE A B l u) l u := by
  refine ⟨hv, law_beta A B l u hA hB hlu P hab, beta_mean hA hB hlu, fun n hn t ht => ?_⟩
  unfold MParam.localRule at ht
  rw [if_neg hn] at ht
  simp only [List.mem_ofFn] at ht
  obtain ⟨k, rfl⟩ := ht
  have hE := hv.eigh n
  rw [(rule_eq P.ab n (fun k h1 _ => hv.pos k h1) _ _ hE _ (hv.sort n) k).1]
  rw [hab] at hE
  have hb := beta_tab_pos hA hB hlu
  have hL : ∀ i j, i ≤ n → j ≤ n + 1 → betaL hA hB hlu (opoly (jtab (B - 1) (A - 1) l u) i *
      opoly (jtab (B - 1) (A - 1) l u) j) = if i = j then 1 else 0 :=
    fun i j _ hj => beta_orth hA hB hlu (n + 1) i j (by omega) hj
  have s1 := node_sign _ n (fun k h1 _ => hb k h1) _ _ hE 1 one_pos (betaL hA hB hlu) hL
    (Polynomial.X - Polynomial.C l) (by simp) (beta_pos_lower hA hB hlu) k
  have s2 := node_sign _ n (fun k h1 _ => hb k h1) _ _ hE 1 one_pos (betaL hA hB hlu) hL
    (Polynomial.C u - Polynomial.X) ((Polynomial.natDegree_sub_le _ _).trans (by simp)) (beta_pos_upper hA hB hlu) k
  simp only [Polynomial.eval_sub, Polynomial.eval_X, Polynomial.eval_C, sub_pos] at s1 s2
  exact ⟨s1.le, s2.le⟩

variable {d : ℕ}

theorem law_ofFn {P : Fin d → MParam} {Es : Fin d → (ℝ → ℝ) → ℝ} (h : ∀ i, Law (P i) (Es i)) : List.Forall₂ Law (List.ofFn P) (List.ofFn Es) := by
  rw [List.forall₂_iff_get]
  refine ⟨by simp, fun i h1 h2 => ?_⟩
  simp only [List.get_eq_getElem, List.getElem_ofFn]
  exact h _

/-- The points of the grid are in the box. -/
theorem grid_inside {P : Fin d → MParam} {Es : Fin d → (ℝ → ℝ) → ℝ} {l u : Fin d → ℝ} (hI : ∀ i, Input (P i) (Es i) (l i) (u i)) (hd : d ≠ 0) (n : ℕ) (hn : n ≠ 0)
    (pts : List (List ℝ)) (wts : List ℝ) (h : tensorGrid (localRules (List.ofFn P) (List.replicate d n)) = .ok (pts, wts)) (x : List ℝ) (hx : x ∈ pts) :
    vec d x ∈ Icc l u := by
  have hlen : (localRules (List.ofFn P) (List.replicate d n)).length = d := by simp [localRules]
  have hne : localRules (List.ofFn P) (List.replicate d n) ≠ [] := by
    intro h0; rw [h0] at hlen; exact hd hlen.symm
  have key : ∀ i : Fin d, vec d x i ∈ Icc (l i) (u i) := by
    intro i
    obtain ⟨t, ht, hxt⟩ := grid_coord _ hne (localRules_len_eq _ _) pts wts h x hx i (by rw [hlen]; exact i.2)
    have e : (localRules (List.ofFn P) (List.replicate d n))[(i : ℕ)]'(by rw [hlen]; exact i.2) = (P i).localRule n := by
      simp [localRules]
    rw [e] at ht
    have := (hI i).pts n hn t ht
    unfold vec
    rw [List.getD_eq_getElem?_getD, hxt]
    exact this
  exact ⟨fun i => (key i).1, fun i => (key i).2⟩

/-- A basis function is continuous. -/
theorem continuous_basisFun (P : Fin d → MParam) (row : List ℕ) (hr : row.length = d) : Continuous fun v : Fin d → ℝ => basisFun (List.ofFn P) row (List.ofFn v) := by
  have e : List.ofFn (fun i : Fin d => row.getD i 0) = row := by
    apply List.ext_getElem (by simp [hr])
    intro i h1 h2
    rw [List.getElem_ofFn, getD_of_lt _ _ _ h2]
  have : (fun v : Fin d → ℝ => basisFun (List.ofFn P) row (List.ofFn v)) = fun v => ∏ i, Sampling.Spec.univ (P i) (row.getD i 0) (v i) := by
    funext v
    conv_lhs => rw [← e]
    rw [basisFun_ofFn]
  rw [this]
  apply continuous_finsetProd
  intro i _
  have h2 : (fun v : Fin d → ℝ => Sampling.Spec.univ (P i) (row.getD i 0) (v i)) = fun v => (opoly (P i).ab (row.getD i 0)).eval (v i) := by
    funext v
    rw [univ_eq]
  rw [h2]
  exact (Polynomial.continuous _).comp (continuous_apply i)

theorem continuous_expansion (P : Fin d → MParam) (els : List (List ℕ)) (hr : ∀ row ∈ els, row.length = d) (c : List ℝ) (hc : c.length = els.length) :
    Continuous fun v : Fin d → ℝ => expansion (List.ofFn P) els c (List.ofFn v) := by
  have : (fun v : Fin d → ℝ => expansion (List.ofFn P) els c (List.ofFn v)) = fun v =>
      ∑ s ∈ Finset.range els.length, c.getD s 0 * basisFun (List.ofFn P) (els.getD s []) (List.ofFn v) := by
    funext v
    rw [sum_expansion _ _ _ hc]
  rw [this]
  apply continuous_finsetSum
  intro s hs
  exact continuous_const.mul (continuous_basisFun P _ (row_len els d hr s (Finset.mem_range.1 hs)))

/-- A combination of basis functions of the index set as an expansion. -/
theorem sum_rows (P : Fin d → MParam) (els : List (List ℕ)) (hr : ∀ row ∈ els, row.length = d) (hnd : els.Nodup) (a : (Fin d → ℕ) →₀ ℝ)
    (ha : ∀ r ∈ a.support, List.ofFn r ∈ els) (v : Fin d → ℝ) :
    (a.sum fun r c => c * prodPoly P r v) =
      ∑ s ∈ Finset.range els.length, a (fun i => (els.getD s []).getD i 0) * basisFun (List.ofFn P) (els.getD s []) (List.ofFn v) := by
  classical
  let ρ : ℕ → Fin d → ℕ := fun s i => (els.getD s []).getD i 0
  have e : ∀ s < els.length, List.ofFn (ρ s) = els.getD s [] := by
    intro s hs
    have hl := row_len els d hr s hs
    apply List.ext_getElem (by rw [List.length_ofFn, hl])
    intro i h1 h2
    rw [List.getElem_ofFn]
    exact getD_of_lt _ _ _ h2
  have hinj : Set.InjOn ρ (Finset.range els.length : Set ℕ) := by
    intro s hs t ht hst
    simp only [Finset.coe_range, Set.mem_Iio] at hs ht
    rw [← nodup_getD hnd hs ht, ← e s hs, ← e t ht, hst]
  have hsub : a.support ⊆ (Finset.range els.length).image ρ := by
    intro r hrs
    obtain ⟨s, hs, hse⟩ := List.getElem_of_mem (ha r hrs)
    rw [Finset.mem_image]
    refine ⟨s, Finset.mem_range.2 hs, ?_⟩
    apply List.ofFn_injective
    rw [e s hs, getD_of_lt _ _ _ hs, hse]
  rw [Finsupp.sum, Finset.sum_subset hsub (fun r _ hr' => by rw [Finsupp.notMem_support_iff.1 hr', zero_mul]), Finset.sum_image hinj]
  apply Finset.sum_congr rfl
  intro s hs
  show a (ρ s) * prodPoly P (ρ s) v = a (ρ s) * basisFun (List.ofFn P) (els.getD s []) (List.ofFn v)
  rw [← e s (Finset.mem_range.1 hs), basisFun_ofFn]
  rfl

/-- The weights of the grid add up to one. -/
theorem wts_one (params : List MParam) (hne : params ≠ []) (hP : ∀ P ∈ params, Valid P) (orders : List ℕ) (ho : orders.length = params.length)
    (pts : List (List ℝ)) (wts : List ℝ) (h : tensorGrid (localRules params orders) = .ok (pts, wts)) : ∑ j ∈ Finset.range pts.length, wts.getD j 0 = 1 := by
  obtain ⟨p, w, h1, -, h3, -, h5, -⟩ := c21_parameters params hne hP orders ho
  rw [h] at h1
  obtain ⟨rfl, rfl⟩ := Prod.mk.inj (Except.ok.inj h1)
  rw [← h5, ← h3]
  conv_rhs => rw [← List.map_id wts, map_eq_range wts 0, range_map_sum]
  rfl

/-- The mean squared error of the fit on the grid is at most four times the square of the distance to the expansions of the index set. -/
theorem core (P : Fin d → MParam) (Es : Fin d → (ℝ → ℝ) → ℝ) (l u : Fin d → ℝ) (hI : ∀ i, Input (P i) (Es i) (l i) (u i)) (hd : d ≠ 0) (n : ℕ) (hn : n ≠ 0)
    (els : List (List ℕ)) (hB : Regular ⟨List.ofFn P, els, none⟩) (hnd : els.Nodup) (hz : els.head? = some (List.replicate d 0))
    (hbox : ∀ row ∈ els, List.Forall₂ (· ≤ ·) row (List.replicate d n)) (f : List ℝ → ℝ) (hf : ContinuousOn (fun v => f (List.ofFn v)) (Icc l u))
    (a : (Fin d → ℕ) →₀ ℝ) (ha : ∀ r ∈ a.support, List.ofFn r ∈ els) (ε : ℝ)
    (hε : ∀ v ∈ Icc l u, |f (List.ofFn v) - a.sum fun r c => c * prodPoly P r v| ≤ ε) :
    ∃ pts wts c, tensorGrid (localRules (List.ofFn P) (List.replicate d n)) = .ok (pts, wts) ∧ (∀ x ∈ pts, x.length = d) ∧ wts.length = pts.length ∧ (∀ w ∈ wts, 0 < w) ∧
      Expansion.integrate ⟨List.ofFn P, els, none⟩ pts wts (pts.map f) = .ok c ∧ c.length = els.length ∧
      mE Es (fun v => (f (List.ofFn v) - expansion (List.ofFn P) els c (List.ofFn v)) ^ 2) ≤ 4 * ε ^ 2 := by
  have hdl : (Expansion.mk (List.ofFn P) els none).dims = d := by simp [Expansion.dims]
  have hne : List.ofFn P ≠ [] := by
    intro h; have := congrArg List.length h; simp at this; exact hd this
  have hP : ∀ Q ∈ List.ofFn P, Valid Q := by
    intro Q hQ
    obtain ⟨i, rfl⟩ := List.mem_ofFn.1 hQ
    exact (hI i).valid
  have hr : ∀ row ∈ els, row.length = d := fun row h => (hB.rows row h).trans hdl
  obtain ⟨pts, wts, h1, -, h3, h4, h5, horth, hfit⟩ := grid_fit ⟨List.ofFn P, els, none⟩ hB rfl hne hP (List.replicate d n) (by simp [Expansion.dims]) hbox hnd
  rw [hdl] at h5
  obtain ⟨c, hc, hcl, hcr⟩ := hfit (pts.map f) (by simp)
  simp only at h1 horth hcl hcr
  refine ⟨pts, wts, c, h1, h5, h3, h4, hc, hcl, ?_⟩
  have hε0 : 0 ≤ ε ^ 2 := sq_nonneg _
  let φ : ℕ → List ℝ → ℝ := fun s x => basisFun (List.ofFn P) (els.getD s []) x
  let α : ℕ → ℝ := fun s => a (fun i => (els.getD s []).getD i 0)
  let S : List ℝ → ℝ := fun x => ∑ s ∈ Finset.range els.length, α s * φ s x
  have hS : ∀ v, (a.sum fun r c => c * prodPoly P r v) = S (List.ofFn v) := fun v => sum_rows P els hr hnd a ha v
  -- the error at the points of the grid
  let e : ℕ → ℝ := fun j => f (pts.getD j []) - S (pts.getD j [])
  have he : ∀ j < pts.length, e j ^ 2 ≤ ε ^ 2 := by
    intro j hj
    have hm : pts.getD j [] ∈ pts := by rw [getD_of_lt _ _ _ hj]; exact List.getElem_mem _
    have hin := grid_inside hI hd n hn pts wts h1 _ hm
    have := hε _ hin
    rw [hS, ofFn_vec _ (h5 _ hm)] at this
    exact sq_le_sq' (by linarith [(abs_le.1 this).1]) (abs_le.1 this).2
  have hk : ∀ s < els.length, c.getD s 0 - α s = ∑ j ∈ Finset.range pts.length, wts.getD j 0 * (φ s (pts.getD j []) * e j) := by
    intro s hs
    have e1 : ∑ j ∈ Finset.range pts.length, wts.getD j 0 * (φ s (pts.getD j []) * S (pts.getD j [])) = α s := by
      have : ∀ j ∈ Finset.range pts.length, wts.getD j 0 * (φ s (pts.getD j []) * S (pts.getD j [])) =
          ∑ t ∈ Finset.range els.length, α t * (wts.getD j 0 * (φ s (pts.getD j []) * φ t (pts.getD j []))) := by
        intro j _
        simp only [S]
        rw [Finset.mul_sum, Finset.mul_sum]
        exact Finset.sum_congr rfl fun t _ => by ring
      rw [Finset.sum_congr rfl this, Finset.sum_comm]
      simp only [← Finset.mul_sum]
      rw [Finset.sum_eq_single s]
      · rw [horth s hs s hs]; simp
      · intro t ht hts
        rw [horth s hs t (Finset.mem_range.1 ht), if_neg fun h => hts h.symm, mul_zero]
      · intro h; exact absurd (Finset.mem_range.2 hs) h
    conv_lhs => rw [← e1]
    rw [hcr s hs, ← Finset.sum_sub_distrib]
    apply Finset.sum_congr rfl
    intro j hj
    rw [getD_map_lt _ _ _ _ (Finset.mem_range.1 hj), ← getD_of_lt pts [] j (Finset.mem_range.1 hj)]
    simp only [e, φ]
    ring
  -- Bessel
  have hbes : ∑ s ∈ Finset.range els.length, (c.getD s 0 - α s) ^ 2 ≤ ε ^ 2 := by
    have p := pythagoras pts.length els.length (fun j => wts.getD j 0) e (fun s j => φ s (pts.getD j [])) horth (fun s => c.getD s 0 - α s)
      (fun s => c.getD s 0 - α s) hk
    have hw : ∀ j ∈ Finset.range pts.length, 0 ≤ wts.getD j 0 := by
      intro j hj
      rw [getD_of_lt _ _ _ (by rw [h3]; exact Finset.mem_range.1 hj)]
      exact (h4 _ (List.getElem_mem _)).le
    have h0 := Finset.sum_nonneg (s := Finset.range pts.length) (f := fun j => wts.getD j 0 * (∑ r ∈ Finset.range els.length, (c.getD r 0 - α r) * φ r (pts.getD j []) - e j) ^ 2)
      fun j hj => mul_nonneg (hw j hj) (sq_nonneg _)
    simp only [sub_self, ne_eq, OfNat.ofNat_ne_zero, not_false_eq_true, zero_pow, Finset.sum_const_zero, add_zero] at p
    have h6 : ∑ j ∈ Finset.range pts.length, wts.getD j 0 * e j ^ 2 ≤ ∑ j ∈ Finset.range pts.length, wts.getD j 0 * ε ^ 2 :=
      Finset.sum_le_sum fun j hj => mul_le_mul_of_nonneg_left (he j (Finset.mem_range.1 hj)) (hw j hj)
    rw [← Finset.sum_mul, wts_one _ hne hP _ (by simp) pts wts h1, one_mul] at h6
    rw [p] at h0
    linarith
  have hmean := mE_mean Es l u fun i => (hI i).mean
  -- the fit and the expansion
  have hG : Continuous fun v : Fin d → ℝ => expansion (List.ofFn P) els c (List.ofFn v) := continuous_expansion P els hr c hcl
  have hSc : Continuous fun v : Fin d → ℝ => S (List.ofFn v) := by
    apply continuous_finsetSum
    intro s hs
    exact continuous_const.mul (continuous_basisFun P _ (row_len els d hr s (Finset.mem_range.1 hs)))
  have hGS : mE Es (fun v => (expansion (List.ofFn P) els c (List.ofFn v) - S (List.ofFn v)) ^ 2) ≤ ε ^ 2 := by
    refine le_trans (le_of_eq ?_) hbes
    have := (expansion_moments (List.ofFn P) (List.ofFn Es) (law_ofFn fun i => (hI i).law) els hB.ne (by simpa using hr) hnd (by simpa using hz)
      (fun s => c.getD s 0 - α s) (fun s => c.getD s 0 - α s)).2
    rw [prodE_eq_mE] at this
    rw [Finset.sum_congr rfl fun s _ => sq (c.getD s 0 - α s), ← this]
    congr 1
    funext v
    rw [sum_expansion _ _ _ hcl, sq, ← Finset.sum_sub_distrib]
    simp only [φ, sub_mul]
  have hFS : mE Es (fun v => (f (List.ofFn v) - S (List.ofFn v)) ^ 2) ≤ ε ^ 2 := by
    have hcont : ContinuousOn (fun v : Fin d → ℝ => (f (List.ofFn v) - S (List.ofFn v)) ^ 2) (Icc l u) := (hf.sub hSc.continuousOn).pow 2
    have := hmean.mono (g := fun _ => ε ^ 2) hcont continuousOn_const fun v hv => by
      have := hε v hv
      rw [hS] at this
      exact sq_le_sq' (by linarith [(abs_le.1 this).1]) (abs_le.1 this).2
    rwa [hmean.const] at this
  have c1 : ContinuousOn (fun v : Fin d → ℝ => (f (List.ofFn v) - expansion (List.ofFn P) els c (List.ofFn v)) ^ 2) (Icc l u) := (hf.sub hG.continuousOn).pow 2
  have c2 : ContinuousOn (fun v : Fin d → ℝ => (f (List.ofFn v) - S (List.ofFn v)) ^ 2) (Icc l u) := (hf.sub hSc.continuousOn).pow 2
  have c3 : ContinuousOn (fun v : Fin d → ℝ => (expansion (List.ofFn P) els c (List.ofFn v) - S (List.ofFn v)) ^ 2) (Icc l u) := ((hG.sub hSc).pow 2).continuousOn
  have c4 : ContinuousOn (fun v : Fin d → ℝ => (f (List.ofFn v) - S (List.ofFn v)) ^ 2 + (expansion (List.ofFn P) els c (List.ofFn v) - S (List.ofFn v)) ^ 2) (Icc l u) := c2.add c3
  have hle := hmean.mono (g := fun v => 2 * ((f (List.ofFn v) - S (List.ofFn v)) ^ 2 + (expansion (List.ofFn P) els c (List.ofFn v) - S (List.ofFn v)) ^ 2)) c1
    (continuousOn_const.mul c4) fun v _ => by
      nlinarith [sq_nonneg ((f (List.ofFn v) - S (List.ofFn v)) + (expansion (List.ofFn P) els c (List.ofFn v) - S (List.ofFn v)))]
  rw [hmean.smul _ _ c4, hmean.add _ _ c2 c3] at hle
  linarith

end EQ.Stats
