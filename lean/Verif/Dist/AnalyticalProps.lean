import Verif.Param.SampledProps
import Verif.Corr.LawProps
import Mathlib.MeasureTheory.Integral.IntervalIntegral.Basic

/-!
# Distribution function, quantiles and samples of analytical parameters: C156
-/

namespace EQ.Dist
open EQ.Param EQ.ParamSpec MeasureTheory Polynomial

/-! ## Model -/

/-- The pairs handed to `stats.rv_discrete` (`analytical.py:53-56`, `analytical.py:122-125`): the points of the range and the values of the
density divided by their sum. -/
noncomputable def discreteLaw (x w : List ℝ) : List (ℝ × ℝ) := x.zip (w.map fun v => v / w.sum)

open Classical in
/-- `analytical.cdf` of scipy at one point (`analytical.py:57`): the sum of the probabilities of the points up to `t`. -/
noncomputable def analyticalCdf (x w : List ℝ) (t : ℝ) : ℝ := (((discreteLaw x w).filter fun q => q.1 ≤ t).map Prod.snd).sum

open Classical in
/-- The search of `ppf` in the running sums, from the running sum `acc` on; `last` is returned if none is large enough. -/
noncomputable def ppfFrom (u : ℝ) : ℝ → ℝ → List (ℝ × ℝ) → ℝ
  | _, last, [] => last
  | acc, last, q :: l => if u ≤ acc + q.2 then q.1 else ppfFrom u (acc + q.2) last l

/-- `analytical.ppf` of scipy at one value in `(0, 1)` (`analytical.py:126`): the first point whose running sum of probabilities is at least `u`; if
there is none, `argmax` gives the first point. -/
noncomputable def analyticalIcdf (x w : List ℝ) (u : ℝ) : ℝ := ppfFrom u 0 (x.headD 0) (discreteLaw x w)

/-! ## Proofs -/

theorem ppfFrom_integral (f : ℝ → ℝ) (last : ℝ) (l : List (ℝ × ℝ)) (h : ∀ q ∈ l, 0 ≤ q.2) (acc : ℝ) :
    IntervalIntegrable (fun u => f (ppfFrom u acc last l)) volume acc (acc + (l.map Prod.snd).sum) ∧
    ∫ u in acc..(acc + (l.map Prod.snd).sum), f (ppfFrom u acc last l) = (l.map fun q => q.2 * f q.1).sum := by
  induction l generalizing acc with
  | nil => simp
  | cons q l ih =>
    have hq : 0 ≤ q.2 := h q (by simp)
    have hl : 0 ≤ (l.map Prod.snd).sum := List.sum_nonneg fun v hv => by
      obtain ⟨p, hp, rfl⟩ := List.mem_map.1 hv
      exact h p (by simp [hp])
    obtain ⟨i1, i2⟩ := ih (fun p hp => h p (by simp [hp])) (acc + q.2)
    have e1 : Set.EqOn (fun _ : ℝ => f q.1) (fun u => f (ppfFrom u acc last (q :: l))) (Set.uIoc acc (acc + q.2)) := by
      intro u hu
      rw [Set.uIoc_of_le (by linarith)] at hu
      simp only [ppfFrom, if_pos hu.2]
    have e2 : Set.EqOn (fun u => f (ppfFrom u (acc + q.2) last l)) (fun u => f (ppfFrom u acc last (q :: l)))
        (Set.uIoc (acc + q.2) (acc + q.2 + (l.map Prod.snd).sum)) := by
      intro u hu
      rw [Set.uIoc_of_le (by linarith)] at hu
      simp only [ppfFrom, if_neg (not_le.2 hu.1)]
    have j1 : IntervalIntegrable (fun u => f (ppfFrom u acc last (q :: l))) volume acc (acc + q.2) :=
      (intervalIntegrable_const (c := f q.1)).congr e1
    have j2 := i1.congr e2
    simp only [List.map_cons, List.sum_cons, ← add_assoc]
    refine ⟨j1.trans j2, ?_⟩
    rw [← intervalIntegral.integral_add_adjacent_intervals j1 j2,
      ← intervalIntegral.integral_congr_ae (Filter.Eventually.of_forall fun u hu => e2 hu), i2,
      ← intervalIntegral.integral_congr_ae (Filter.Eventually.of_forall fun u hu => e1 hu)]
    simp

open Classical in
theorem ppfFrom_le_iff (u z last : ℝ) (l : List (ℝ × ℝ)) (h : ∀ q ∈ l, 0 ≤ q.2) (hs : (l.map Prod.fst).Pairwise (· < ·)) (acc : ℝ)
    (h1 : acc < u) (h2 : u ≤ acc + (l.map Prod.snd).sum) :
    ppfFrom u acc last l ≤ z ↔ u ≤ acc + ((l.filter fun q => q.1 ≤ z).map Prod.snd).sum := by
  induction l generalizing acc with
  | nil => simp at h2; linarith
  | cons q l ih =>
    rw [List.map_cons, List.pairwise_cons] at hs
    have hnn : 0 ≤ ((l.filter fun q => q.1 ≤ z).map Prod.snd).sum := List.sum_nonneg fun v hv => by
      obtain ⟨p, hp, rfl⟩ := List.mem_map.1 hv
      exact h p (by simp [(List.mem_filter.1 hp).1])
    have hz : ¬ q.1 ≤ z → l.filter (fun q => q.1 ≤ z) = [] := by
      intro hq
      rw [List.filter_eq_nil_iff]
      intro p hp
      have := hs.1 p.1 (List.mem_map_of_mem hp)
      simp only [decide_eq_true_eq]
      linarith [not_le.1 hq]
    rw [ppfFrom]
    by_cases hu : u ≤ acc + q.2
    · rw [if_pos hu]
      by_cases hq : q.1 ≤ z
      · rw [List.filter_cons_of_pos (by simpa using hq), List.map_cons, List.sum_cons]
        exact ⟨fun _ => by linarith, fun _ => hq⟩
      · rw [List.filter_cons_of_neg (by simpa using hq), hz hq]
        exact ⟨fun h => absurd h hq, fun h => by simp at h; linarith⟩
    · rw [if_neg hu, ih (fun p hp => h p (by simp [hp])) hs.2 _ (not_le.1 hu) (by simpa [add_assoc] using h2)]
      by_cases hq : q.1 ≤ z
      · rw [List.filter_cons_of_pos (by simpa using hq), List.map_cons, List.sum_cons, add_assoc]
      · rw [List.filter_cons_of_neg (by simpa using hq), hz hq]
        simp only [List.map_nil, List.sum_nil, add_zero]
        exact ⟨fun h => absurd h hu, fun h => by linarith⟩

theorem discreteLaw_snd (x w : List ℝ) (hlen : x.length = w.length) : (discreteLaw x w).map Prod.snd = w.map fun v => v / w.sum := by
  rw [discreteLaw, List.map_snd_zip]
  simp [hlen]

theorem discreteLaw_fst (x w : List ℝ) (hlen : x.length = w.length) : (discreteLaw x w).map Prod.fst = x := by
  rw [discreteLaw, List.map_fst_zip]
  simp [hlen]

theorem discreteLaw_sum (x w : List ℝ) (hlen : x.length = w.length) (hs : w.sum ≠ 0) : ((discreteLaw x w).map Prod.snd).sum = 1 := by
  rw [discreteLaw_snd x w hlen]
  simp only [div_eq_mul_inv]
  rw [List.sum_map_mul_right, List.map_id', mul_inv_cancel₀ hs]

theorem discreteLaw_nonneg (x w : List ℝ) (hw : ∀ v ∈ w, 0 ≤ v) : ∀ q ∈ discreteLaw x w, 0 ≤ q.2 := by
  intro q hq
  obtain ⟨v, hv, h⟩ := List.mem_map.1 (List.of_mem_zip hq).2
  rw [← h]
  exact div_nonneg (hw v hv) (List.sum_nonneg hw)

/-- C156. The distribution function of an analytical parameter is increasing, is `0` below the range and `1` from its end on. -/
theorem c156_cdf (x w : List ℝ) (hlen : x.length = w.length) (hw : ∀ v ∈ w, 0 ≤ v) (hs : w.sum ≠ 0) :
    Monotone (analyticalCdf x w) ∧ (∀ t, (∀ v ∈ x, t < v) → analyticalCdf x w t = 0) ∧
    ∀ t, (∀ v ∈ x, v ≤ t) → analyticalCdf x w t = 1 := by
  classical
  have hn := discreteLaw_nonneg x w hw
  refine ⟨fun s t hst => ?_, fun t ht => ?_, fun t ht => ?_⟩
  · unfold analyticalCdf
    have hsub : ((discreteLaw x w).filter fun q => q.1 ≤ s) = (((discreteLaw x w).filter fun q => q.1 ≤ t).filter fun q => q.1 ≤ s) := by
      rw [List.filter_filter]
      apply List.filter_congr
      intro q _
      by_cases h : q.1 ≤ s
      · simp [h, h.trans hst]
      · simp [h]
    rw [hsub]
    refine List.Sublist.sum_le_sum (List.Sublist.map _ List.filter_sublist) fun v hv => ?_
    obtain ⟨p, hp, rfl⟩ := List.mem_map.1 hv
    exact hn p (List.mem_filter.1 hp).1
  · have : ((discreteLaw x w).filter fun q => q.1 ≤ t) = [] := by
      rw [List.filter_eq_nil_iff]
      intro q hq
      simpa using ht q.1 (List.of_mem_zip hq).1
    rw [analyticalCdf, this]; rfl
  · have : ((discreteLaw x w).filter fun q => q.1 ≤ t) = discreteLaw x w := by
      rw [List.filter_eq_self]
      intro q hq
      simpa using ht q.1 (List.of_mem_zip hq).1
    rw [analyticalCdf, this, discreteLaw_sum x w hlen hs]

/-- C156. Quantiles of an analytical parameter are the generalised inverse of its distribution function: `get_icdf` returns the smallest
value at which `get_cdf` reaches the given one. -/
theorem c156_icdf (x w : List ℝ) (hlen : x.length = w.length) (hx : x.Pairwise (· < ·)) (hw : ∀ v ∈ w, 0 ≤ v) (hs : w.sum ≠ 0) :
    EQ.Corr.IcdfOK (analyticalCdf x w) (analyticalIcdf x w) := by
  intro u z h0 h1
  have h := ppfFrom_le_iff u z (x.headD 0) (discreteLaw x w) (discreteLaw_nonneg x w hw) (by rwa [discreteLaw_fst x w hlen]) 0 h0
    (by rw [discreteLaw_sum x w hlen hs]; linarith)
  rw [zero_add] at h
  exact h

/-- C156. A sample of an analytical parameter, the quantile at a uniform value, has the mean value `sampleE` of any function: the law under which
its polynomials are orthonormal (C19) and its quadrature rules are exact (C153). -/
theorem c156_samples (x w : List ℝ) (hlen : x.length = w.length) (hw : ∀ v ∈ w, 0 ≤ v) (hs : w.sum ≠ 0) (f : ℝ → ℝ) :
    IntervalIntegrable (fun u => f (analyticalIcdf x w u)) volume 0 1 ∧
    ∫ u in (0 : ℝ)..1, f (analyticalIcdf x w u) = sampleE (x.zip w) f := by
  have h := ppfFrom_integral f (x.headD 0) (discreteLaw x w) (discreteLaw_nonneg x w hw) 0
  rw [discreteLaw_sum x w hlen hs, zero_add] at h
  refine ⟨h.1, h.2.trans ?_⟩
  have hsnd : ((x.zip w).map Prod.snd) = w := by
    rw [List.map_snd_zip]; omega
  rw [sampleE, hsnd, div_eq_mul_inv, ← List.sum_map_mul_right, discreteLaw, List.zip_map_right, List.map_map]
  congr 1
  apply List.map_congr_left
  intro q _
  simp only [Function.comp, Prod.map, id]
  ring

/-- Non-vacuity of C156: the density values `1, 2, 1` at `0, 1, 3`. -/
example : EQ.Corr.IcdfOK (analyticalCdf [0, 1, 3] [1, 2, 1]) (analyticalIcdf [0, 1, 3] [1, 2, 1]) ∧
    analyticalIcdf [0, 1, 3] [1, 2, 1] (1 / 2) = 1 ∧ ∫ u in (0 : ℝ)..1, analyticalIcdf [0, 1, 3] [1, 2, 1] u = 5 / 4 := by
  refine ⟨c156_icdf _ _ rfl (by norm_num) (by norm_num) (by norm_num), ?_, ?_⟩
  · norm_num [analyticalIcdf, discreteLaw, ppfFrom]
  · rw [(c156_samples [0, 1, 3] [1, 2, 1] rfl (by norm_num) (by norm_num) fun t => t).2]
    norm_num [sampleE]

end EQ.Dist
