import Verif.Stats.CondLemmas

/-!
# Conditional skewness and kurtosis as sums over tuples of basis terms
-/

namespace EQ.Stats
open EQ.Basis EQ.Param EQ.Poly EQ.Sampling EQ.Sampling.Spec EQ.Poly.Spec EQ.Stats.Spec

/-- In every dimension, the moment of a tuple of basis terms vanishes if exactly one of their
entries is non-zero, or exactly two and these differ. -/
structure Vanish (els : List (List ℕ)) (d : ℕ) (wts : List ℝ) (W : List (List ℝ)) : Prop where
  one : ∀ is : List ℕ, (∀ i ∈ is, i < els.length) → ∀ k < d, ∀ n,
    (is.map fun i => (els.getD i []).getD k 0).filter (· ≠ 0) = [n] → mom wts W is = 0
  two : ∀ is : List ℕ, (∀ i ∈ is, i < els.length) → ∀ k < d, ∀ n m, n ≠ m →
    (is.map fun i => (els.getD i []).getD k 0).filter (· ≠ 0) = [n, m] → mom wts W is = 0

open Classical in
/-- The moment of a tuple, if the terms together involve exactly `S`. -/
noncomputable def momOn (els : List (List ℕ)) (d : ℕ) (wts : List ℝ) (W : List (List ℝ))
    (S : List ℕ) (is : List ℕ) : ℝ :=
  if TogetherInvolve d (is.map fun i => els.getD i []) S then mom wts W is else 0

theorem together_perm {d : ℕ} {rows rows' : List (List ℕ)} {S : List ℕ} (h : rows.Perm rows') :
    TogetherInvolve d rows S ↔ TogetherInvolve d rows' S := by
  unfold TogetherInvolve
  simp only [h.mem_iff]

theorem momOn_perm (els : List (List ℕ)) (d : ℕ) (wts : List ℝ) (W : List (List ℝ))
    (S : List ℕ) {is js : List ℕ} (h : is.Perm js) :
    momOn els d wts W S is = momOn els d wts W S js := by
  classical
  unfold momOn
  rw [mom_perm wts W h]
  simp only [together_perm (h.map fun i => els.getD i [])]

section
variable {els : List (List ℕ)} {d : ℕ} {wts : List ℝ} {W : List (List ℝ)}
  (hr : ∀ i < els.length, (els.getD i []).length = d)
include hr

theorem norm_ind (i : ℕ) (hi : i < els.length) :
    normInd (els.getD i []) = ind d fun k => (els.getD i []).getD k 0 ≠ 0 :=
  normInd_eq d _ (hr i hi)

theorem sum_le_of_together {order : ℕ} {S : List ℕ} (hS : S ∈ combos d order) (is : List ℕ)
    (i : ℕ) (hi : i < els.length) (hm : i ∈ is)
    (h : TogetherInvolve d (is.map fun i => els.getD i []) S) :
    (normInd (els.getD i [])).sum ≤ order := by
  rw [mem_combos] at hS
  rw [norm_ind hr i hi, ← hS.2, ← indicator_sum d S hS.1, indicator_eq]
  have : ind d (fun k => (els.getD i []).getD k 0 ≠ 0) =
      ind d (fun k => k < d ∧ (els.getD i []).getD k 0 ≠ 0) := by
    rw [ind_eq_iff]; intro k hk; simp [hk]
  rw [this]
  apply ind_sum_le
  rintro k ⟨hk, hne⟩
  exact (h k hk).2 ⟨_, List.mem_map.2 ⟨i, hm, rfl⟩, hne⟩

theorem key1_iff (S : List ℕ) (p : ℕ) (hp : p < els.length) (is : List ℕ) (his : is ≠ [])
    (hall : ∀ i ∈ is, i = p) :
    normInd (els.getD p []) = indicator d S ↔
      TogetherInvolve d (is.map fun i => els.getD i []) S := by
  rw [norm_ind hr p hp, indicator_eq, ind_eq_iff]
  unfold TogetherInvolve
  apply forall_congr'; intro k; apply forall_congr'; intro hk
  rw [iff_comm]
  have : (∃ row ∈ is.map (fun i => els.getD i []), row.getD k 0 ≠ 0) ↔
      (els.getD p []).getD k 0 ≠ 0 := by
    constructor
    · rintro ⟨row, hrow, hne⟩
      obtain ⟨i, hi, rfl⟩ := List.mem_map.1 hrow
      rwa [hall i hi] at hne
    · intro h
      obtain ⟨i, hi⟩ := List.exists_mem_of_ne_nil is his
      exact ⟨_, List.mem_map.2 ⟨i, hi, rfl⟩, by rwa [hall i hi]⟩
  rw [this]
  exact iff_comm

omit hr in
theorem keyor_sum {order : ℕ} {S : List ℕ} (hS : S ∈ combos d order) (key : List ℕ)
    (h : key = indicator d S) : key.sum = order := by
  rw [mem_combos] at hS
  rw [h, indicator_sum d S hS.1, hS.2]

theorem key2_iff (S : List ℕ) (p q : ℕ) (hp : p < els.length) (hq : q < els.length)
    (is : List ℕ) (hall : ∀ i, i ∈ is ↔ i = p ∨ i = q) :
    orInd (normInd (els.getD p [])) (normInd (els.getD q [])) = indicator d S ↔
      TogetherInvolve d (is.map fun i => els.getD i []) S := by
  rw [norm_ind hr p hp, norm_ind hr q hq, orInd_eq, indicator_eq, ind_eq_iff]
  unfold TogetherInvolve
  apply forall_congr'; intro k; apply forall_congr'; intro hk
  rw [iff_comm]
  have : (∃ row ∈ is.map (fun i => els.getD i []), row.getD k 0 ≠ 0) ↔
      (els.getD p []).getD k 0 ≠ 0 ∨ (els.getD q []).getD k 0 ≠ 0 := by
    simp only [List.mem_map, exists_exists_and_eq_and, hall]
    constructor
    · rintro ⟨i, rfl | rfl, h⟩
      · exact .inl h
      · exact .inr h
    · rintro (h | h)
      · exact ⟨p, .inl rfl, h⟩
      · exact ⟨q, .inr rfl, h⟩
  rw [this]
  exact iff_comm

theorem key3_iff (S : List ℕ) (p q r : ℕ) (hp : p < els.length) (hq : q < els.length)
    (hr' : r < els.length) (is : List ℕ) (hall : ∀ i, i ∈ is ↔ i = p ∨ i = q ∨ i = r) :
    orInd (orInd (normInd (els.getD p [])) (normInd (els.getD q []))) (normInd (els.getD r [])) =
        indicator d S ↔
      TogetherInvolve d (is.map fun i => els.getD i []) S := by
  rw [norm_ind hr p hp, norm_ind hr q hq, norm_ind hr r hr', orInd_eq, orInd_eq, indicator_eq,
    ind_eq_iff]
  unfold TogetherInvolve
  apply forall_congr'; intro k; apply forall_congr'; intro hk
  rw [iff_comm]
  have : (∃ row ∈ is.map (fun i => els.getD i []), row.getD k 0 ≠ 0) ↔
      ((els.getD p []).getD k 0 ≠ 0 ∨ (els.getD q []).getD k 0 ≠ 0) ∨
        (els.getD r []).getD k 0 ≠ 0 := by
    simp only [List.mem_map, exists_exists_and_eq_and, hall]
    constructor
    · rintro ⟨i, rfl | rfl | rfl, h⟩
      · exact .inl (.inl h)
      · exact .inl (.inr h)
      · exact .inr h
    · rintro ((h | h) | h)
      · exact ⟨p, .inl rfl, h⟩
      · exact ⟨q, .inr (.inl rfl), h⟩
      · exact ⟨r, .inr (.inr rfl), h⟩
  rw [this]
  exact iff_comm

theorem key4_iff (S : List ℕ) (p q r s : ℕ) (hp : p < els.length) (hq : q < els.length)
    (hr' : r < els.length) (hs : s < els.length) :
    orInd (orInd (orInd (normInd (els.getD p [])) (normInd (els.getD q [])))
      (normInd (els.getD r []))) (normInd (els.getD s [])) = indicator d S ↔
      TogetherInvolve d ([p, q, r, s].map fun i => els.getD i []) S := by
  rw [norm_ind hr p hp, norm_ind hr q hq, norm_ind hr r hr', norm_ind hr s hs, orInd_eq, orInd_eq,
    orInd_eq, indicator_eq, ind_eq_iff]
  unfold TogetherInvolve
  apply forall_congr'; intro k; apply forall_congr'; intro hk
  rw [iff_comm]
  have : (∃ row ∈ [p, q, r, s].map (fun i => els.getD i []), row.getD k 0 ≠ 0) ↔
      (((els.getD p []).getD k 0 ≠ 0 ∨ (els.getD q []).getD k 0 ≠ 0) ∨
        (els.getD r []).getD k 0 ≠ 0) ∨ (els.getD s []).getD k 0 ≠ 0 := by
    simp only [List.map_cons, List.map_nil, List.mem_cons, List.not_mem_nil, or_false,
      exists_eq_or_imp, exists_eq_left]
    tauto
  rw [this]
  exact iff_comm

end

/-! ## The selection tests only skip vanishing terms -/

section
variable {els : List (List ℕ)} {d : ℕ} {wts : List ℝ} {W : List (List ℝ)}
  (hv : Vanish els d wts W)
include hv

theorem deltaPQ_mom (n p q : ℕ) (hp : p < els.length) (hq : q < els.length) (hne : p ≠ q)
    (h : deltaPQ els d p q = true) : mom wts W (List.replicate n p ++ [q]) = 0 := by
  unfold deltaPQ at h
  rw [List.any_eq_true] at h
  obtain ⟨k, hk, h⟩ := h
  rw [List.mem_range] at hk
  rw [decide_eq_true_eq] at h
  have h' := h.resolve_right hne
  apply hv.one _ ?_ k hk ((els.getD q []).getD k 0)
  · rw [List.map_append, List.filter_append, List.map_replicate, h'.1]
    simp only [List.filter_replicate]
    simpa using h'.2
  · intro i hi
    simp only [List.mem_append, List.mem_replicate, List.mem_singleton] at hi
    rcases hi with ⟨_, rfl⟩ | rfl <;> assumption

theorem deltaPQR_mom (p q r : ℕ) (hp : p < els.length) (hq : q < els.length)
    (hr' : r < els.length)
    (h : deltaPQR d (normalise (els.getD p [])) (normalise (els.getD q []))
      (normalise (els.getD r [])) = true) : mom wts W [p, q, r] = 0 := by
  unfold deltaPQR at h
  rw [List.any_eq_true] at h
  obtain ⟨k, hk, h⟩ := h
  rw [List.mem_range] at hk
  simp only [normalise_getD] at h
  have hall : ∀ i ∈ [p, q, r], i < els.length := by simp [hp, hq, hr']
  have fin : ∀ n, (([p, q, r].map fun i => (els.getD i []).getD k 0).filter (· ≠ 0)) = [n] →
      mom wts W [p, q, r] = 0 := fun n => hv.one _ hall k hk n
  simp only [List.map_cons, List.map_nil] at fin
  generalize (els.getD p []).getD k 0 = a at h fin
  generalize (els.getD q []).getD k 0 = b at h fin
  generalize (els.getD r []).getD k 0 = c at h fin
  by_cases h1 : a = 0 <;> by_cases h2 : b = 0 <;> by_cases h3 : c = 0 <;>
    first
      | (refine fin a ?_; simp [h1, h2, h3]; done)
      | (refine fin b ?_; simp [h1, h2, h3]; done)
      | (refine fin c ?_; simp [h1, h2, h3]; done)
      | (exfalso; revert h; simp [h1, h2, h3])

theorem deltaP_QR_mom (p q r : ℕ) (hp : p < els.length) (hq : q < els.length)
    (hr' : r < els.length)
    (h : deltaP_QR d (els.getD p []) (els.getD q []) (els.getD r []) = true) :
    mom wts W [p, p, q, r] = 0 := by
  unfold deltaP_QR at h
  rw [List.any_eq_true] at h
  obtain ⟨k, hk, h⟩ := h
  rw [List.mem_range] at hk
  rw [decide_eq_true_eq] at h
  obtain ⟨h1, h2⟩ := h
  have hall : ∀ i ∈ [p, p, q, r], i < els.length := by simp [hp, hq, hr']
  have f1 : ∀ n, (([p, p, q, r].map fun i => (els.getD i []).getD k 0).filter (· ≠ 0)) = [n] →
      mom wts W [p, p, q, r] = 0 := fun n => hv.one _ hall k hk n
  have f2 : ∀ n m, n ≠ m →
      (([p, p, q, r].map fun i => (els.getD i []).getD k 0).filter (· ≠ 0)) = [n, m] →
      mom wts W [p, p, q, r] = 0 := fun n m => hv.two _ hall k hk n m
  simp only [List.map_cons, List.map_nil] at f1 f2
  generalize (els.getD p []).getD k 0 = a at h1 f1 f2
  generalize (els.getD q []).getD k 0 = b at h2 f1 f2
  generalize (els.getD r []).getD k 0 = c at h2 f1 f2
  by_cases h3 : b = 0
  · have h4 : c ≠ 0 := fun h => h2 (by rw [h3, h])
    exact f1 c (by simp [h1, h3, h4])
  · by_cases h4 : c = 0
    · exact f1 b (by simp [h1, h3, h4])
    · exact f2 b c h2 (by simp [h1, h3, h4])

theorem deltaPQRS_mom (p q r s : ℕ) (hp : p < els.length) (hq : q < els.length)
    (hr' : r < els.length) (hs : s < els.length)
    (h : deltaPQRS d (normalise (els.getD p [])) (normalise (els.getD q []))
      (normalise (els.getD r [])) (normalise (els.getD s [])) = true) :
    mom wts W [p, q, r, s] = 0 := by
  unfold deltaPQRS at h
  rw [List.any_eq_true] at h
  obtain ⟨k, hk, h⟩ := h
  rw [List.mem_range] at hk
  simp only [normalise_getD] at h
  have hall : ∀ i ∈ [p, q, r, s], i < els.length := by simp [hp, hq, hr', hs]
  have fin : ∀ n, (([p, q, r, s].map fun i => (els.getD i []).getD k 0).filter (· ≠ 0)) = [n] →
      mom wts W [p, q, r, s] = 0 := fun n => hv.one _ hall k hk n
  simp only [List.map_cons, List.map_nil] at fin
  generalize (els.getD p []).getD k 0 = a at h fin
  generalize (els.getD q []).getD k 0 = b at h fin
  generalize (els.getD r []).getD k 0 = c at h fin
  generalize (els.getD s []).getD k 0 = e at h fin
  by_cases h1 : a = 0 <;> by_cases h2 : b = 0 <;> by_cases h3 : c = 0 <;> by_cases h4 : e = 0 <;>
    first
      | (refine fin a ?_; simp [h1, h2, h3, h4]; done)
      | (refine fin b ?_; simp [h1, h2, h3, h4]; done)
      | (refine fin c ?_; simp [h1, h2, h3, h4]; done)
      | (refine fin e ?_; simp [h1, h2, h3, h4]; done)
      | (exfalso; revert h; simp [h1, h2, h3, h4])

end

end EQ.Stats
