import Verif.Param.MonicLemmas

/-!
# Helper lemmas: the loop of `custom_recurrence_coefficients`
-/

namespace EQ.Param
open Polynomial

theorem zip_map_map {α β γ δ : Type} (l : List α) (f : α → β) (g : α → γ) (h : β × γ → δ) :
    ((l.map f).zip (l.map g)).map h = l.map fun a => h (f a, g a) := by
  rw [List.zip_map', List.map_map]; rfl

theorem zip_self_map {α γ δ : Type} (l : List α) (g : α → γ) (h : α × γ → δ) :
    (l.zip (l.map g)).map h = l.map fun a => h (a, g a) := by
  have := zip_map_map l id g h
  simpa using this

/-- Discrete inner sums as a functional. -/
noncomputable def dsum (data : List (ℝ × ℝ)) : ℝ[X] →ₗ[ℝ] ℝ where
  toFun f := (data.map fun q => q.2 * f.eval q.1).sum
  map_add' f g := by
    simp only [eval_add, mul_add]
    exact List.sum_map_add
  map_smul' c f := by
    simp only [eval_smul, smul_eq_mul, RingHom.id_apply]
    rw [← List.sum_map_mul_left]
    congr 1
    apply List.map_congr_left
    intro q _
    ring

theorem dsum_apply (data : List (ℝ × ℝ)) (f : ℝ[X]) :
    dsum data f = (data.map fun q => q.2 * f.eval q.1).sum := rfl

/-- The state after `j` passes. -/
noncomputable def customSt (data : List (ℝ × ℝ)) (j : ℕ) : CustomState :=
  let s := (data.map Prod.snd).sum
  (List.range j).foldl (customStep data)
    { ab := Function.update (fun _ => (0, 0)) 0 ((data.map fun p => p.1 * (p.2 / s)).sum, s),
      p1 := data.map fun _ => 0, p2 := data.map fun _ => 1, s := s }

theorem customSt_succ (data : List (ℝ × ℝ)) (j : ℕ) :
    customSt data (j + 1) = customStep data (customSt data j) j := by
  simp only [customSt, List.range_succ, List.foldl_append, List.foldl_cons, List.foldl_nil]

/-- Row `k` is final once it is written. -/
theorem customSt_stable (data : List (ℝ × ℝ)) (k j : ℕ) (h : k ≤ j) :
    (customSt data j).ab k = (customSt data k).ab k := by
  induction j with
  | zero => have : k = 0 := by omega
            subst this; rfl
  | succ j ih =>
    rcases Nat.lt_or_ge k (j + 1) with h1 | h1
    · rw [customSt_succ]
      simp only [customStep]
      rw [Function.update_of_ne (by omega)]
      exact ih (by omega)
    · have : k = j + 1 := by omega
      subst this; rfl

/-- The final table, row by row. -/
noncomputable def customT (data : List (ℝ × ℝ)) : Table := fun k => (customSt data k).ab k

theorem customSt_inv (data : List (ℝ × ℝ)) (j : ℕ) :
    (customSt data j).p2 = data.map (fun q => (mpoly (customT data) j).eval q.1) ∧
    (customSt data j).p1 = data.map (fun q =>
      if j = 0 then 0 else (mpoly (customT data) (j - 1)).eval q.1) ∧
    (customSt data j).s = dsum data (mpoly (customT data) j * mpoly (customT data) j) := by
  induction j with
  | zero =>
    refine ⟨by simp [customSt, mpoly], by simp [customSt], ?_⟩
    simp only [customSt, List.range_zero, List.foldl_nil, dsum_apply, mpoly]
    simp
  | succ j ih =>
    obtain ⟨h2, h1, hs⟩ := ih
    have hp2 : (customSt data (j + 1)).p2 =
        data.map (fun q => (mpoly (customT data) (j + 1)).eval q.1) := by
      rw [customSt_succ]
      simp only [customStep]
      rw [h2, h1, List.zip_map']
      rw [zip_self_map]
      apply List.map_congr_left
      intro q _
      simp only
      have hrow : (customSt data j).ab j = customT data j := rfl
      rw [hrow]
      cases j with
      | zero => simp [mpoly]
      | succ j => simp [mpoly]
    refine ⟨hp2, ?_, ?_⟩
    · rw [customSt_succ]
      simp only [customStep]
      rw [h2]
      simp
    · have : (customSt data (j + 1)).s =
          ((data.zip (customSt data (j + 1)).p2).map fun q => q.1.2 * q.2 ^ 2).sum := by
        rw [customSt_succ]; rfl
      rw [this, hp2, zip_self_map, dsum_apply]
      congr 1
      apply List.map_congr_left
      intro q _
      simp only [eval_mul]; ring

theorem customT_succ (data : List (ℝ × ℝ)) (j : ℕ) :
    customT data (j + 1) =
      (dsum data (X * (mpoly (customT data) (j + 1) * mpoly (customT data) (j + 1))) /
        dsum data (mpoly (customT data) (j + 1) * mpoly (customT data) (j + 1)),
       dsum data (mpoly (customT data) (j + 1) * mpoly (customT data) (j + 1)) /
        dsum data (mpoly (customT data) j * mpoly (customT data) j)) := by
  have h : customT data (j + 1) =
      (((data.zip (customSt data (j + 1)).p2).map fun q => q.1.1 * (q.1.2 * q.2 ^ 2)).sum /
        (customSt data (j + 1)).s, (customSt data (j + 1)).s / (customSt data j).s) := by
    simp only [customT]
    rw [customSt_succ]
    simp only [customStep]
    rw [Function.update_self]
  rw [h, (customSt_inv data (j + 1)).1, (customSt_inv data (j + 1)).2.2, (customSt_inv data j).2.2,
    zip_self_map]
  congr 2
  rw [dsum_apply]
  congr 1
  apply List.map_congr_left
  intro q _
  simp only [eval_mul, eval_X]; ring

theorem customT_zero (data : List (ℝ × ℝ)) :
    customT data 0 = (dsum data X / dsum data 1, dsum data 1) := by
  have h : customT data 0 = ((data.map fun p => p.1 * (p.2 / (data.map Prod.snd).sum)).sum,
      (data.map Prod.snd).sum) := by
    simp [customT, customSt]
  have h1 : dsum data 1 = (data.map Prod.snd).sum := by
    simp [dsum_apply]
  rw [h, h1]
  congr 1
  rw [dsum_apply, div_eq_mul_inv, ← List.sum_map_mul_right]
  congr 1
  apply List.map_congr_left
  intro q _
  simp only [eval_X]; ring

/-- Positive weights and enough distinct points: squares of low degree do not vanish. -/
theorem dsum_sq_pos (data : List (ℝ × ℝ)) (hw : ∀ q ∈ data, 0 < q.2) (f : ℝ[X]) (hf : f ≠ 0)
    (hd : f.natDegree < (data.map Prod.fst).toFinset.card) : 0 < dsum data (f * f) := by
  rw [dsum_apply]
  have hnn : ∀ q ∈ data, 0 ≤ q.2 * (f * f).eval q.1 := fun q hq => by
    rw [eval_mul]
    exact mul_nonneg (hw q hq).le (mul_self_nonneg _)
  have hex : ∃ q ∈ data, f.eval q.1 ≠ 0 := by
    by_contra hno
    push Not at hno
    have hsub : (data.map Prod.fst).toFinset ⊆ f.roots.toFinset := by
      intro x hx
      simp only [List.mem_toFinset, List.mem_map] at hx
      obtain ⟨q, hq, rfl⟩ := hx
      simp only [Multiset.mem_toFinset]
      rw [mem_roots hf]
      exact hno q hq
    have h1 := Finset.card_le_card hsub
    have h2 := Multiset.toFinset_card_le f.roots
    have h3 := f.card_roots'
    omega
  obtain ⟨q, hq, hne⟩ := hex
  have h1 : 0 < q.2 * (f * f).eval q.1 := by
    rw [eval_mul]
    exact mul_pos (hw q hq) (mul_self_pos.2 hne)
  have h2 : q.2 * (f * f).eval q.1 ≤ (data.map fun q => q.2 * (f * f).eval q.1).sum := by
    apply List.single_le_sum
    · intro y hy
      obtain ⟨q', hq', rfl⟩ := List.mem_map.1 hy
      exact hnn q' hq'
    · exact List.mem_map.2 ⟨q, hq, rfl⟩
  linarith

/-- Orthonormality for the loop's table on positive data of total weight one. -/
theorem customT_orthonormal (data : List (ℝ × ℝ)) (hw : ∀ q ∈ data, 0 < q.2)
    (m : ℕ) (hm : m < (data.map Prod.fst).toFinset.card) :
    (∀ k, 1 ≤ k → k ≤ m → 0 < (customT data k).2) ∧
    ∀ i j, i ≤ m → j ≤ m → dsum data (opoly (customT data) i * opoly (customT data) j)
      = if i = j then dsum data 1 else 0 := by
  have hsq : ∀ k, k ≤ m → 0 < dsum data (mpoly (customT data) k * mpoly (customT data) k) := by
    intro k hk
    obtain ⟨hmon, hdeg⟩ := mpoly_monic (customT data) k
    exact dsum_sq_pos data hw _ hmon.ne_zero (by omega)
  have hpos : ∀ k, 1 ≤ k → k ≤ m → 0 < (customT data k).2 := by
    intro k h1 h2
    obtain ⟨j, rfl⟩ : ∃ j, k = j + 1 := ⟨k - 1, by omega⟩
    rw [customT_succ]
    exact div_pos (hsq _ h2) (hsq _ (by omega))
  have hlt := stieltjes_orthogonal (customT data) (dsum data) m
    (fun k hk => (hsq k (by omega)).ne') (by
      intro k hk
      cases k with
      | zero => rw [customT_zero]; simp [mpoly]
      | succ k => rw [customT_succ])
    (by
      intro k h1 h2
      obtain ⟨j, rfl⟩ : ∃ j, k = j + 1 := ⟨k - 1, by omega⟩
      rw [customT_succ, Nat.add_sub_cancel])
  have orth : ∀ p q, p ≤ m → q ≤ m → p ≠ q →
      dsum data (mpoly (customT data) p * mpoly (customT data) q) = 0 := by
    intro p q hp hq hpq
    rcases lt_or_gt_of_ne hpq with h | h
    · exact hlt q hq p h
    · rw [mul_comm]; exact hlt p hp q h
  refine ⟨hpos, ?_⟩
  apply orthonormal_of_monic (customT data) (dsum data) m hpos orth
  intro k hk
  have h2 := congrArg Prod.snd (customT_succ data k)
  simp only at h2
  rw [h2]
  have := (hsq k (by omega)).ne'
  field_simp

/-- The code's result agrees with `customT` on the rows it fills. -/
theorem customCoeffs_eq (x w : List ℝ) (order k : ℕ) (h1 : 1 ≤ order) (hk : k ≤ order + 1) :
    customCoeffs x w order k = customT (customData x w) k := by
  unfold customCoeffs
  rw [if_neg (by omega)]
  exact customSt_stable (customData x w) k (order + 1) hk

/-- Sums over the kept samples are sums over all samples. -/
theorem dsum_customData (x w : List ℝ) (f : ℝ[X]) :
    dsum (customData x w) f = ((x.zip w).map fun q => q.2 / w.sum * f.eval q.1).sum := by
  have hz : x.zip (w.map fun v => v / w.sum) = (x.zip w).map fun q => (q.1, q.2 / w.sum) := by
    rw [List.zip_map_right]; rfl
  rw [dsum_apply, customData, hz]
  generalize x.zip w = l
  induction l with
  | nil => simp
  | cons q l ih =>
    simp only [List.map_cons, List.filter_cons]
    by_cases h : q.2 / w.sum = 0
    · simp only [h, ne_eq, not_true_eq_false, decide_false, Bool.false_eq_true, if_false,
        List.sum_cons, zero_mul, zero_add]
      exact ih
    · simp only [h, ne_eq, not_false_eq_true, decide_true, if_true, List.map_cons, List.sum_cons]
      rw [← ih]

end EQ.Param
