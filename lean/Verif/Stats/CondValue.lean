import Verif.Stats.CondCore

/-!
# The values of the conditional skewness and kurtosis dictionaries
-/

namespace EQ.Stats
open EQ.Basis EQ.Param EQ.Poly EQ.Sampling EQ.Sampling.Spec EQ.Poly.Spec EQ.Stats.Spec

theorem foldl_skip1 {τ : Type} (l : List τ) (A : τ → Prop) [DecidablePred A]
    (key : τ → List ℕ) (v : τ → ℝ) (D : Dict) (k : List ℕ) :
    (l.foldl (fun D t => if A t then D else addAt D (key t) (v t)) D) k =
      D k + (l.map fun t => if ¬ A t ∧ key t = k then v t else 0).sum := by
  rw [← foldl_addAt l (fun t => ¬ A t) key v D k]
  have : (fun (D : Dict) t => if A t then D else addAt D (key t) (v t)) =
      fun D t => if ¬ A t then addAt D (key t) (v t) else D := by
    funext D t
    by_cases h : A t <;> simp [h]
  rw [this]

theorem foldl_skip2 {τ : Type} (l : List τ) (A B : τ → Prop) [DecidablePred A] [DecidablePred B]
    (key : τ → List ℕ) (v : τ → ℝ) (D : Dict) (k : List ℕ) :
    (l.foldl (fun D t => if A t then D else if B t then D else addAt D (key t) (v t)) D) k =
      D k + (l.map fun t => if (¬ A t ∧ ¬ B t) ∧ key t = k then v t else 0).sum := by
  rw [← foldl_addAt l (fun t => ¬ A t ∧ ¬ B t) key v D k]
  have : (fun (D : Dict) t => if A t then D else if B t then D else addAt D (key t) (v t)) =
      fun D t => if ¬ A t ∧ ¬ B t then addAt D (key t) (v t) else D := by
    funext D t
    by_cases h : A t <;> by_cases h' : B t <;> simp [h, h']
  rw [this]

section
variable {els : List (List ℕ)} {d : ℕ} {wts : List ℝ} {W : List (List ℝ)}
  (hr : ∀ i < els.length, (els.getD i []).length = d)
  (hlen : W.length = els.length)
  (hW : ∀ i < W.length, (W.getD i []).length = wts.length)
  (hv : Vanish els d wts W)
include hr hlen hW hv

omit hr hlen hW hv in
/-- One summand: either it is skipped and vanishes, or it is counted. -/
theorem term_eq {S : List ℕ} (key : List ℕ) (is : List ℕ)
    (C : Prop) [Decidable C] (a v T : ℝ)
    (hkey : key = indicator d S ↔ TogetherInvolve d (is.map fun i => els.getD i []) S)
    (hC : C → key = indicator d S → v = a * mom wts W is / T)
    (hC' : ¬ C → key = indicator d S → mom wts W is = 0) :
    (if C ∧ key = indicator d S then v else 0) = a * momOn els d wts W S is / T := by
  classical
  unfold momOn
  by_cases h1 : key = indicator d S
  · rw [if_pos (hkey.1 h1)]
    by_cases h2 : C
    · rw [if_pos ⟨h2, h1⟩, hC h2 h1]
    · rw [if_neg (fun h => h2 h.1), hC' h2 h1]; simp
  · rw [if_neg (fun h => h1 h.2), if_neg (fun h => h1 (hkey.2 h))]; simp

omit hlen hW hv in
theorem momOn_invalid {order : ℕ} {S : List ℕ} (hS : S ∈ combos d order) (is : List ℕ) (i : ℕ)
    (hi : i < els.length) (hm : i ∈ is) (hn : ¬ (normInd (els.getD i [])).sum ≤ order) :
    momOn els d wts W S is = 0 := by
  classical
  unfold momOn
  rw [if_neg]
  exact fun h => hn (sum_le_of_together hr hS is i hi hm h)

theorem condSkewness_value (hd : 0 < d) (order : ℕ) (var skew : ℝ) :
    condSkewness order wts W els els.length d var skew =
      .ok ((combos d order).map fun S => (S,
        ((List.range' 1 (els.length - 1)).map fun p =>
          ((List.range' 1 (els.length - 1)).map fun q =>
            ((List.range' 1 (els.length - 1)).map fun r =>
              momOn els d wts W S [p, q, r]).sum).sum).sum / (var ^ (1.5 : ℝ) * skew))) := by
  unfold condSkewness
  rw [if_neg (by omega)]
  simp only
  congr 1
  apply List.map_congr_left
  intro S hS
  have hS' := (mem_combos.1 hS)
  rw [Prod.mk.injEq]
  refine ⟨nonzero_indicator d S hS'.1, ?_⟩
  generalize hT : var ^ (1.5 : ℝ) * skew = T
  have hall : ∀ i ∈ List.range' 1 (els.length - 1), i < els.length := by
    intro i hi; rw [List.mem_range'_1] at hi; omega
  generalize hA : List.range' 1 (els.length - 1) = all at hall
  have hnd : all.Nodup := by rw [← hA]; exact List.nodup_range'
  have hvmem : ∀ i ∈ all.filter (fun i => (normInd (els.getD i [])).sum ≤ order),
      i ∈ all := fun i hi => (List.mem_filter.1 hi).1
  have hvnd : (all.filter (fun i => (normInd (els.getD i [])).sum ≤ order)).Nodup :=
    hnd.filter _
  -- third loop
  refine (foldl_state (triplesLt (all.filter fun i => (normInd (els.getD i [])).sum ≤ order)) els
    (fun t => orInd (orInd (normInd (els.getD t.1 [])) (normInd (els.getD t.2.1 [])))
      (normInd (els.getD t.2.2 [])))
    (fun t => 6 * dotW (List.zipWith (fun a b => a * b)
      (List.zipWith (fun a b => a * b) (W.getD t.1 []) (W.getD t.2.1 [])) (W.getD t.2.2 [])) wts / T)
    order (fun t => [t.1, t.2.1, t.2.2])
    (fun temp t => deltaPQR d (temp.getD t.1 []) (temp.getD t.2.1 []) (temp.getD t.2.2 []))
    (fun t => deltaPQR d (normalise (els.getD t.1 [])) (normalise (els.getD t.2.1 []))
      (normalise (els.getD t.2.2 []))) ?_ _ els (fun _ => rfl) (indicator d S)).trans ?_
  · intro temp t h
    rw [h t.1 (by simp), h t.2.1 (by simp), h t.2.2 (by simp)]
  -- second loop
  rw [foldl_skip2 (all.product all)
    (fun pq => (orInd (normInd (els.getD pq.1 [])) (normInd (els.getD pq.2 []))).sum ≠ order)
    (fun pq => deltaPQ els d pq.1 pq.2 = true)
    (fun pq => orInd (normInd (els.getD pq.1 [])) (normInd (els.getD pq.2 [])))
    (fun pq => 3 * dotW (List.zipWith (fun a b => a ^ 2 * b) (W.getD pq.1 []) (W.getD pq.2 []))
      wts / T)]
  -- first loop
  rw [hlen, hA, foldl_addAt all (fun i => (normInd (els.getD i [])).sum = order)
    (fun i => normInd (els.getD i []))
    (fun i => dotW ((W.getD i []).map (· ^ 3)) wts / T)]
  -- the three sums
  have e1 : (all.map fun i => if (normInd (els.getD i [])).sum = order ∧
      normInd (els.getD i []) = indicator d S then dotW ((W.getD i []).map (· ^ 3)) wts / T
      else 0) = all.map fun i => 1 * momOn els d wts W S [i, i, i] / T := by
    apply List.map_congr_left
    intro i hi
    apply term_eq
    · exact key1_iff hr S i (hall i hi) [i, i, i] (by simp) (by simp)
    · intro _ _
      rw [mom_pow hW 3 i (by rw [hlen]; exact hall i hi), one_mul]
      rfl
    · intro h1 h2
      exact absurd (keyor_sum hS _ h2) h1
  have e2 : ((all.product all).map fun t =>
      if (¬ (orInd (normInd (els.getD t.1 [])) (normInd (els.getD t.2 []))).sum ≠ order ∧
        ¬ deltaPQ els d t.1 t.2 = true) ∧
        orInd (normInd (els.getD t.1 [])) (normInd (els.getD t.2 [])) = indicator d S then
        3 * dotW (List.zipWith (fun a b => a ^ 2 * b) (W.getD t.1 []) (W.getD t.2 [])) wts / T
      else 0) = (all.product all).map fun t =>
        (fun p q => 3 * (if p = q then 0 else momOn els d wts W S [p, p, q]) / T) t.1 t.2 := by
    apply List.map_congr_left
    rintro ⟨p, q⟩ hpq
    replace hpq := List.mem_product.1 hpq
    have hp := hall p hpq.1
    have hq := hall q hpq.2
    simp only
    by_cases hne : p = q
    · rw [if_pos hne, if_neg]
      · simp
      · rintro ⟨⟨_, h⟩, _⟩
        apply h
        unfold deltaPQ
        rw [List.any_eq_true]
        exact ⟨0, by simpa using hd, by simp [hne]⟩
    · rw [if_neg hne]
      apply term_eq
      · exact key2_iff hr S p q hp hq [p, p, q] (by simp)
      · intro _ _
        rw [mom_zip2 hW _ p q [p, p, q] (by omega) (by omega)]
        intro a b F h1 h2
        simp [h1, h2]; ring
      · intro h1 h2
        have h3 : deltaPQ els d p q = true := by
          by_contra h3
          exact h1 ⟨by simpa using keyor_sum hS _ h2, h3⟩
        exact deltaPQ_mom hv 2 p q hp hq hne h3
  have e3 : ((triplesLt (all.filter fun i => (normInd (els.getD i [])).sum ≤ order)).map fun t =>
      if ((orInd (orInd (normInd (els.getD t.1 [])) (normInd (els.getD t.2.1 [])))
        (normInd (els.getD t.2.2 []))).sum = order ∧
        deltaPQR d (normalise (els.getD t.1 [])) (normalise (els.getD t.2.1 []))
          (normalise (els.getD t.2.2 [])) = false) ∧
        orInd (orInd (normInd (els.getD t.1 [])) (normInd (els.getD t.2.1 [])))
          (normInd (els.getD t.2.2 [])) = indicator d S then
        6 * dotW (List.zipWith (fun a b => a * b)
          (List.zipWith (fun a b => a * b) (W.getD t.1 []) (W.getD t.2.1 []))
          (W.getD t.2.2 [])) wts / T
      else 0) = (triplesLt (all.filter fun i => (normInd (els.getD i [])).sum ≤ order)).map
        fun t => 6 * momOn els d wts W S [t.1, t.2.1, t.2.2] / T := by
    apply List.map_congr_left
    intro t ht
    obtain ⟨m1, m2, m3⟩ := mem_triplesLt ht
    have h1 := hall _ (hvmem _ m1)
    have h2 := hall _ (hvmem _ m2)
    have h3 := hall _ (hvmem _ m3)
    apply term_eq
    · exact key3_iff hr S _ _ _ h1 h2 h3 [t.1, t.2.1, t.2.2] (by simp)
    · intro _ _
      rw [mom_zip3 hW _ t.1 t.2.1 t.2.2 [t.1, t.2.1, t.2.2] (by omega) (by omega) (by omega)]
      intro F
      simp; ring
    · intro h4 h5
      have h6 : deltaPQR d (normalise (els.getD t.1 [])) (normalise (els.getD t.2.1 []))
          (normalise (els.getD t.2.2 [])) = true := by
        by_contra h6
        exact h4 ⟨keyor_sum hS _ h5, by simpa using h6⟩
      exact deltaPQR_mom hv _ _ _ h1 h2 h3 h6
  rw [e1, e2, e3, sum_product all all
    (fun p q => 3 * (if p = q then 0 else momOn els d wts W S [p, p, q]) / T)]
  have hz : ∀ is i, i ∈ all → i ∈ is → ¬ (normInd (els.getD i [])).sum ≤ order →
      momOn els d wts W S is = 0 := fun is i hi hm hn =>
    momOn_invalid hr hS is i (hall i hi) hm hn
  -- restrict to the valid indices
  have r1 : (all.map fun i => 1 * momOn els d wts W S [i, i, i] / T).sum =
      ((all.filter fun i => (normInd (els.getD i [])).sum ≤ order).map fun i =>
        1 * momOn els d wts W S [i, i, i] / T).sum := by
    refine (sum_filter_of_zero all (fun i => (normInd (els.getD i [])).sum ≤ order) _ ?_).symm
    intro i hi hn
    rw [hz _ i hi (by simp) hn]; simp
  have r2 : (all.map fun p => (all.map fun q =>
        3 * (if p = q then 0 else momOn els d wts W S [p, p, q]) / T).sum).sum =
      ((all.filter fun i => (normInd (els.getD i [])).sum ≤ order).map fun p =>
        ((all.filter fun i => (normInd (els.getD i [])).sum ≤ order).map fun q =>
        3 * (if p = q then 0 else momOn els d wts W S [p, p, q]) / T).sum).sum := by
    rw [← sum_filter_of_zero all (fun i => (normInd (els.getD i [])).sum ≤ order)]
    · congr 1
      apply List.map_congr_left
      intro p _
      refine (sum_filter_of_zero all (fun i => (normInd (els.getD i [])).sum ≤ order) _ ?_).symm
      intro i hi hn
      rw [hz _ i hi (by simp) hn]; simp
    · intro i hi hn
      apply List.sum_eq_zero
      intro y hy
      obtain ⟨q, _, rfl⟩ := List.mem_map.1 hy
      rw [hz [i, i, q] i hi (by simp) hn]; simp
  have r3 : (all.map fun p => (all.map fun q => (all.map fun r =>
        momOn els d wts W S [p, q, r]).sum).sum).sum =
      ((all.filter fun i => (normInd (els.getD i [])).sum ≤ order).map fun p =>
        ((all.filter fun i => (normInd (els.getD i [])).sum ≤ order).map fun q =>
        ((all.filter fun i => (normInd (els.getD i [])).sum ≤ order).map fun r =>
        momOn els d wts W S [p, q, r]).sum).sum).sum := by
    rw [← sum_filter_of_zero all (fun i => (normInd (els.getD i [])).sum ≤ order)]
    · congr 1
      apply List.map_congr_left
      intro p _
      rw [← sum_filter_of_zero all (fun i => (normInd (els.getD i [])).sum ≤ order)]
      · congr 1
        apply List.map_congr_left
        intro q _
        refine (sum_filter_of_zero all (fun i => (normInd (els.getD i [])).sum ≤ order) _ ?_).symm
        intro i hi hn
        rw [hz _ i hi (by simp) hn]
      · intro i hi hn
        apply List.sum_eq_zero
        intro y hy
        obtain ⟨q, _, rfl⟩ := List.mem_map.1 hy
        rw [hz [p, i, q] i hi (by simp) hn]
    · intro i hi hn
      apply List.sum_eq_zero
      intro y hy
      obtain ⟨q, _, rfl⟩ := List.mem_map.1 hy
      apply List.sum_eq_zero
      intro y hy
      obtain ⟨r, _, rfl⟩ := List.mem_map.1 hy
      rw [hz [i, q, r] i hi (by simp) hn]
  rw [r1, r2, r3]
  have key := sum_triples (fun p q r => momOn els d wts W S [p, q, r])
    (fun p q r => momOn_perm _ _ _ _ _ (List.Perm.swap q p [r]))
    (fun p q r => momOn_perm _ _ _ _ _ (List.Perm.cons p (List.Perm.swap r q [])))
    _ hvnd
  rw [key]
  simp only [one_mul, List.sum_map_mul_left, div_eq_mul_inv, List.sum_map_mul_right]
  ring

theorem condKurtosis_value (hd : 0 < d) (order : ℕ) (var kurt : ℝ) :
    condKurtosis order wts W els els.length d var kurt =
      .ok ((combos d order).map fun S => (S,
        ((List.range' 1 (els.length - 1)).map fun p =>
          ((List.range' 1 (els.length - 1)).map fun q =>
            ((List.range' 1 (els.length - 1)).map fun r =>
              ((List.range' 1 (els.length - 1)).map fun s =>
                momOn els d wts W S [p, q, r, s]).sum).sum).sum).sum / (var ^ 2 * kurt))) := by
  unfold condKurtosis
  rw [if_neg (by omega)]
  simp only
  congr 1
  apply List.map_congr_left
  intro S hS
  have hS' := (mem_combos.1 hS)
  rw [Prod.mk.injEq]
  refine ⟨nonzero_indicator d S hS'.1, ?_⟩
  generalize hT : var ^ 2 * kurt = T
  have hall : ∀ i ∈ List.range' 1 (els.length - 1), i < els.length := by
    intro i hi; rw [List.mem_range'_1] at hi; omega
  generalize hA : List.range' 1 (els.length - 1) = all at hall
  have hnd : all.Nodup := by rw [← hA]; exact List.nodup_range'
  have hvmem : ∀ i ∈ all.filter (fun i => (normInd (els.getD i [])).sum ≤ order),
      i < els.length := fun i hi => hall i (List.mem_filter.1 hi).1
  have hvnd : (all.filter (fun i => (normInd (els.getD i [])).sum ≤ order)).Nodup :=
    hnd.filter _
  have hz : ∀ is i, i ∈ all → i ∈ is → ¬ (normInd (els.getD i [])).sum ≤ order →
      momOn els d wts W S is = 0 := fun is i hi hm hn =>
    momOn_invalid hr hS is i (hall i hi) hm hn
  have hfz : ∀ f : ℕ → ℝ, (∀ i ∈ all, ¬ (normInd (els.getD i [])).sum ≤ order → f i = 0) →
      (all.map f).sum =
        ((all.filter fun i => (normInd (els.getD i [])).sum ≤ order).map f).sum := fun f h =>
    (sum_filter_of_zero all (fun i => (normInd (els.getD i [])).sum ≤ order) f h).symm
  generalize hV : all.filter (fun i => (normInd (els.getD i [])).sum ≤ order) = valid
    at hvmem hvnd hfz
  -- fifth loop
  refine (foldl_state (quadsLt valid) els
    (fun t => orInd (orInd (orInd (normInd (els.getD t.1 [])) (normInd (els.getD t.2.1 [])))
      (normInd (els.getD t.2.2.1 []))) (normInd (els.getD t.2.2.2 [])))
    (fun t => 24 * dotW (List.zipWith (fun a b => a * b) (List.zipWith (fun a b => a * b)
      (List.zipWith (fun a b => a * b) (W.getD t.1 []) (W.getD t.2.1 [])) (W.getD t.2.2.1 []))
      (W.getD t.2.2.2 [])) wts / T)
    order (fun t => [t.1, t.2.1, t.2.2.1, t.2.2.2])
    (fun temp t => deltaPQRS d (temp.getD t.1 []) (temp.getD t.2.1 []) (temp.getD t.2.2.1 [])
      (temp.getD t.2.2.2 []))
    (fun t => deltaPQRS d (normalise (els.getD t.1 [])) (normalise (els.getD t.2.1 []))
      (normalise (els.getD t.2.2.1 [])) (normalise (els.getD t.2.2.2 []))) ?_ _ els
    (fun _ => rfl) (indicator d S)).trans ?_
  · intro temp t h
    rw [h t.1 (by simp), h t.2.1 (by simp), h t.2.2.1 (by simp), h t.2.2.2 (by simp)]
  -- fourth loop
  rw [foldl_skip2 (valid.product (pairsLt valid))
    (fun t => (orInd (orInd (normInd (els.getD t.1 [])) (normInd (els.getD t.2.1 [])))
      (normInd (els.getD t.2.2 []))).sum ≠ order)
    (fun t => deltaP_QR d (els.getD t.1 []) (els.getD t.2.1 []) (els.getD t.2.2 []) = true ∨
      t.2.1 = t.1 ∨ t.2.2 = t.1)
    (fun t => orInd (orInd (normInd (els.getD t.1 [])) (normInd (els.getD t.2.1 [])))
      (normInd (els.getD t.2.2 [])))
    (fun t => 12 * dotW (List.zipWith (fun a b => a * b)
      (List.zipWith (fun a b => a ^ 2 * b) (W.getD t.1 []) (W.getD t.2.1 []))
      (W.getD t.2.2 [])) wts / T)]
  -- third loop
  rw [foldl_skip1 (pairsLt valid)
    (fun pq => (orInd (normInd (els.getD pq.1 [])) (normInd (els.getD pq.2 []))).sum ≠ order)
    (fun pq => orInd (normInd (els.getD pq.1 [])) (normInd (els.getD pq.2 [])))
    (fun pq => 6 * dotW (List.zipWith (fun a b => a ^ 2 * b ^ 2) (W.getD pq.1 [])
      (W.getD pq.2 [])) wts / T)]
  -- second loop
  rw [foldl_skip2 (valid.product valid)
    (fun pq => (orInd (normInd (els.getD pq.1 [])) (normInd (els.getD pq.2 []))).sum ≠ order)
    (fun pq => deltaPQ els d pq.1 pq.2 = true)
    (fun pq => orInd (normInd (els.getD pq.1 [])) (normInd (els.getD pq.2 [])))
    (fun pq => 4 * dotW (List.zipWith (fun a b => a ^ 3 * b) (W.getD pq.1 []) (W.getD pq.2 []))
      wts / T)]
  -- first loop
  rw [hlen, hA, foldl_addAt all (fun i => (normInd (els.getD i [])).sum = order)
    (fun i => normInd (els.getD i []))
    (fun i => dotW ((W.getD i []).map (· ^ 4)) wts / T)]
  have e1 : (all.map fun i => if (normInd (els.getD i [])).sum = order ∧
      normInd (els.getD i []) = indicator d S then dotW ((W.getD i []).map (· ^ 4)) wts / T
      else 0) = all.map fun i => 1 * momOn els d wts W S [i, i, i, i] / T := by
    apply List.map_congr_left
    intro i hi
    apply term_eq
    · exact key1_iff hr S i (hall i hi) [i, i, i, i] (by simp) (by simp)
    · intro _ _
      rw [mom_pow hW 4 i (by rw [hlen]; exact hall i hi), one_mul]
      rfl
    · intro h1 h2
      exact absurd (keyor_sum hS _ h2) h1
  have e2 : ((valid.product valid).map fun t =>
      if (¬ (orInd (normInd (els.getD t.1 [])) (normInd (els.getD t.2 []))).sum ≠ order ∧
        ¬ deltaPQ els d t.1 t.2 = true) ∧
        orInd (normInd (els.getD t.1 [])) (normInd (els.getD t.2 [])) = indicator d S then
        4 * dotW (List.zipWith (fun a b => a ^ 3 * b) (W.getD t.1 []) (W.getD t.2 [])) wts / T
      else 0) = (valid.product valid).map fun t =>
        (fun p q => 4 * (if p = q then 0 else momOn els d wts W S [p, p, p, q]) / T) t.1 t.2 := by
    apply List.map_congr_left
    rintro ⟨p, q⟩ hpq
    replace hpq := List.mem_product.1 hpq
    have hp := hvmem p hpq.1
    have hq := hvmem q hpq.2
    simp only
    by_cases hne : p = q
    · rw [if_pos hne, if_neg]
      · simp
      · rintro ⟨⟨_, h⟩, _⟩
        apply h
        unfold deltaPQ
        rw [List.any_eq_true]
        exact ⟨0, by simpa using hd, by simp [hne]⟩
    · rw [if_neg hne]
      apply term_eq
      · exact key2_iff hr S p q hp hq [p, p, p, q] (by simp)
      · intro _ _
        rw [mom_zip2 hW _ p q [p, p, p, q] (by omega) (by omega)]
        intro a b F h1 h2
        simp [h1, h2]; ring
      · intro h1 h2
        have h3 : deltaPQ els d p q = true := by
          by_contra h3
          exact h1 ⟨by simpa using keyor_sum hS _ h2, h3⟩
        exact deltaPQ_mom hv 3 p q hp hq hne h3
  have e3 : ((pairsLt valid).map fun t =>
      if ¬ (orInd (normInd (els.getD t.1 [])) (normInd (els.getD t.2 []))).sum ≠ order ∧
        orInd (normInd (els.getD t.1 [])) (normInd (els.getD t.2 [])) = indicator d S then
        6 * dotW (List.zipWith (fun a b => a ^ 2 * b ^ 2) (W.getD t.1 []) (W.getD t.2 [])) wts / T
      else 0) = (pairsLt valid).map fun t => 6 * momOn els d wts W S [t.1, t.1, t.2, t.2] / T := by
    apply List.map_congr_left
    intro t ht
    obtain ⟨m1, m2⟩ := mem_pairsLt ht
    have h1 := hvmem _ m1
    have h2 := hvmem _ m2
    apply term_eq
    · exact key2_iff hr S _ _ h1 h2 [t.1, t.1, t.2, t.2] (by simp)
    · intro _ _
      rw [mom_zip2 hW _ t.1 t.2 [t.1, t.1, t.2, t.2] (by omega) (by omega)]
      intro a b F h1 h2
      simp [h1, h2]; ring
    · intro h4 h5
      exact absurd (keyor_sum hS _ h5) (by simpa using h4)
  have e4 : ((valid.product (pairsLt valid)).map fun t =>
      if (¬ (orInd (orInd (normInd (els.getD t.1 [])) (normInd (els.getD t.2.1 [])))
        (normInd (els.getD t.2.2 []))).sum ≠ order ∧
        ¬ (deltaP_QR d (els.getD t.1 []) (els.getD t.2.1 []) (els.getD t.2.2 []) = true ∨
          t.2.1 = t.1 ∨ t.2.2 = t.1)) ∧
        orInd (orInd (normInd (els.getD t.1 [])) (normInd (els.getD t.2.1 [])))
          (normInd (els.getD t.2.2 [])) = indicator d S then
        12 * dotW (List.zipWith (fun a b => a * b)
          (List.zipWith (fun a b => a ^ 2 * b) (W.getD t.1 []) (W.getD t.2.1 []))
          (W.getD t.2.2 [])) wts / T
      else 0) = (valid.product (pairsLt valid)).map fun t =>
        (fun p (u : ℕ × ℕ) => 12 * (if u.1 = p ∨ u.2 = p then 0 else
          momOn els d wts W S [p, p, u.1, u.2]) / T) t.1 t.2 := by
    apply List.map_congr_left
    rintro ⟨p, q, r⟩ hpq
    replace hpq := List.mem_product.1 hpq
    obtain ⟨m2, m3⟩ := mem_pairsLt hpq.2
    have hp := hvmem p hpq.1
    have hq := hvmem q m2
    have hr' := hvmem r m3
    simp only
    by_cases hne : q = p ∨ r = p
    · rw [if_pos hne, if_neg]
      · simp
      · rintro ⟨⟨_, h⟩, _⟩
        exact h (.inr hne)
    · rw [if_neg hne]
      apply term_eq
      · exact key3_iff hr S p q r hp hq hr' [p, p, q, r] (by simp)
      · intro _ _
        rw [mom_zip3 hW _ p q r [p, p, q, r] (by omega) (by omega) (by omega)]
        intro F
        simp; ring
      · intro h1 h2
        have h3 : deltaP_QR d (els.getD p []) (els.getD q []) (els.getD r []) = true := by
          by_contra h3
          exact h1 ⟨by simpa using keyor_sum hS _ h2, fun h => h.elim h3 hne⟩
        exact deltaP_QR_mom hv p q r hp hq hr' h3
  have e5 : ((quadsLt valid).map fun t =>
      if ((orInd (orInd (orInd (normInd (els.getD t.1 [])) (normInd (els.getD t.2.1 [])))
        (normInd (els.getD t.2.2.1 []))) (normInd (els.getD t.2.2.2 []))).sum = order ∧
        deltaPQRS d (normalise (els.getD t.1 [])) (normalise (els.getD t.2.1 []))
          (normalise (els.getD t.2.2.1 [])) (normalise (els.getD t.2.2.2 [])) = false) ∧
        orInd (orInd (orInd (normInd (els.getD t.1 [])) (normInd (els.getD t.2.1 [])))
        (normInd (els.getD t.2.2.1 []))) (normInd (els.getD t.2.2.2 [])) = indicator d S then
        24 * dotW (List.zipWith (fun a b => a * b) (List.zipWith (fun a b => a * b)
          (List.zipWith (fun a b => a * b) (W.getD t.1 []) (W.getD t.2.1 []))
          (W.getD t.2.2.1 [])) (W.getD t.2.2.2 [])) wts / T
      else 0) = (quadsLt valid).map
        fun t => 24 * momOn els d wts W S [t.1, t.2.1, t.2.2.1, t.2.2.2] / T := by
    apply List.map_congr_left
    intro t ht
    obtain ⟨m1, m2, m3, m4⟩ := mem_quadsLt ht
    have h1 := hvmem _ m1
    have h2 := hvmem _ m2
    have h3 := hvmem _ m3
    have h4 := hvmem _ m4
    apply term_eq
    · exact key4_iff hr S _ _ _ _ h1 h2 h3 h4
    · intro _ _
      rw [mom_zip4 hW t.1 t.2.1 t.2.2.1 t.2.2.2 (by omega) (by omega) (by omega) (by omega)]
    · intro h5 h6
      have h7 : deltaPQRS d (normalise (els.getD t.1 [])) (normalise (els.getD t.2.1 []))
          (normalise (els.getD t.2.2.1 [])) (normalise (els.getD t.2.2.2 [])) = true := by
        by_contra h7
        exact h5 ⟨keyor_sum hS _ h6, by simpa using h7⟩
      exact deltaPQRS_mom hv _ _ _ _ h1 h2 h3 h4 h7
  rw [e1, e2, e3, e4, e5, sum_product valid valid
    (fun p q => 4 * (if p = q then 0 else momOn els d wts W S [p, p, p, q]) / T),
    sum_product valid (pairsLt valid) (fun p (u : ℕ × ℕ) => 12 * (if u.1 = p ∨ u.2 = p then 0 else
          momOn els d wts W S [p, p, u.1, u.2]) / T)]
  have r1 : (all.map fun i => 1 * momOn els d wts W S [i, i, i, i] / T).sum =
      (valid.map fun i => 1 * momOn els d wts W S [i, i, i, i] / T).sum := by
    apply hfz
    intro i hi hn
    rw [hz _ i hi (by simp) hn]; simp
  have zz : ∀ (l : List ℕ) (f : ℕ → ℝ), (∀ q, f q = 0) → (l.map f).sum = 0 := by
    intro l f h
    apply List.sum_eq_zero
    intro y hy
    obtain ⟨q, _, rfl⟩ := List.mem_map.1 hy
    exact h q
  have r2 : (all.map fun p => (all.map fun q => (all.map fun r => (all.map fun s =>
        momOn els d wts W S [p, q, r, s]).sum).sum).sum).sum =
      (valid.map fun p => (valid.map fun q => (valid.map fun r => (valid.map fun s =>
        momOn els d wts W S [p, q, r, s]).sum).sum).sum).sum := by
    rw [hfz _ fun i hi hn => zz _ _ fun q => zz _ _ fun r => zz _ _ fun s =>
      hz _ i hi (by simp) hn]
    congr 1; apply List.map_congr_left; intro p _
    rw [hfz _ fun i hi hn => zz _ _ fun r => zz _ _ fun s => hz _ i hi (by simp) hn]
    congr 1; apply List.map_congr_left; intro q _
    rw [hfz _ fun i hi hn => zz _ _ fun s => hz _ i hi (by simp) hn]
    congr 1; apply List.map_congr_left; intro r _
    rw [hfz _ fun i hi hn => hz _ i hi (by simp) hn]
  rw [r1, r2]
  have key := sum_quads (fun p q r s => momOn els d wts W S [p, q, r, s])
    (fun p q r s => momOn_perm _ _ _ _ _ (List.Perm.swap q p [r, s]))
    (fun p q r s => momOn_perm _ _ _ _ _ (List.Perm.cons p (List.Perm.swap r q [s])))
    (fun p q r s => momOn_perm _ _ _ _ _
      (List.Perm.cons p (List.Perm.cons q (List.Perm.swap s r []))))
    _ hvnd
  rw [key]
  simp only [one_mul, List.sum_map_mul_left, div_eq_mul_inv, List.sum_map_mul_right]
  ring

end

end EQ.Stats
