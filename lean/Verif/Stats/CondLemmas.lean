import Verif.Stats.MomentProps

/-!
# Lemmas on conditional skewness and kurtosis
-/

namespace EQ.Stats
open EQ.Basis EQ.Param EQ.Poly EQ.Sampling EQ.Sampling.Spec EQ.Poly.Spec EQ.Stats.Spec

/-! ## 0/1 tuples -/

open Classical in
/-- The 0/1 tuple of a predicate. -/
noncomputable def ind (d : ℕ) (P : ℕ → Prop) : List ℕ :=
  (List.range d).map fun k => if P k then 1 else 0

theorem ind_length (d : ℕ) (P : ℕ → Prop) : (ind d P).length = d := by simp [ind]

theorem ind_eq_iff (d : ℕ) (P Q : ℕ → Prop) : ind d P = ind d Q ↔ ∀ k < d, P k ↔ Q k := by
  classical
  constructor
  · intro h k hk
    have := congrArg (fun l => l.getD k 7) h
    simp only [ind] at this
    rw [getD_map' _ _ _ _ (by simpa using hk), getD_map' _ _ _ _ (by simpa using hk)] at this
    simp only [List.getElem_range] at this
    by_cases h1 : P k <;> by_cases h2 : Q k <;> simp_all
  · intro h
    apply List.map_congr_left
    intro k hk
    rw [List.mem_range] at hk
    simp only [h k hk]

theorem ind_sum_le (d : ℕ) (P Q : ℕ → Prop) (h : ∀ k, P k → Q k) :
    (ind d P).sum ≤ (ind d Q).sum := by
  classical
  apply List.sum_le_sum
  intro k _
  by_cases h1 : P k
  · simp [h1, h k h1]
  · simp [h1]

theorem normInd_eq (d : ℕ) (row : List ℕ) (h : row.length = d) :
    normInd row = ind d fun k => row.getD k 0 ≠ 0 := by
  subst h
  unfold normInd ind
  rw [map_eq_range row 0]
  apply List.map_congr_left
  intro k _
  simp [Nat.pos_iff_ne_zero]

theorem orInd_eq (d : ℕ) (P Q : ℕ → Prop) :
    orInd (ind d P) (ind d Q) = ind d fun k => P k ∨ Q k := by
  classical
  unfold orInd ind
  apply List.ext_getElem
  · simp
  · intro i h1 h2
    simp only [List.getElem_zipWith, List.getElem_map, List.getElem_range]
    by_cases hp : P i <;> by_cases hq : Q i <;> simp [hp, hq]

theorem indicator_eq (d : ℕ) (S : List ℕ) : indicator d S = ind d fun k => k ∈ S := by
  unfold indicator ind
  apply List.map_congr_left
  intro k _
  by_cases h : k ∈ S <;> simp [h]

theorem indicator_sum (d : ℕ) (S : List ℕ) (hS : S.Sublist (List.range d)) :
    (indicator d S).sum = S.length := by
  have h1 : (indicator d S).sum = ((List.range d).filter fun k => k ∈ S).length := by
    unfold indicator
    generalize List.range d = l
    induction l with
    | nil => rfl
    | cons a l ih =>
      by_cases h : a ∈ S
      · simp [h, ih]; omega
      · simp [h, ih]
  rw [h1]
  congr 1
  apply sublist_range_ext List.filter_sublist hS
  intro k
  rw [List.mem_filter]
  simp only [decide_eq_true_eq, and_iff_right_iff_imp]
  exact fun h => hS.subset h

theorem nonzero_indicator (d : ℕ) (S : List ℕ) (hS : S.Sublist (List.range d)) :
    nonzero (indicator d S) = S := by
  have hl : (indicator d S).length = d := by simp [indicator]
  rw [nonzero_eq_iff hl hS]
  intro k hk
  unfold indicator
  rw [getD_map' _ _ _ _ (by simpa using hk)]
  simp

/-! ## Moments of basis terms -/

/-- `Σ_j w_j Π_{i ∈ is} W_i(x_j)`. -/
noncomputable def mom (wts : List ℝ) (W : List (List ℝ)) (is : List ℕ) : ℝ :=
  ∑ j ∈ Finset.range wts.length, wts.getD j 0 * (is.map fun i => (W.getD i []).getD j 0).prod

theorem mom_perm (wts : List ℝ) (W : List (List ℝ)) {is js : List ℕ} (h : is.Perm js) :
    mom wts W is = mom wts W js := by
  unfold mom
  apply Finset.sum_congr rfl
  intro j _
  rw [(h.map _).prod_eq]

section
variable {wts : List ℝ} {W : List (List ℝ)} (hW : ∀ i < W.length, (W.getD i []).length = wts.length)
include hW

omit hW in
theorem dotW_eq_sum (v : List ℝ) (hv : v.length = wts.length) :
    dotW v wts = ∑ j ∈ Finset.range wts.length, wts.getD j 0 * v.getD j 0 := by
  unfold dotW
  rw [zipWith_sum _ _ _ 0 0 hv, hv]
  exact Finset.sum_congr rfl fun j _ => mul_comm _ _

theorem row_getD (i j : ℕ) (hi : i < W.length) (hj : j < wts.length) :
    (W.getD i []).getD j 0 = (W.getD i [])[j]'(by rw [hW i hi]; exact hj) :=
  getD_of_lt _ _ _ _

theorem mom_pow (k i : ℕ) (hi : i < W.length) :
    dotW ((W.getD i []).map (· ^ k)) wts = mom wts W (List.replicate k i) := by
  rw [dotW_eq_sum _ (by rw [List.length_map, hW i hi])]
  unfold mom
  apply Finset.sum_congr rfl
  intro j hj
  rw [Finset.mem_range] at hj
  congr 1
  rw [getD_map' _ _ _ _ (by rw [hW i hi]; exact hj), List.map_replicate, List.prod_replicate,
    row_getD hW i j hi hj]

theorem mom_zip2 (g : ℝ → ℝ → ℝ) (p q : ℕ) (is : List ℕ) (hp : p < W.length) (hq : q < W.length)
    (h : ∀ a b : ℝ, ∀ F : ℕ → ℝ, F p = a → F q = b → g a b = (is.map F).prod) :
    dotW (List.zipWith g (W.getD p []) (W.getD q [])) wts = mom wts W is := by
  rw [dotW_eq_sum _ (by rw [List.length_zipWith, hW p hp, hW q hq, min_self])]
  unfold mom
  apply Finset.sum_congr rfl
  intro j hj
  rw [Finset.mem_range] at hj
  congr 1
  rw [getD_of_lt _ _ _ (by rw [List.length_zipWith, hW p hp, hW q hq, min_self]; exact hj),
    List.getElem_zipWith]
  apply h
  · exact row_getD hW p j hp hj
  · exact row_getD hW q j hq hj

theorem mom_zip3 (g : ℝ → ℝ → ℝ) (p q r : ℕ) (is : List ℕ) (hp : p < W.length)
    (hq : q < W.length) (hr : r < W.length)
    (h : ∀ F : ℕ → ℝ, g (F p) (F q) * F r = (is.map F).prod) :
    dotW (List.zipWith (fun a b => a * b) (List.zipWith g (W.getD p []) (W.getD q []))
      (W.getD r [])) wts = mom wts W is := by
  have hl : (List.zipWith g (W.getD p []) (W.getD q [])).length = wts.length := by
    rw [List.length_zipWith, hW p hp, hW q hq, min_self]
  rw [dotW_eq_sum _ (by rw [List.length_zipWith, hl, hW r hr, min_self])]
  unfold mom
  apply Finset.sum_congr rfl
  intro j hj
  rw [Finset.mem_range] at hj
  congr 1
  rw [getD_of_lt _ _ _ (by rw [List.length_zipWith, hl, hW r hr, min_self]; exact hj),
    List.getElem_zipWith, List.getElem_zipWith, ← h]
  rw [row_getD hW p j hp hj, row_getD hW q j hq hj, row_getD hW r j hr hj]

theorem mom_zip4 (p q r s : ℕ) (hp : p < W.length)
    (hq : q < W.length) (hr : r < W.length) (hs : s < W.length) :
    dotW (List.zipWith (fun a b => a * b) (List.zipWith (fun a b => a * b)
      (List.zipWith (fun a b => a * b) (W.getD p []) (W.getD q []))
      (W.getD r [])) (W.getD s [])) wts = mom wts W [p, q, r, s] := by
  have hl : (List.zipWith (fun a b => a * b) (List.zipWith (fun a b : ℝ => a * b) (W.getD p [])
      (W.getD q [])) (W.getD r [])).length = wts.length := by
    simp only [List.length_zipWith, hW p hp, hW q hq, hW r hr, min_self]
  rw [dotW_eq_sum _ (by rw [List.length_zipWith, hl, hW s hs, min_self])]
  unfold mom
  apply Finset.sum_congr rfl
  intro j hj
  rw [Finset.mem_range] at hj
  congr 1
  rw [getD_of_lt _ _ _ (by rw [List.length_zipWith, hl, hW s hs, min_self]; exact hj)]
  simp only [List.getElem_zipWith, List.map_cons, List.map_nil, List.prod_cons, List.prod_nil]
  rw [row_getD hW p j hp hj, row_getD hW q j hq hj, row_getD hW r j hr hj, row_getD hW s j hs hj]
  ring

end

/-! ## The array normalised in place -/

theorem normalise_getD (row : List ℕ) (k : ℕ) :
    (normalise row).getD k 0 = if row.getD k 0 ≠ 0 then 1 else 0 := by
  unfold normalise
  by_cases hk : k < row.length
  · rw [getD_map' _ _ _ _ hk, getD_of_lt _ _ _ hk]
    by_cases h : row[k] = 0 <;> simp [h]
  · rw [List.getD_eq_default _ _ (by simpa using hk), List.getD_eq_default _ _ (by omega)]
    simp

theorem normalise_idem (row : List ℕ) : normalise (normalise row) = normalise row := by
  unfold normalise
  rw [List.map_map]
  apply List.map_congr_left
  intro n _
  by_cases h : n = 0 <;> simp [h]

theorem modify_getD (l : List (List ℕ)) (i j : ℕ) :
    normalise ((l.modify i normalise).getD j []) = normalise (l.getD j []) ∧
    (j = i → (l.modify i normalise).getD j [] = normalise (l.getD j [])) ∧
    (j ≠ i → (l.modify i normalise).getD j [] = l.getD j []) := by
  simp only [List.getD_eq_getElem?_getD, List.getElem?_modify]
  by_cases h : i = j
  · subst h
    cases l[i]? with
    | none => simp [normalise]
    | some r => simp [normalise_idem]
  · simp [h, Ne.symm h]

theorem normaliseAt_getD (is : List ℕ) : ∀ (temp : List (List ℕ)) (j : ℕ),
    normalise ((normaliseAt temp is).getD j []) = normalise (temp.getD j []) ∧
    (j ∈ is → (normaliseAt temp is).getD j [] = normalise (temp.getD j [])) := by
  unfold normaliseAt
  induction is with
  | nil => simp
  | cons i is ih =>
    intro temp j
    rw [List.foldl_cons]
    obtain ⟨h1, h2⟩ := ih (temp.modify i normalise) j
    obtain ⟨m1, m2, m3⟩ := modify_getD temp i j
    refine ⟨h1.trans m1, fun hj => ?_⟩
    by_cases hji : j ∈ is
    · rw [h2 hji, m1]
    · have hj' : j = i := by simpa [hji] using hj
      -- not touched again
      have h3 : ∀ (is : List ℕ) (t : List (List ℕ)), j ∉ is →
          (is.foldl (fun t i => t.modify i normalise) t).getD j [] = t.getD j [] := by
        intro is
        induction is with
        | nil => simp
        | cons a is ih =>
          intro t ha
          rw [List.mem_cons, not_or] at ha
          rw [List.foldl_cons, ih _ ha.2, (modify_getD t a j).2.2 ha.1]
      rw [h3 is _ hji, m2 hj']

/-- A loop that carries the array: the decisions depend only on the zero pattern of the rows. -/
theorem foldl_state {τ : Type} (l : List τ) (els : List (List ℕ)) (key : τ → List ℕ)
    (v : τ → ℝ) (order : ℕ) (idx : τ → List ℕ) (test : List (List ℕ) → τ → Bool)
    (test' : τ → Bool)
    (ht : ∀ temp t, (∀ j ∈ idx t, temp.getD j [] = normalise (els.getD j [])) →
      test temp t = test' t)
    (D : Dict) (temp : List (List ℕ))
    (hinv : ∀ j, normalise (temp.getD j []) = normalise (els.getD j [])) (k : List ℕ) :
    (l.foldl (fun (Dt : Dict × List (List ℕ)) t =>
      if (key t).sum ≠ order then Dt
      else
        if test (normaliseAt Dt.2 (idx t)) t then (Dt.1, normaliseAt Dt.2 (idx t))
        else (addAt Dt.1 (key t) (v t), normaliseAt Dt.2 (idx t))) (D, temp)).1 k =
    D k + (l.map fun t => if ((key t).sum = order ∧ test' t = false) ∧ key t = k then v t
      else 0).sum := by
  induction l generalizing D temp with
  | nil => simp
  | cons t l ih =>
    rw [List.foldl_cons, List.map_cons, List.sum_cons]
    have hn := normaliseAt_getD (idx t) temp
    have hinv' : ∀ j, normalise ((normaliseAt temp (idx t)).getD j []) =
        normalise (els.getD j []) := fun j => (hn j).1.trans (hinv j)
    have htt : test (normaliseAt temp (idx t)) t = test' t :=
      ht _ t fun j hj => ((hn j).2 hj).trans (hinv j)
    by_cases h1 : (key t).sum = order
    · rw [if_neg (by simpa using h1)]
      simp only [htt]
      cases h2 : test' t with
      | true =>
        rw [if_pos rfl, ih _ _ hinv']
        simp
      | false =>
        rw [if_neg (by simp), ih _ _ hinv']
        unfold addAt
        by_cases hk : key t = k
        · subst hk
          rw [Function.update_self]
          simp [h1]
          ring
        · rw [Function.update_of_ne (Ne.symm hk)]
          simp [hk]
    · rw [if_pos h1, ih _ _ hinv]
      simp [h1]

end EQ.Stats
