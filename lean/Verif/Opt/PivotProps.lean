import Verif.Opt.Lemmas

/-!
# C120: the choice of points in `_LU_pivoting`
-/

namespace EQ.Opt
open EQ.Basis

variable {n : ℕ}

theorem argmax_spec (l : List ℝ) (h : l ≠ []) : ∀ b ∈ l, b ≤ l.getD (argmax l) 0 := by
  intro b hb
  obtain ⟨h1, h2⟩ := argmin_spec (l.map fun a => -a) (by simpa using h)
  have h3 := h2 (-b) (List.mem_map.2 ⟨b, hb, rfl⟩)
  have hl := argmax_lt l h
  have e : (l.map fun a => -a).getD (argmin (l.map fun a => -a)) 0 = -l.getD (argmax l) 0 := by
    show (l.map fun a => -a).getD (argmax l) 0 = _
    rw [List.getD_eq_getElem?_getD, List.getD_eq_getElem?_getD, List.getElem?_map, List.getElem?_eq_getElem hl]
    rfl
  rw [e] at h3
  linarith

/-- The size of the pivot polynomial with coefficients `v` at `x`. -/
noncomputable def pivot (q : ℕ) (φ : Pt n → ℕ → ℝ) (v : ℕ → ℝ) (x : Pt n) : ℝ :=
  |∑ j ∈ Finset.range q, v j * φ x j|

theorem abs_dot (q : ℕ) (φ : Pt n → ℕ → ℝ) (v : ℕ → ℝ) (x : Pt n) : |dot q v (φ x)| = pivot q φ v x := by
  unfold dot pivot
  congr 1

/-- C120. Every step of the pivoting adds one point to the sample set. No point at hand is passed over: the size of the
pivot polynomial at the point added is at least that at every point at hand. Either the point added was at hand, and it is
taken with its own value, the other points stay at hand and the function is not called; or it is new, it beats every point
at hand strictly, and the points at hand stay. -/
theorem c120_choice (cfg : Cfg n) (env : Env n) (obj : Pt n → ℝ) (method : LUMethod) (psi2 : ℝ) (q : ℕ)
    (φ : Pt n → ℕ → ℝ) (a : LU n) (hl : a.hatF.length = a.hatS.length) (k : ℕ) (b : LU n)
    (hb : luStep cfg env obj method psi2 q φ a k = b) :
    ∃ x, b.S = a.S ++ [x] ∧ (∀ y ∈ a.hatS, pivot q φ (luV a.U k) y ≤ pivot q φ (luV a.U k) x) ∧
      ((∃ i, a.hatS[i]? = some x ∧ a.hatF[i]? = b.f.getLast? ∧ b.hatS = a.hatS.eraseIdx i ∧
          b.hatF = a.hatF.eraseIdx i ∧ b.st = a.st) ∨
        ((∀ y ∈ a.hatS, pivot q φ (luV a.U k) y < pivot q φ (luV a.U k) x) ∧ b.hatS = a.hatS ∧ b.hatF = a.hatF ∧
          x = choosePoint cfg env a.st q φ (luV a.U k) a.S)) := by
  simp only [luStep] at hb
  have hbest : a.hatS ≠ [] → ∀ y ∈ a.hatS, pivot q φ (luV a.U k) y ≤
      (a.hatS.map fun x => |dot q (luV a.U k) (φ x)|).getD (argmax (a.hatS.map fun x => |dot q (luV a.U k) (φ x)|)) 0 := by
    intro hne y hy
    exact argmax_spec _ (by simpa using hne) _ (List.mem_map.2 ⟨y, hy, abs_dot q φ _ y⟩)
  have hidx : a.hatS ≠ [] → argmax (a.hatS.map fun x => |dot q (luV a.U k) (φ x)|) < a.hatS.length := by
    intro hne
    have := argmax_lt (a.hatS.map fun x => |dot q (luV a.U k) (φ x)|) (by simpa using hne)
    simpa using this
  generalize hi : argmax (a.hatS.map fun x => |dot q (luV a.U k) (φ x)|) = i at hb hbest hidx
  have hpick : a.hatS ≠ [] → b = luPick q φ a k i → ∃ x, b.S = a.S ++ [x] ∧
      (∀ y ∈ a.hatS, pivot q φ (luV a.U k) y ≤ pivot q φ (luV a.U k) x) ∧
      ((∃ i, a.hatS[i]? = some x ∧ a.hatF[i]? = b.f.getLast? ∧ b.hatS = a.hatS.eraseIdx i ∧
          b.hatF = a.hatF.eraseIdx i ∧ b.st = a.st) ∨
        ((∀ y ∈ a.hatS, pivot q φ (luV a.U k) y < pivot q φ (luV a.U k) x) ∧ b.hatS = a.hatS ∧ b.hatF = a.hatF ∧
          x = choosePoint cfg env a.st q φ (luV a.U k) a.S)) := by
    rintro hne rfl
    have hli := hidx hne
    have e1 : a.hatS.getD i a.st.sOld = a.hatS[i] := by
      rw [List.getD_eq_getElem?_getD, List.getElem?_eq_getElem hli]; rfl
    refine ⟨a.hatS[i], by simp only [luPick, e1], fun y hy => ?_, .inl ⟨i, List.getElem?_eq_getElem hli, ?_, rfl, rfl, rfl⟩⟩
    · refine (hbest hne y hy).trans (le_of_eq ?_)
      rw [List.getD_eq_getElem?_getD, List.getElem?_map, List.getElem?_eq_getElem hli]
      exact abs_dot q φ _ _
    · simp only [luPick, List.getLast?_append, List.getLast?_singleton, Option.some_or]
      rw [List.getD_eq_getElem?_getD, List.getElem?_eq_getElem (by omega)]
      rfl
  by_cases h1 : luFlag method psi2 q k a.hatF ((a.hatS.map fun x => |dot q (luV a.U k) (φ x)|).getD i 0) = true
  · rw [if_pos h1] at hb
    refine hpick ?_ hb.symm
    rintro h0
    have : a.hatF = [] := List.length_eq_zero_iff.1 (by rw [hl, h0]; rfl)
    simp [luFlag, this] at h1
  · rw [if_neg h1] at hb
    by_cases h2 : a.hatF.length > 0 ∧ (a.hatS.map fun x => |dot q (luV a.U k) (φ x)|).getD i 0 ≥
        |dot q (luV a.U k) (φ (choosePoint cfg env a.st q φ (luV a.U k) a.S))|
    · rw [if_pos h2] at hb
      refine hpick ?_ hb.symm
      rintro h0
      rw [hl, h0] at h2
      exact absurd h2.1 (by simp)
    · rw [if_neg h2] at hb
      subst hb
      have hlt : ∀ y ∈ a.hatS, pivot q φ (luV a.U k) y <
          pivot q φ (luV a.U k) (choosePoint cfg env a.st q φ (luV a.U k) a.S) := by
        intro y hy
        push Not at h2
        rw [← abs_dot]
        rw [← abs_dot]
        refine lt_of_le_of_lt ?_ (h2 (by rw [hl]; exact List.length_pos_of_mem hy))
        have := hbest (List.ne_nil_of_mem hy) y hy
        rwa [← abs_dot] at this
      exact ⟨_, rfl, fun y hy => (hlt y hy).le, .inr ⟨hlt, rfl, rfl, rfl⟩⟩

/-- Two points at hand in one variable, linear basis functions: the further one is taken. -/
example (cfg : Cfg 1) (env : Env 1) (obj : Pt 1 → ℝ) (st : St 1) :
    ∃ x, (luStep cfg env obj .replace (1/4) 2 (fun x k => x 0 ^ k)
        ⟨st, [fun _ => 0], [0], [fun _ => 1, fun _ => 2], [5, 6], [fun k => 0 ^ k]⟩ 1).S = [fun _ => 0, x] ∧
      2 ≤ |x 0| := by
  obtain ⟨x, h1, h2, -⟩ := c120_choice cfg env obj .replace (1/4) 2 (fun x k => x 0 ^ k)
    ⟨st, [fun _ => 0], [0], [fun _ => 1, fun _ => 2], [5, 6], [fun k => 0 ^ k]⟩ rfl 1 _ rfl
  refine ⟨x, h1, ?_⟩
  have := h2 (fun _ => 2) (by simp)
  simpa [pivot, Finset.sum_range_succ, luV] using this

/-- `np.argsort`: the numbers of the entries in the order of the entries. -/
structure SortOK (argsort : List ℝ → List ℕ) : Prop where
  perm : ∀ l, (argsort l).Perm (List.range l.length)
  sorted : ∀ l, (argsort l).Pairwise fun i j => l.getD i 0 ≤ l.getD j 0

/-- Sorting does what is asked. -/
theorem sortOK_mergeSort : SortOK fun l => (List.range l.length).mergeSort fun i j => decide (l.getD i 0 ≤ l.getD j 0) where
  perm l := List.mergeSort_perm _ _
  sorted l := by
    have := List.pairwise_mergeSort (le := fun i j => decide (l.getD i 0 ≤ l.getD j 0))
      (fun a b c h1 h2 => by simp only [decide_eq_true_eq] at *; linarith)
      (fun a b => by simp only [Bool.or_eq_true, decide_eq_true_eq]; exact le_total _ _) (List.range l.length)
    exact this.imp fun h => by simpa using h

/-- C120. The new point tried when the search fails or repeats a point of the set: if some point of the set generated
around the incumbent is not yet in the sample set, then the point tried is one of these, with the largest size of the
pivot polynomial. -/
theorem c120_alternative (cfg : Cfg n) (env : Env n) (hs : SortOK env.argsort) (st : St n) (q : ℕ) (φ : Pt n → ℕ → ℝ)
    (v : ℕ → ℝ) (S : List (Pt n)) (y : Pt n) (hy : y ∈ generateSet cfg env st ((n + 1) * (n + 2) / 2))
    (hf : fresh S y = true) :
    altPoint cfg env st q φ v S ∈ generateSet cfg env st ((n + 1) * (n + 2) / 2) ∧
    fresh S (altPoint cfg env st q φ v S) = true ∧ pivot q φ v y ≤ pivot q φ v (altPoint cfg env st q φ v S) := by
  unfold altPoint
  simp only
  generalize generateSet cfg env st ((n + 1) * (n + 2) / 2) = T at hy ⊢
  have hperm := hs.perm (T.map fun x => |dot q v (φ x)|)
  have hsort := hs.sorted (T.map fun x => |dot q v (φ x)|)
  generalize env.argsort (T.map fun x => |dot q v (φ x)|) = A at hperm hsort ⊢
  rw [List.length_map] at hperm
  have hmem : ∀ x, x ∈ (A.reverse.filterMap fun i => T[i]?) ↔ x ∈ T := by
    intro x
    rw [List.mem_filterMap]
    constructor
    · rintro ⟨i, -, hi⟩
      exact List.mem_of_getElem? hi
    · intro hx
      obtain ⟨i, hi, rfl⟩ := List.mem_iff_getElem.1 hx
      exact ⟨i, by rw [List.mem_reverse, hperm.mem_iff]; simpa using hi, List.getElem?_eq_getElem hi⟩
  have hdesc : (A.reverse.filterMap fun i => T[i]?).Pairwise fun x z => pivot q φ v z ≤ pivot q φ v x := by
    rw [List.pairwise_filterMap]
    rw [List.pairwise_reverse]
    refine hsort.imp ?_
    intro i j hij x hx z hz
    have ex : ∀ (i : ℕ) x, T[i]? = some x → (T.map fun x => |dot q v (φ x)|).getD i 0 = pivot q φ v x := by
      intro i x hx
      rw [List.getD_eq_getElem?_getD, List.getElem?_map, hx]
      exact abs_dot q φ v x
    rw [ex i z hz, ex j x hx] at hij
    exact hij
  cases hfind : (A.reverse.filterMap fun i => T[i]?).find? (fresh S) with
  | none =>
    rw [List.find?_eq_none] at hfind
    exact absurd hf (hfind y ((hmem y).2 hy))
  | some x =>
    simp only
    refine ⟨(hmem x).1 (List.mem_of_find?_eq_some hfind), List.find?_some hfind, ?_⟩
    obtain ⟨-, as, bs, hab, has⟩ := List.find?_eq_some_iff_append.1 hfind
    have hy' := (hmem y).2 hy
    rw [hab] at hy' hdesc
    rcases List.mem_append.1 hy' with hya | hyb
    · have := has y hya
      rw [hf] at this
      exact absurd this (by simp)
    · rcases List.mem_cons.1 hyb with rfl | hyb
      · exact le_refl _
      · have := (List.pairwise_append.1 hdesc).2.1
        exact (List.pairwise_cons.1 this).1 y hyb

/-- The generated set always contains the incumbent; if that is not in the sample set, the alternative is as good. -/
example (cfg : Cfg 2) (e : Env 2) (st : St 2) (φ : Pt 2 → ℕ → ℝ) (v : ℕ → ℝ) (env : Env 2)
    (he : env = { e with argsort := fun l => (List.range l.length).mergeSort fun i j => decide (l.getD i 0 ≤ l.getD j 0) }) :
    pivot 6 φ v st.sOld ≤ pivot 6 φ v (altPoint cfg env st 6 φ v []) :=
  (c120_alternative cfg env (by rw [he]; exact sortOK_mergeSort) st 6 φ v [] st.sOld (by simp [generateSet]) (by simp [fresh])).2.2

end EQ.Opt
