import Verif.Poly.FitProps
import Verif.Stats.Props
import Mathlib.Data.List.Sort
import Mathlib.Data.List.Infix

/-!
# The written summary of a polynomial: C161
-/

namespace EQ.Poly
open EQ.Basis EQ.Stats

/-! ## Model -/

/-- Python's `str.replace` with a non-empty pattern: scan from the left, `skip` characters of the last match still to be dropped. -/
def replaceGo (pat rep : List Char) : ℕ → List Char → List Char
  | _, [] => []
  | k + 1, _ :: l => replaceGo pat rep k l
  | 0, c :: l => if pat.isPrefixOf (c :: l) then rep ++ replaceGo pat rep (pat.length - 1) l else c :: replaceGo pat rep 0 l

/-- The two replacements under `tosay` (`poly.py:202-204`). -/
def toSay (t : List Char) : List Char :=
  replaceGo ['m', 'i', 'n', 'u', 's', '0'] ['m', 'i', 'n', 'u', 's'] 0 (replaceGo ['e', '-'] ['e', ' ', 'm', 'i', 'n', 'u', 's'] 0 t)

/-- The text `get_summary` writes (`poly.py:164-210`): the parameters, then the statistics of the cached object if there is one. `intro` is the first
part, `block` the statistics of the coefficients and parameters the cache was built from. Simplification: the r square of the block is computed from the
current coefficients; the file operations are left out. -/
def summaryText {C P : Type} (intro : P → List Char) (block : C × P → Except Err (List Char)) (s : Obj C P) (tosay : Bool) : Except Err (List Char) :=
  match s.stats with
  | none => .ok (intro s.params)
  | some t =>
    match block t with
    | .error e => .error e
    | .ok b => .ok (if tosay then toSay (intro s.params ++ b) else intro s.params ++ b)

/-- The parameter named as most important (`poly.py:196-199`): `np.argsort(...)[-1] + 1`. -/
def mostImportant (argsort : List ℝ → List ℕ) (totals : List ℝ) : Except Err ℕ :=
  match (argsort totals).getLast? with
  | none => .error .indexError
  | some i => .ok (i + 1)

/-! ## Specification -/

/-- The contract of `np.argsort`: a rearrangement of the positions under which the values ascend. -/
structure NpArgsort (argsort : List ℝ → List ℕ) : Prop where
  perm : ∀ l, (argsort l).Perm (List.range l.length)
  sorted : ∀ l, (argsort l).Pairwise fun i j => l.getD i 0 ≤ l.getD j 0

/-- The share of the variance in the rows that involve input `i`. -/
noncomputable def involvedShare (c : List ℝ) (els : List (List ℕ)) (v : ℝ) (i : ℕ) : ℝ :=
  ∑ j ∈ Finset.range els.length, if (els.getD j []).getD i 0 ≠ 0 then c.getD j 0 ^ 2 / v else 0

/-- A statistics query took place and nothing but queries after it. -/
def QueriedLast {C P : Type} (ops : List (Op C P)) : Prop := ∃ pre post, ops = pre ++ Op.query :: post ∧ ∀ o ∈ post, o = Op.query

/-! ## Properties -/

/-- C161. In two or more dimensions with non-zero variance the summary names a parameter (counted from one) that carries the largest share of the variance,
for every result `np.argsort` may return. -/
theorem c161_important (argsort : List ℝ → List ℕ) (ha : NpArgsort argsort) (c : List ℝ) (els : List (List ℕ)) (d : ℕ) (hd : 2 ≤ d)
    (h2 : 2 ≤ c.length) (hc : c.length = els.length) (hr : ∀ row ∈ els, row.length = d) (hz : els.head? = some (List.replicate d 0)) (v : ℝ)
    (hv : variance c = .ok v) (hv0 : v ≠ 0) :
    ∃ s T k, allSobol c els d none = .ok s ∧ getSobolTotal s d = .ok T ∧ mostImportant argsort T = .ok k ∧ 1 ≤ k ∧ k ≤ d ∧
      ∀ j < d, involvedShare c els v j ≤ involvedShare c els v (k - 1) := by
  obtain ⟨s, T, hs, hT, hlen, L, -, hi⟩ := c38_total c els d hd h2 hc hr hz v hv hv0
  have hp := ha.perm T
  have hne : argsort T ≠ [] := by
    intro h
    have := hp.length_eq
    rw [h, List.length_range, hlen] at this
    simp at this
    omega
  set k := (argsort T).getLast hne with hk
  have hkd : k < d := by
    have := hp.mem_iff.1 (List.getLast_mem hne)
    rw [List.mem_range, hlen] at this
    exact this
  refine ⟨s, T, k + 1, hs, hT, ?_, by omega, by omega, ?_⟩
  · simp only [mostImportant]
    rw [List.getLast?_eq_some_getLast hne]
  · intro j hj
    have hjm : j ∈ argsort T := hp.mem_iff.2 (by rw [List.mem_range, hlen]; exact hj)
    have hle : T.getD j 0 ≤ T.getD k 0 := by
      have hsplit := List.dropLast_append_getLast hne
      have hso := ha.sorted T
      rw [← hsplit, List.pairwise_append] at hso
      rw [← hsplit, List.mem_append] at hjm
      rcases hjm with h | h
      · exact hso.2.2 j h k (by simp [hk])
      · rw [List.mem_singleton.1 h]
    rw [(hi j hj).2.1, (hi k hkd).2.1] at hle
    exact hle

/-- C161, the part on statistics that holds: after any sequence of successful or failed fits and queries, the summary states statistics exactly if a
query took place since the last fit, and then those of the present coefficients and parameters; with `tosay`, the replacements of `c161_text` are made in this whole text. Missing: statistics right after a fit. -/
theorem c161_statistics_partial {C P : Type} (intro : P → List Char) (block : C × P → Except Err (List Char)) (c : C) (p : P) (ops : List (Op C P))
    (hops : ∀ o ∈ ops, o.clean) :
    let s := Obj.run ⟨c, p, none⟩ ops
    (QueriedLast ops → ∀ b, block (s.coeffs, s.params) = .ok b → summaryText intro block s false = .ok (intro s.params ++ b) ∧
      summaryText intro block s true = .ok (toSay (intro s.params ++ b))) ∧
    (¬ QueriedLast ops → ∀ tosay, summaryText intro block s tosay = .ok (intro s.params)) := by
  have key : ∀ ops : List (Op C P), (∀ o ∈ ops, o.clean) →
      (QueriedLast ops → (Obj.run ⟨c, p, none⟩ ops).stats = some ((Obj.run ⟨c, p, none⟩ ops).coeffs, (Obj.run ⟨c, p, none⟩ ops).params)) ∧
      (¬ QueriedLast ops → (Obj.run ⟨c, p, none⟩ ops).stats = none) := by
    intro ops
    induction ops using List.reverseRecOn with
    | nil =>
      intro _
      refine ⟨?_, fun _ => rfl⟩
      rintro ⟨pre, post, h, -⟩
      simp at h
    | append_singleton ops o ih =>
      intro hcl
      have ih' := ih fun o' ho' => hcl o' (by simp [ho'])
      have hrun : Obj.run ⟨c, p, none⟩ (ops ++ [o]) = ((Obj.run ⟨c, p, none⟩ ops).step o).1 := by simp [Obj.run]
      have hq : QueriedLast (ops ++ [o]) → o = .query := by
        rintro ⟨pre, post, h, hpost⟩
        rcases List.eq_nil_or_concat post with rfl | ⟨post', x, rfl⟩
        · exact ((List.append_inj' h rfl).2 |> List.cons.inj).1
        · have h' : ops ++ [o] = (pre ++ Op.query :: post') ++ [x] := by simpa using h
          have := (List.cons.inj (List.append_inj' h' rfl).2).1
          rw [this]
          exact hpost x (by simp)
      have ho := hcl o (by simp)
      rw [hrun]
      cases o with
      | query =>
        have hQ : QueriedLast (ops ++ [Op.query]) := ⟨ops, [], rfl, by simp⟩
        refine ⟨fun _ => ?_, fun h => absurd hQ h⟩
        by_cases h : QueriedLast ops
        · have := ih'.1 h
          simp [Obj.step, this]
        · have := ih'.2 h
          simp [Obj.step, this]
      | setModel c' => exact ⟨fun h => by simpa using hq h, fun _ => rfl⟩
      | setModelRaises => exact ⟨fun h => by simpa using hq h, fun _ => rfl⟩
      | setCoefficients c' => exact absurd ho (by simp [Op.clean])
      | setParameters p' => exact absurd ho (by simp [Op.clean])
  intro s
  obtain ⟨k1, k2⟩ := key ops hops
  constructor
  · intro hq b hb
    have := k1 hq
    simp only [summaryText]
    rw [show s.stats = some (s.coeffs, s.params) from this]
    simp only [hb]
    simp
  · intro hq tosay
    have := k2 hq
    simp only [summaryText]
    rw [show s.stats = none from this]

/-- C161 is false right after a fit: whatever happened before, the summary states no statistics. -/
theorem c161_fresh_violated {C P : Type} (intro : P → List Char) (block : C × P → Except Err (List Char)) (s : Obj C P) (c : C) (tosay : Bool) :
    summaryText intro block (s.step (.setModel c)).1 tosay = .ok (intro s.params) := rfl

theorem head_replaceGo (pat rep : List Char) (a : Char) (hrep : rep.head? ≠ some a) (hne : rep ≠ []) (l : List Char)
    (h : (replaceGo pat rep 0 l).head? = some a) : l.head? = some a := by
  cases l with
  | nil => simp [replaceGo] at h
  | cons c l =>
    rw [replaceGo] at h
    split at h
    · rw [List.head?_append_of_ne_nil _ hne] at h
      exact absurd h hrep
    · simpa using h

theorem no_exponent_first (l : List Char) : ∀ k, ¬ ['e', '-'] <:+: replaceGo ['e', '-'] ['e', ' ', 'm', 'i', 'n', 'u', 's'] k l := by
  induction l with
  | nil => intro k; cases k <;> simp [replaceGo]
  | cons c l ih =>
    intro k
    cases k with
    | succ k => exact ih k
    | zero =>
      rw [replaceGo]
      split
      · have := ih (['e', '-'].length - 1)
        simp only [List.cons_append, List.nil_append, List.infix_cons_iff, List.cons_prefix_cons, not_or]
        refine ⟨by simp, by simp, by simp, by simp, by simp, by simp, by simp, this⟩
      · next hn =>
        rw [List.infix_cons_iff, not_or]
        refine ⟨fun h => ?_, ih 0⟩
        rw [List.cons_prefix_cons] at h
        obtain ⟨rfl, h⟩ := h
        have hh : (replaceGo ['e', '-'] ['e', ' ', 'm', 'i', 'n', 'u', 's'] 0 l).head? = some '-' := by
          obtain ⟨t, ht⟩ := h
          rw [← ht]; rfl
        have := head_replaceGo _ _ '-' (by decide) (by simp) l hh
        cases l with
        | nil => simp at this
        | cons a l =>
          simp at this
          subst this
          simp at hn

theorem no_exponent_second (l : List Char) (hl : ¬ ['e', '-'] <:+: l) :
    ∀ k, ¬ ['e', '-'] <:+: replaceGo ['m', 'i', 'n', 'u', 's', '0'] ['m', 'i', 'n', 'u', 's'] k l := by
  induction l with
  | nil => intro k; cases k <;> simp [replaceGo]
  | cons c l ih =>
    rw [List.infix_cons_iff, not_or] at hl
    have ih := ih hl.2
    intro k
    cases k with
    | succ k => exact ih k
    | zero =>
      rw [replaceGo]
      split
      · have := ih (['m', 'i', 'n', 'u', 's', '0'].length - 1)
        simp only [List.cons_append, List.nil_append, List.infix_cons_iff, List.cons_prefix_cons, not_or]
        refine ⟨by simp, by simp, by simp, by simp, by simp, this⟩
      · rw [List.infix_cons_iff, not_or]
        refine ⟨fun h => ?_, ih 0⟩
        rw [List.cons_prefix_cons] at h
        obtain ⟨rfl, h⟩ := h
        have hh : (replaceGo ['m', 'i', 'n', 'u', 's', '0'] ['m', 'i', 'n', 'u', 's'] 0 l).head? = some '-' := by
          obtain ⟨t, ht⟩ := h
          rw [← ht]; rfl
        have := head_replaceGo _ _ '-' (by decide) (by simp) l hh
        cases l with
        | nil => simp at this
        | cons a l =>
          simp at this
          subst this
          simp at hl

/-- C161, the part on spoken signs that holds: no exponent keeps its sign, in any text. Missing: the signs of the numbers themselves. -/
theorem c161_spoken_partial (t : List Char) : ¬ ['e', '-'] <:+: toSay t :=
  no_exponent_second _ (no_exponent_first t 0) 0

theorem replaceGo_skip (pat rep : List Char) (k : ℕ) (l : List Char) : replaceGo pat rep k l = replaceGo pat rep 0 (l.drop k) := by
  induction k generalizing l with
  | zero => rfl
  | succ k ih =>
    cases l with
    | nil => simp [replaceGo]
    | cons c l => rw [replaceGo, ih, List.drop_succ_cons]

theorem replaceGo_id (pat rep l : List Char) (h : ¬ pat <:+: l) : replaceGo pat rep 0 l = l := by
  induction l with
  | nil => rfl
  | cons c l ih =>
    rw [List.infix_cons_iff, not_or] at h
    rw [replaceGo, if_neg (by rw [List.isPrefixOf_iff_prefix]; exact h.1), ih h.2]

theorem replaceGo_split (pat rep u v : List Char) (hne : pat ≠ []) (h : ¬ pat <:+: u ++ pat.dropLast) :
    replaceGo pat rep 0 (u ++ (pat ++ v)) = u ++ (rep ++ replaceGo pat rep 0 v) := by
  induction u with
  | nil =>
    cases pat with
    | nil => exact absurd rfl hne
    | cons c pat =>
      rw [List.nil_append, List.nil_append, List.cons_append, replaceGo, if_pos, replaceGo_skip]
      · simp
      · rw [List.isPrefixOf_iff_prefix, ← List.cons_append]
        exact List.prefix_append _ _
  | cons c u ih =>
    have hp : ¬ pat <+: c :: (u ++ (pat ++ v)) := by
      intro hp
      apply h
      have h2 : c :: u ++ pat.dropLast <+: c :: (u ++ (pat ++ v)) := by
        rw [List.cons_append, List.cons_prefix_cons]
        refine ⟨rfl, (List.prefix_append_right_inj u).2 ?_⟩
        exact (List.dropLast_prefix pat).trans (List.prefix_append _ _)
      refine (List.prefix_of_prefix_length_le hp h2 ?_).isInfix
      simp only [List.length_append, List.length_cons, List.length_dropLast]
      have := List.length_pos_iff.2 hne
      omega
    rw [List.cons_append, List.infix_cons_iff, not_or] at h
    rw [List.cons_append, replaceGo, if_neg (by rw [List.isPrefixOf_iff_prefix]; exact hp), ih h.2, List.cons_append]

theorem infix_of_last (pre u w : List Char) (z : Char) (hz : z ∉ w) (h : pre ++ [z] <:+: u ++ w) : pre ++ [z] <:+: u := by
  obtain ⟨s, t, h⟩ := h
  rw [List.append_eq_append_iff] at h
  rcases h with ⟨a, ha, -⟩ | ⟨a, ha, hw⟩
  · exact ⟨s, a, ha.symm⟩
  · rcases List.eq_nil_or_concat a with rfl | ⟨a', x, rfl⟩
    · rw [List.append_nil] at ha
      exact ⟨s, [], by simpa using ha⟩
    · exfalso
      rw [List.concat_eq_append, ← List.append_assoc, ← List.append_assoc] at ha
      have := (List.cons.inj (List.append_inj' ha rfl).2).1
      apply hz
      rw [hw, this]
      simp

/-- C161, on spoken text: words and numbers other than exponents are left as they are, and an exponent `e-05` or `e-12` becomes `e minus5` or
`e minus12`, wherever it stands. -/
theorem c161_text (u v : List Char) (hu : ¬ "e-".toList <:+: u) (hu' : ¬ "minus0".toList <:+: u) (hv : ¬ "e-".toList <:+: v)
    (hv' : ¬ "minus0".toList <:+: v) :
    toSay u = u ∧ toSay (u ++ ("e-0".toList ++ v)) = u ++ ("e minus".toList ++ v) ∧
    (v.head? ≠ some '0' → toSay (u ++ ("e-".toList ++ v)) = u ++ ("e minus".toList ++ v)) := by
  have hu : ¬ ['e', '-'] <:+: u := hu
  have hu' : ¬ ['m', 'i', 'n', 'u', 's', '0'] <:+: u := hu'
  have hv : ¬ ['e', '-'] <:+: v := hv
  have hv' : ¬ ['m', 'i', 'n', 'u', 's', '0'] <:+: v := hv'
  have h1 : ¬ ['e', '-'] <:+: u ++ ['e', '-'].dropLast := fun h => hu (infix_of_last ['e'] u ['e'] '-' (by simp) h)
  have h0 : ¬ ['e', '-'] <:+: '0' :: v := by
    rw [List.infix_cons_iff, not_or]
    exact ⟨by simp, hv⟩
  refine ⟨?_, ?_, fun hh => ?_⟩
  · rw [toSay, replaceGo_id _ _ u hu, replaceGo_id _ _ u hu']
  · change toSay (u ++ (['e', '-'] ++ '0' :: v)) = u ++ (['e', ' ', 'm', 'i', 'n', 'u', 's'] ++ v)
    rw [toSay, replaceGo_split _ _ u _ (by simp) h1, replaceGo_id _ _ _ h0]
    have e : u ++ (['e', ' ', 'm', 'i', 'n', 'u', 's'] ++ '0' :: v) = (u ++ ['e', ' ']) ++ (['m', 'i', 'n', 'u', 's', '0'] ++ v) := by simp
    rw [e, replaceGo_split _ _ _ _ (by simp), replaceGo_id _ _ v hv']
    · simp
    · intro h
      apply hu'
      apply infix_of_last ['m', 'i', 'n', 'u', 's'] u (['e', ' '] ++ ['m', 'i', 'n', 'u', 's']) '0' (by simp)
      simpa using h
  · change toSay (u ++ (['e', '-'] ++ v)) = u ++ (['e', ' ', 'm', 'i', 'n', 'u', 's'] ++ v)
    rw [toSay, replaceGo_split _ _ u _ (by simp) h1, replaceGo_id _ _ _ hv]
    apply replaceGo_id
    intro hin
    have hX : ¬ ['m', 'i', 'n', 'u', 's', '0'] <:+: u ++ ['e', ' ', 'm', 'i', 'n', 'u', 's'] := fun h =>
      hu' (infix_of_last ['m', 'i', 'n', 'u', 's'] u _ '0' (by simp) h)
    rw [← List.append_assoc] at hin
    obtain ⟨s, t, h⟩ := hin
    rw [List.append_eq_append_iff] at h
    rcases h with ⟨a, ha, -⟩ | ⟨a, ha, hva⟩
    · exact hX ⟨s, a, ha.symm⟩
    · rw [List.append_eq_append_iff] at ha
      rcases ha with ⟨b, hb, hpat⟩ | ⟨b, -, hb⟩
      · have hbl : b = [] ∨ b.getLast? = some 's' := by
          rcases List.eq_nil_or_concat b with rfl | ⟨b', x, rfl⟩
          · exact Or.inl rfl
          · right
            have hb' : (u ++ ['e', ' ', 'm', 'i', 'n', 'u']) ++ ['s'] = (s ++ b') ++ [x] := by simpa using hb
            have := (List.cons.inj (List.append_inj' hb' rfl).2).1
            rw [← this]
            simp
        have hbt : b = ['m', 'i', 'n', 'u', 's', '0'].take b.length := by rw [hpat]; simp
        have hat : a = ['m', 'i', 'n', 'u', 's', '0'].drop b.length := by rw [hpat]; simp
        have hlen : b.length ≤ 6 := by have := congrArg List.length hpat; simp at this; omega
        generalize b.length = n at hbt hat hlen
        subst hbt hat
        interval_cases n
        · exact hv' ⟨[], t, by simpa using hva.symm⟩
        all_goals first
          | (simp at hbl; done)
          | (apply hh; rw [hva]; rfl)
      · exact hv' ⟨b, t, by rw [hva, hb]⟩

/-- C161 is false for the signs of the numbers: a text without exponents keeps every `-`, so a negative mean is written as without `tosay`; and before a
statistics query nothing is replaced at all. -/
theorem c161_sign_violated {C P : Type} (intro : P → List Char) (block : C × P → Except Err (List Char)) (c : C) (p : P) :
    toSay "The mean is estimated to be -3 while the variance is 2.".toList = "The mean is estimated to be -3 while the variance is 2.".toList ∧
    summaryText intro block ⟨c, p, none⟩ true = summaryText intro block ⟨c, p, none⟩ false := by
  refine ⟨?_, rfl⟩
  decide

/-- Non-vacuity of C161: a sorting routine that meets the contract. -/
example : NpArgsort fun l => (List.range l.length).insertionSort fun i j => l.getD i 0 ≤ l.getD j 0 where
  perm l := List.perm_insertionSort _ _
  sorted l := by
    have : Std.Total (fun i j : ℕ => l.getD i 0 ≤ l.getD j 0) := ⟨fun i j => le_total _ _⟩
    have : IsTrans ℕ (fun i j : ℕ => l.getD i 0 ≤ l.getD j 0) := ⟨fun i j k => le_trans⟩
    exact List.pairwise_insertionSort _ _

/-- A history with a query since the last fit, and a text with an exponent. -/
example : QueriedLast ([.setModel 1, .query, .query] : List (Op ℕ ℕ)) ∧ (∀ o ∈ ([.setModel 1, .query, .query] : List (Op ℕ ℕ)), o.clean) ∧
    toSay "1e-05".toList = "1e minus5".toList :=
  ⟨⟨[.setModel 1], [.query], rfl, by simp⟩, by simp [Op.clean], by decide⟩

/-- A text with an exponent in it meets the hypotheses of `c161_text`. -/
example : toSay ("variance is ".toList ++ ("e-0".toList ++ "5.".toList)) = "variance is e minus5.".toList :=
  (c161_text "variance is ".toList "5.".toList (by decide) (by decide) (by decide) (by decide)).2.1

end EQ.Poly
