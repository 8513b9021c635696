import Verif.Tree.OutputProps

/-!
# A tree does not depend on the order of the samples (C192)
-/

namespace EQ.Tree
open EQ.Basis EQ.Param EQ.Sampling EQ.Poly EQ.Sub MvPolynomial

variable {d : ℕ}

/-! ## Specification -/

/-- The same samples (points with their outputs), perhaps in another order. -/
def Same (D D' : Data d) : Prop := D.X.length = D.y.length ∧ D'.X.length = D'.y.length ∧ (D.X.zip D.y).Perm (D'.X.zip D'.y)

/-- A way to fit that does not depend on the order of the samples, for the data in `G`. -/
def Orderless (G : Data d → Prop) (fit : Fit d) : Prop := ∀ D D' : Data d, G D → Same D D' → fit D' = fit D

/-! ## Data -/

theorem Same.X {D D' : Data d} (h : Same D D') : D.X.Perm D'.X := by
  have := h.2.2.map Prod.fst
  rwa [List.map_fst_zip h.1.le, List.map_fst_zip h.2.1.le] at this

theorem Same.y {D D' : Data d} (h : Same D D') : D.y.Perm D'.y := by
  have := h.2.2.map Prod.snd
  rwa [List.map_snd_zip h.1.ge, List.map_snd_zip h.2.1.ge] at this

theorem Same.split {D D' : Data d} (h : Same D D') (j : Fin d) (t : ℝ) :
    Same (splitData j t D).1 (splitData j t D').1 ∧ Same (splitData j t D).2 (splitData j t D').2 := by
  obtain ⟨a1, a2, a3, a4⟩ := c51_split D h.1 j t
  obtain ⟨b1, b2, b3, b4⟩ := c51_split D' h.2.1 j t
  refine ⟨⟨a1, b1, ?_⟩, ⟨a2, b2, ?_⟩⟩
  · have : (D.rows.filter fun r => r.1 j ≤ t).Perm (D'.rows.filter fun r => r.1 j ≤ t) := h.2.2.filter _
    rw [← a3, ← b3] at this
    exact this
  · have : (D.rows.filter fun r => ¬ r.1 j ≤ t).Perm (D'.rows.filter fun r => ¬ r.1 j ≤ t) := h.2.2.filter _
    rw [← a4, ← b4] at this
    exact this

theorem uniqueSorted_perm {l l' : List ℝ} (h : l.Perm l') : uniqueSorted l = uniqueSorted l' := by
  unfold uniqueSorted
  have hp : (l.dedup.mergeSort fun a b => decide (a ≤ b)).Perm (l'.dedup.mergeSort fun a b => decide (a ≤ b)) :=
    (List.mergeSort_perm _ _).trans (h.dedup.trans (List.mergeSort_perm _ _).symm)
  have hs : ∀ l : List ℝ, (l.mergeSort fun a b => decide (a ≤ b)).Pairwise (· ≤ ·) := fun l => by
    have := List.pairwise_mergeSort (le := fun a b : ℝ => decide (a ≤ b)) (fun a b c h1 h2 => by
      simp only [decide_eq_true_eq] at *; exact h1.trans h2) (fun a b => by simpa using le_total a b) l
    exact this.imp fun h => by simpa using h
  exact hp.eq_of_pairwise (fun a b _ _ h1 h2 => le_antisymm h1 h2) (hs _) (hs _)

theorem foldl_min_perm {l l' : List ℝ} (h : l.Perm l') : l.foldl min (l.headD 0) = l'.foldl min (l'.headD 0) := by
  have key : ∀ {l l' : List ℝ}, l.Perm l' → l ≠ [] → l.foldl min (l.headD 0) ≤ l'.foldl min (l'.headD 0) := by
    intro l l' h hne
    have hm : l'.foldl min (l'.headD 0) ∈ l' := by
      cases l' with
      | nil => exact absurd h.eq_nil hne
      | cons a l' =>
        have : ∀ (l : List ℝ) (b : ℝ), l.foldl min b = b ∨ l.foldl min b ∈ l := by
          intro l
          induction l with
          | nil => intro b; exact .inl rfl
          | cons c l ih =>
            intro b
            rw [List.foldl_cons]
            rcases ih (min b c) with h | h
            · rw [h]
              rcases min_choice b c with h | h
              · exact .inl h
              · exact .inr (by rw [h]; simp)
            · exact .inr (by simp [h])
        rcases this (a :: l') a with h | h
        · rw [List.headD_cons, h]; simp
        · exact h
    exact (foldl_min_le _ _).2 _ (h.mem_iff.2 hm)
  by_cases hne : l = []
  · subst hne
    rw [h.symm.eq_nil]
  · exact le_antisymm (key h hne) (key h.symm fun h0 => hne (by subst h0; exact h.eq_nil))

theorem foldl_max_perm {l l' : List ℝ} (h : l.Perm l') : l.foldl max (l.headD 0) = l'.foldl max (l'.headD 0) := by
  have key : ∀ {l l' : List ℝ}, l.Perm l' → l ≠ [] → l'.foldl max (l'.headD 0) ≤ l.foldl max (l.headD 0) := by
    intro l l' h hne
    have hm : l'.foldl max (l'.headD 0) ∈ l' := by
      cases l' with
      | nil => exact absurd h.eq_nil hne
      | cons a l' =>
        have : ∀ (l : List ℝ) (b : ℝ), l.foldl max b = b ∨ l.foldl max b ∈ l := by
          intro l
          induction l with
          | nil => intro b; exact .inl rfl
          | cons c l ih =>
            intro b
            rw [List.foldl_cons]
            rcases ih (max b c) with h | h
            · rw [h]
              rcases max_choice b c with h | h
              · exact .inl h
              · exact .inr (by rw [h]; simp)
            · exact .inr (by simp [h])
        rcases this (a :: l') a with h | h
        · rw [List.headD_cons, h]; simp
        · exact h
    exact (le_foldl_maxR _ _).2 _ (h.mem_iff.2 hm)
  by_cases hne : l = []
  · subst hne
    rw [h.symm.eq_nil]
  · exact le_antisymm (key h.symm fun h0 => hne (by subst h0; exact h.eq_nil)) (key h hne)

theorem thresholds_same (cfg : Config) {D D' : Data d} (h : Same D D') (j : Fin d) : thresholds cfg D' j = thresholds cfg D j := by
  have hc := h.X.map fun x => x j
  unfold thresholds
  cases cfg.search with
  | exhaustive => exact (uniqueSorted_perm hc).symm
  | grid => simp only [foldl_min_perm hc, foldl_max_perm hc, h.X.length_eq]

theorem std_perm {l l' : List ℝ} (h : l.Perm l') : std l' = std l := by
  unfold std
  rw [h.sum_eq, h.length_eq, (h.map _).sum_eq]

/-- The split of the data by a feature and a threshold. -/
noncomputable def candOf (D : Data d) (c : Fin d × ℝ) : Cand d := ⟨c.1, c.2, (splitData c.1 c.2 D).1, (splitData c.1 c.2 D).2⟩

/-- The features and thresholds of the splits tried. -/
noncomputable def labels (cfg : Config) (msl : ℕ) (D : Data d) : List (Fin d × ℝ) :=
  (List.finRange d).flatMap fun j => (thresholds cfg D j).filterMap fun t =>
    if (splitData j t D).1.X.length ≥ msl ∧ (splitData j t D).2.X.length ≥ msl then some (j, t) else none

theorem candidates_labels (cfg : Config) (msl : ℕ) (D : Data d) : candidates cfg msl D = (labels cfg msl D).map (candOf D) := by
  unfold candidates labels
  rw [List.map_flatMap]
  congr 1
  funext j
  rw [List.map_filterMap]
  refine List.filterMap_congr fun t _ => ?_
  split_ifs <;> rfl

theorem labels_same (cfg : Config) (msl : ℕ) {D D' : Data d} (h : Same D D') : labels cfg msl D' = labels cfg msl D := by
  unfold labels
  congr 1
  funext j
  rw [thresholds_same cfg h]
  refine List.filterMap_congr fun t _ => ?_
  obtain ⟨h1, h2⟩ := h.split j t
  rw [h1.X.length_eq, h2.X.length_eq]

theorem scan_labels {L : List (Fin d × ℝ)} (g g' : Fin d × ℝ → Cand d) (loss loss' : Cand d → WithTop ℝ) (h : ∀ c ∈ L, loss' (g' c) = loss (g c))
    (b : WithTop ℝ) (o : Option (Fin d × ℝ)) :
    ∃ o' : Option (Fin d × ℝ), (scan loss (L.map g) (b, o.map g)).2 = o'.map g ∧ (scan loss' (L.map g') (b, o.map g')).2 = o'.map g' := by
  induction L generalizing b o with
  | nil => exact ⟨o, rfl, rfl⟩
  | cons c L ih =>
    simp only [List.map_cons, scan, h c (by simp)]
    split_ifs
    · exact ih (fun c hc => h c (by simp [hc])) (loss (g c)) (some c)
    · exact ih (fun c hc => h c (by simp [hc])) b o

section
variable {cfg : Config} {msl : ℕ} {G : Data d → Prop} {fit : Fit d} (hG : Closed cfg msl G) (hf : Orderless G fit)
include hG hf

theorem splitter_same {D D' : Data d} (g : G D) (h : Same D D') :
    ∃ o : Option (Fin d × ℝ), splitter cfg msl fit D = o.map (candOf D) ∧ splitter cfg msl fit D' = o.map (candOf D') := by
  unfold splitter
  rw [candidates_labels, candidates_labels cfg msl D', labels_same cfg msl h, hf D D' g h]
  refine scan_labels (candOf D) (candOf D') _ _ (fun c hc => ?_) _ none
  obtain ⟨h1, h2⟩ := h.split c.1 c.2
  obtain ⟨g1, g2⟩ := hG D g (candOf D c) (by rw [candidates_labels]; exact List.mem_map_of_mem hc)
  have e1 : (candOf D' c).left.X.length = (candOf D c).left.X.length := h1.X.length_eq.symm
  have e2 : (candOf D' c).right.X.length = (candOf D c).right.X.length := h2.X.length_eq.symm
  have f1 : fit (candOf D' c).left = fit (candOf D c).left := hf _ _ g1 h1
  have f2 : fit (candOf D' c).right = fit (candOf D c).right := hf _ _ g2 h2
  have s1 : std (candOf D' c).left.y = std (candOf D c).left.y := std_perm h1.y
  have s2 : std (candOf D' c).right.y = std (candOf D c).right.y := std_perm h2.y
  unfold lossSplit
  rw [e1, e2, f1, f2, s1, s2, std_perm h.y, h.X.length_eq]

omit hf in
theorem label_good {D : Data d} (g : G D) {c : Fin d × ℝ} (h : splitter cfg msl fit D = some (candOf D c)) :
    G (splitData c.1 c.2 D).1 ∧ G (splitData c.1 c.2 D).2 := hG D g _ (splitter_mem h)

end

/-- A node without the data of its leaves. -/
def Node.bare : Node d → Node d
  | .leaf p n _ => .leaf p n ⟨[], []⟩
  | .branch p n j t l r => .branch p n j t l.bare r.bare

section
variable {cfg : Config} {msl : ℕ} {G : Data d → Prop} {fit : Fit d} (hG : Closed cfg msl G) (hf : Orderless G fit)
include hG hf

theorem grow_same (k : ℕ) : ∀ (D D' : Data d) (depth : ℕ), G D → Same D D' → cfg.maxDepth - depth ≤ k →
    (grow cfg msl fit D' depth).bare = (grow cfg msl fit D depth).bare := by
  induction k with
  | zero =>
    intro D D' depth g h hk
    have : ¬ depth < cfg.maxDepth := by omega
    rw [grow, grow, if_neg this, if_neg this, hf D D' g h, h.X.length_eq]
    rfl
  | succ k ih =>
    intro D D' depth g h hk
    rw [grow, grow]
    by_cases hd : depth < cfg.maxDepth
    · obtain ⟨o, h1, h2⟩ := splitter_same hG hf g h
      rw [if_pos hd, if_pos hd, h2, hf D D' g h, h.X.length_eq]
      cases o with
      | none =>
        rw [h1]
        rfl
      | some c =>
        obtain ⟨g1, g2⟩ := label_good hG g h1
        obtain ⟨s1, s2⟩ := h.split c.1 c.2
        rw [h1]
        simp only [Option.map_some, Node.bare]
        rw [show (grow cfg msl fit (candOf D' c).left (depth + 1)).bare = _ from ih _ _ (depth + 1) g1 s1 (by omega),
          show (grow cfg msl fit (candOf D' c).right (depth + 1)).bare = _ from ih _ _ (depth + 1) g2 s2 (by omega)]
        rfl
    · rw [if_neg hd, if_neg hd, hf D D' g h, h.X.length_eq]
      rfl

theorem fitsEmpty_same (k : ℕ) : ∀ (D D' : Data d) (depth : ℕ), G D → Same D D' → cfg.maxDepth - depth ≤ k →
    (fitsEmpty cfg msl fit D' depth ↔ fitsEmpty cfg msl fit D depth) := by
  induction k with
  | zero =>
    intro D D' depth g h hk
    have : ¬ depth < cfg.maxDepth := by omega
    rw [fitsEmpty, fitsEmpty, if_neg this, if_neg this, h.X.length_eq]
  | succ k ih =>
    intro D D' depth g h hk
    rw [fitsEmpty, fitsEmpty]
    by_cases hd : depth < cfg.maxDepth
    · obtain ⟨o, h1, h2⟩ := splitter_same hG hf g h
      rw [if_pos hd, if_pos hd, h2, h1, candidates_labels, candidates_labels cfg msl D, labels_same cfg msl h, h.X.length_eq]
      refine or_congr Iff.rfl (or_congr (and_congr Iff.rfl ?_) ?_)
      · simp only [List.mem_map, exists_exists_and_eq_and]
        refine exists_congr fun c => and_congr Iff.rfl ?_
        obtain ⟨s1, s2⟩ := h.split c.1 c.2
        rw [show (candOf D' c).left.X.length = (candOf D c).left.X.length from s1.X.length_eq.symm,
          show (candOf D' c).right.X.length = (candOf D c).right.X.length from s2.X.length_eq.symm]
      · cases o with
        | none => rfl
        | some c =>
          obtain ⟨g1, g2⟩ := label_good hG g h1
          obtain ⟨s1, s2⟩ := h.split c.1 c.2
          exact or_congr (ih _ _ (depth + 1) g1 s1 (by omega)) (ih _ _ (depth + 1) g2 s2 (by omega))
    · rw [if_neg hd, if_neg hd, h.X.length_eq]

end

/-- The object without the data of the leaves. -/
def State.bare (s : State d) : State d := { s with tree := s.tree.map Node.bare }

theorem fit_same {cfg : Config} {G : Data d → Prop} {fit : Fit d} (hf : Orderless G fit) {D D' : Data d} (g : G D) (h : Same D D') (s : State d)
    (hG : Closed cfg (resolveMsl cfg.cardinality s.msl) G) :
    (fitTree cfg fit D' s).map State.bare = (fitTree cfg fit D s).map State.bare := by
  have h1 : (candidates cfg (resolveMsl cfg.cardinality s.msl) D' ≠ []) ↔ (candidates cfg (resolveMsl cfg.cardinality s.msl) D ≠ []) := by
    rw [candidates_labels, candidates_labels _ _ D, labels_same _ _ h]
    simp
  have h2 := fitsEmpty_same hG hf _ D D' 0 g h le_rfl
  have h3 := grow_same hG hf _ D D' 0 g h le_rfl
  simp only [fitTree, h1]
  split_ifs with c1 c2 c3 c3
  · rfl
  · rfl
  · exact absurd (h2.1 c2) c3
  · exact absurd (h2.2 c3) c2
  · simp only [Except.map, State.bare, Option.map_some, h3]

theorem predictNode_bare (k : ℝ) (x : Pt d) (t : Node d) : predictNode k x t.bare = predictNode k x t := by
  induction t with
  | leaf p n D => rfl
  | branch p n j t l r ihl ihr => simp only [Node.bare, predictNode, ihl, ihr]

theorem getSplits_bare (t : Node d) (l : List (ℝ × Fin d)) : getSplits t.bare l = getSplits t l := by
  induction t generalizing l with
  | leaf => rfl
  | branch p n j t L R ihl ihr => simp only [Node.bare, getSplits, ihl, ihr]

theorem mse_same (f : PolyFn d) {V V' : Data d} (h : Same V V') : mse f V' = mse f V := by
  unfold mse
  rw [h.X.length_eq, (h.2.2.map _).sum_eq]

theorem samples_bare (t : Node d) : t.bare.samples = t.samples := by cases t <;> rfl

theorem pruner_same (t : Node d) : ∀ V V' : Data d, Same V V' →
    pruner t.bare V' = (pruner t V).map fun r => (r.1.bare, r.2) := by
  induction t with
  | leaf p n D =>
    intro V V' h
    simp only [Node.bare, pruner, ← h.X.length_eq]
    split_ifs
    · rfl
    · cases p with
      | none => rfl
      | some p => simp only [mse_same p h, Except.map, Node.bare]
  | branch p n j t l r ihl ihr =>
    intro V V' h
    simp only [Node.bare, pruner, ← h.X.length_eq]
    split_ifs
    · rfl
    · cases p with
      | none => rfl
      | some p =>
        obtain ⟨s1, s2⟩ := h.split j t
        simp only [ihl _ _ s1, ihr _ _ s2, mse_same p h]
        cases pruner l (splitData j t V).1 with
        | error e => rfl
        | ok L =>
          cases pruner r (splitData j t V).2 with
          | error e => rfl
          | ok R =>
            simp only [Except.map, samples_bare]
            split_ifs
            · rfl
            · rfl

theorem prune_same (s : State d) {V V' : Data d} (h : Same V V') : prune s.bare V' = (prune s V).map State.bare := by
  obtain ⟨m, k, t⟩ := s
  cases t with
  | none => rfl
  | some t =>
    cases t with
    | leaf p n D => rfl
    | branch p n j t l r =>
      obtain ⟨s1, s2⟩ := h.split j t
      simp only [prune, State.bare, Option.map_some, Node.bare, pruner_same l _ _ s1, pruner_same r _ _ s2]
      cases pruner l (splitData j t V).1 with
      | error e => rfl
      | ok L =>
        cases pruner r (splitData j t V).2 with
        | error e => rfl
        | ok R => rfl

theorem prunes_same {Vs Vs' : List (Data d)} (hV : List.Forall₂ Same Vs Vs') (s : State d) :
    Vs'.foldlM prune s.bare = (Vs.foldlM prune s).map State.bare := by
  induction hV generalizing s with
  | nil => rfl
  | cons h _ ih =>
    rw [List.foldlM_cons, List.foldlM_cons, prune_same s h]
    cases prune s _ with
    | error e => rfl
    | ok s => exact ih s

theorem Same.refl' {D : Data d} (h : D.X.length = D.y.length) : Same D D := ⟨h, h, List.Perm.refl _⟩

theorem bare_bare (s : State d) : s.bare.bare = s.bare := by
  have : ∀ t : Node d, t.bare.bare = t.bare := by
    intro t
    induction t with
    | leaf => rfl
    | branch p n j t l r ihl ihr => simp only [Node.bare, ihl, ihr]
  obtain ⟨m, k, t⟩ := s
  cases t with
  | none => rfl
  | some t => simp only [State.bare, Option.map_some, this]

/-- **C192, fitting and pruning.** If the samples used for fitting, and those used for each pruning, are presented in another order, the tree is the same: fitting and
pruning fail in the same way, the splits are the same, and so is every prediction. The fits at the nodes do not depend on the order of their samples (see
`c192_poly_tree`). -/
theorem c192_tree (cfg : Config) (G : Data d → Prop) (fit : Fit d) (hf : Orderless G fit) (D D' : Data d) (g : G D) (h : Same D D')
    (Vs Vs' : List (Data d)) (hV : List.Forall₂ Same Vs Vs') (s : State d) (hG : Closed cfg (resolveMsl cfg.cardinality s.msl) G) :
    match fitAndPrune cfg fit D Vs s, fitAndPrune cfg fit D' Vs' s with
    | .error e, .error e' => e = e'
    | .ok t, .ok t' =>
      (∀ n, t.tree = some n → ∃ n', t'.tree = some n' ∧ getSplits n' [] = getSplits n []) ∧ ∀ x, predict t' x = predict t x
    | _, _ => False := by
  have key : (fitAndPrune cfg fit D' Vs' s).map State.bare = (fitAndPrune cfg fit D Vs s).map State.bare := by
    have h0 := fit_same hf g h s hG
    have hV2 : List.Forall₂ Same Vs' Vs' := by
      clear h0
      induction hV with
      | nil => exact .nil
      | cons h _ ih => exact .cons (Same.refl' h.2.1) ih
    unfold fitAndPrune
    cases h1 : fitTree cfg fit D s with
    | error e =>
      cases h2 : fitTree cfg fit D' s with
      | error e' => rw [h1, h2] at h0; exact h0
      | ok t' => rw [h1, h2] at h0; exact absurd h0 (by simp [Except.map])
    | ok t =>
      cases h2 : fitTree cfg fit D' s with
      | error e' => rw [h1, h2] at h0; exact absurd h0 (by simp [Except.map])
      | ok t' =>
        rw [h1, h2] at h0
        have h0 : t'.bare = t.bare := Except.ok.inj h0
        have e1 := prunes_same hV t
        have e2 := prunes_same hV2 t'
        rw [h0] at e2
        exact e2.symm.trans e1
  cases h1 : fitAndPrune cfg fit D Vs s with
  | error e =>
    cases h2 : fitAndPrune cfg fit D' Vs' s with
    | error e' =>
      rw [h1, h2] at key
      exact (Except.error.inj key).symm
    | ok t' => rw [h1, h2] at key; exact absurd key (by simp [Except.map])
  | ok t =>
    cases h2 : fitAndPrune cfg fit D' Vs' s with
    | error e' => rw [h1, h2] at key; exact absurd key (by simp [Except.map])
    | ok t' =>
      rw [h1, h2] at key
      have key : t'.bare = t.bare := Except.ok.inj key
      obtain ⟨m, k, T⟩ := t
      obtain ⟨m', k', T'⟩ := t'
      simp only [State.bare, State.mk.injEq] at key
      obtain ⟨-, rfl, hT⟩ := key
      refine ⟨fun n hn => ?_, fun x => ?_⟩
      · simp only at hn
        subst hn
        cases T' with
        | none => exact absurd hT (by simp)
        | some n' =>
          refine ⟨n', rfl, ?_⟩
          rw [← getSplits_bare n', Option.some.inj hT, getSplits_bare]
      · unfold predict
        cases T with
        | none =>
          cases T' with
          | none => rfl
          | some n' => exact absurd hT (by simp)
        | some n =>
          cases T' with
          | none => exact absurd hT (by simp)
          | some n' =>
            simp only
            rw [← predictNode_bare _ _ n', Option.some.inj hT, predictNode_bare]

/-! ## The fits of the code -/

theorem nodeParams_perm {X X' : List (Pt d)} (h : X.Perm X') : nodeParams X' = nodeParams X := by
  funext j
  have hc := h.map fun x => x j
  unfold nodeParams nodeParam least greatest
  rw [foldl_min_perm hc, foldl_max_perm hc]

theorem weighted_rows (w : ℕ → ℝ) (k : ℝ) (S : Pt d → ℝ) (X : List (Pt d)) (y : List ℝ) (h : X.length = y.length)
    (hw : ∀ i (h : i < X.length), w i = k * S X[i]) (f : PolyFn d) :
    weighted w f ⟨X, y⟩ = k * ((X.zip y).map fun r => S r.1 * (r.2 - f r.1) ^ 2).sum := by
  unfold weighted
  rw [← List.sum_map_mul_left]
  congr 1
  apply List.ext_getElem
  · simp
  · intro i h1 h2
    have h3 : i < X.length := by simp at h2; omega
    simp only [List.getElem_map, List.getElem_zipIdx, List.getElem_zip, zero_add, hw i h3]
    ring

/-- The fit of `_fit_poly`, and what it minimises. -/
theorem fitPoly_min {lstsq : List (List ℝ) → List ℝ → ℕ → List ℝ} (hl : LstsqOK lstsq) (hd : 0 < d) (p : ℕ) (X : List (Pt d)) (y : List ℝ) (hp : X.length = y.length)
    (hD : DetPts p X) :
    ∃ r : MvPolynomial (Fin d) ℝ, r.totalDegree ≤ p ∧
      fitPoly lstsq (fitElements d p) ⟨X, y⟩ = (((mse (fun x => eval x r) ⟨X, y⟩ : ℝ) : WithTop ℝ), some fun x => eval x r) ∧
      ∀ q : MvPolynomial (Fin d) ℝ, q.totalDegree ≤ p → q ≠ r →
        ((X.zip y).map fun s => pointWeight (nodeParams X) p s.1 * (s.2 - eval s.1 r) ^ 2).sum <
          ((X.zip y).map fun s => pointWeight (nodeParams X) p s.1 * (s.2 - eval s.1 q) ^ 2).sum := by
  have hX : X ≠ [] := by
    rintro rfl
    exact one_ne_zero (hD 1 (by simp) (by simp))
  obtain ⟨w, hw⟩ := node_opt (d := d) hl hd p X
  obtain ⟨hpos, ⟨k, hk, hform⟩, hfit⟩ := hw hX
  obtain ⟨c, h1, h2, h3⟩ := hfit y hp
  have hval : valueAt ⟨orderBasis (nodeParams X) p, c⟩ = fun x : Pt d => eval x (nodePoly X p c) := funext fun x => valueAt_comb _ hd p c h2 x
  have hdeg : (nodePoly X p c).totalDegree ≤ p := comb_deg (nodeParams X) (nodeParam_pos X hX) hd p c
  refine ⟨nodePoly X p c, hdeg, ?_, fun q hq hne => ?_⟩
  · unfold fitPoly
    simp only [h1, hval]
  · have := strict_opt w X hpos y hp p hD _ hdeg h3 q hq hne
    rw [weighted_rows w k _ X y hp hform, weighted_rows w k _ X y hp hform] at this
    exact lt_of_mul_lt_mul_left this hk.le

/-- `_fit_poly` does not depend on the order of the samples if they determine the polynomials of the degree. -/
theorem fitPoly_orderless {lstsq : List (List ℝ) → List ℝ → ℕ → List ℝ} (hl : LstsqOK lstsq) (hd : 0 < d) (p : ℕ) :
    Orderless (fun D : Data d => DetPts p D.X) (fitPoly lstsq (fitElements d p)) := by
  rintro ⟨X, y⟩ ⟨X', y'⟩ hD h
  have hD' : DetPts p X' := fun q hq h0 => hD q hq fun x hx => h0 x (h.X.mem_iff.1 hx)
  obtain ⟨r, hr, e, hmin⟩ := fitPoly_min hl hd p X y h.1 hD
  obtain ⟨r', hr', e', hmin'⟩ := fitPoly_min hl hd p X' y' h.2.1 hD'
  have : r' = r := by
    by_contra hne
    have h1 := hmin r' hr' hne
    have h2 := hmin' r hr fun h0 => hne h0.symm
    rw [nodeParams_perm h.X, ← (h.2.2.map _).sum_eq, ← (h.2.2.map _).sum_eq] at h2
    exact lt_asymm h1 h2
  subst this
  rw [e, e', mse_same _ h]

/-- **C192, trees of polynomials.** For the fits of `_fit_poly` with the total-order basis of degree `p`: if every set of samples that a node may hold — the whole
training set, or at least `min_samples_leaf` of the samples — determines the polynomials of the degree, then the order of the samples does not matter. -/
theorem c192_poly_tree (cfg : Config) {lstsq : List (List ℝ) → List ℝ → ℕ → List ℝ} (hl : LstsqOK lstsq) (hd : 0 < d) (p : ℕ) (D D' : Data d) (h : Same D D')
    (Vs Vs' : List (Data d)) (hV : List.Forall₂ Same Vs Vs') (S : State d)
    (hdet : ∀ L : List (Pt d), L.Sublist D.X → L = D.X ∨ resolveMsl cfg.cardinality S.msl ≤ L.length → DetPts p L) :
    match fitAndPrune cfg (fitPoly lstsq (fitElements d p)) D Vs S, fitAndPrune cfg (fitPoly lstsq (fitElements d p)) D' Vs' S with
    | .error e, .error e' => e = e'
    | .ok t, .ok t' =>
      (∀ n, t.tree = some n → ∃ n', t'.tree = some n' ∧ getSplits n' [] = getSplits n []) ∧ ∀ x, predict t' x = predict t x
    | _, _ => False := by
  refine c192_tree cfg (fun E => E.X.Sublist D.X ∧ (E.X = D.X ∨ resolveMsl cfg.cardinality S.msl ≤ E.X.length)) _
    (fun E E' hE hs => fitPoly_orderless hl hd p E E' (hdet _ hE.1 hE.2) hs) D D' ⟨List.Sublist.refl _, Or.inl rfl⟩ h Vs Vs' hV S ?_
  intro E hE c hc
  obtain ⟨-, h2, h3, h4, h5⟩ := mem_candidates.1 hc
  exact ⟨⟨by rw [h2]; exact (split_sublist _ _ E).1.trans hE.1, Or.inr h4⟩, ⟨by rw [h3]; exact (split_sublist _ _ E).2.trans hE.1, Or.inr h5⟩⟩

/-- The theorem applies to lines fitted to samples at `0, 1, ..., n + 1`, with the first sample moved to the end. -/
example (n : ℕ) (v : ℝ) (y : List ℝ) (hy : y.length = n + 1) (S : State 1) (hS : S.msl = some 3) (cfg : Config) (hc : cfg.cardinality = 2) :
    ∃ D D' : Data 1, D'.X ≠ D.X ∧ Same D D' ∧ ∀ L : List (Pt 1), L.Sublist D.X → L = D.X ∨ resolveMsl cfg.cardinality S.msl ≤ L.length → DetPts 1 L := by
  have hdet := lines_det n (v :: y) S hS cfg hc _ rfl
  have e : (List.range (n + 2)).map (fun (i : ℕ) (_ : Fin 1) => (i : ℝ)) =
      (fun _ => 0) :: (List.range (n + 1)).map (fun (i : ℕ) (_ : Fin 1) => (i : ℝ) + 1) := by
    rw [List.range_succ_eq_map, List.map_cons, List.map_map]
    simp [Function.comp_def]
  rw [e] at hdet
  refine ⟨⟨_, v :: y⟩, ⟨(List.range (n + 1)).map (fun (i : ℕ) (_ : Fin 1) => (i : ℝ) + 1) ++ [fun _ => 0], y ++ [v]⟩, fun h => ?_,
    ⟨by simp [hy], by simp [hy], ?_⟩, hdet⟩
  · have h := congrFun (congrArg (fun l : List (Pt 1) => l.headD 0) h) 0
    simp [List.range_succ_eq_map] at h
  · show (List.zip _ _).Perm (List.zip _ _)
    rw [List.zip_append (by simp [hy]), List.zip_cons_cons]
    exact (List.perm_append_singleton _ _).symm

end EQ.Tree
