import Verif.Tree.Props
import Mathlib.Tactic.FinCases

/-!
# Polynomial trees: repeated fits, criteria, pruning (C52, C54, C55, C56, C88, C89)
-/

namespace EQ.Tree
open EQ.Basis

variable {d : ℕ}

/-! ## What the scan over the candidates finds -/

theorem scan_spec (loss : Cand d → WithTop ℝ) (cs : List (Cand d)) :
    ∀ best : WithTop ℝ × Option (Cand d), (∀ c, best.2 = some c → loss c = best.1) →
      (scan loss cs best).1 ≤ best.1 ∧ (∀ c ∈ cs, (scan loss cs best).1 ≤ loss c) ∧
      (∀ c, (scan loss cs best).2 = some c → loss c = (scan loss cs best).1) ∧
      ((scan loss cs best).1 < best.1 → ∃ c, (scan loss cs best).2 = some c) ∧
      ((scan loss cs best).2 ≠ best.2 → (scan loss cs best).1 < best.1) := by
  induction cs with
  | nil => intro best h; simp [scan]; exact h
  | cons a cs ih =>
    intro best hbest
    unfold scan
    by_cases hlt : loss a < best.1
    · rw [if_pos hlt]
      obtain ⟨h1, h2, h3, h4, h5⟩ := ih (loss a, some a) (fun c hc => by
        simp only [Option.some.injEq] at hc; rw [hc])
      refine ⟨h1.trans hlt.le, fun c hc => ?_, h3, fun _ => ?_, fun _ => lt_of_le_of_lt h1 hlt⟩
      · rcases List.mem_cons.1 hc with rfl | hc
        · exact h1
        · exact h2 c hc
      · rcases h1.lt_or_eq with h | h
        · exact h4 h
        · by_contra hcon
          have : (scan loss cs (loss a, some a)).2 ≠ some a := fun h' => hcon ⟨a, h'⟩
          exact absurd (h5 this) (by rw [h]; exact lt_irrefl _)
    · rw [if_neg hlt]
      obtain ⟨h1, h2, h3, h4, h5⟩ := ih best hbest
      refine ⟨h1, fun c hc => ?_, h3, h4, h5⟩
      rcases List.mem_cons.1 hc with rfl | hc
      · exact h1.trans (not_lt.1 hlt)
      · exact h2 c hc

theorem scan_const (loss : Cand d → WithTop ℝ) (a : WithTop ℝ) (c : Cand d) (cs : List (Cand d))
    (h : ∀ q ∈ c :: cs, loss q = a) (ha : a < ⊤) : (scan loss (c :: cs) (⊤, none)).2 = some c := by
  have : ∀ l : List (Cand d), (∀ q ∈ l, loss q = a) → scan loss l (a, some c) = (a, some c) := by
    intro l
    induction l with
    | nil => intro _; rfl
    | cons q l ih =>
      intro hl
      unfold scan
      rw [if_neg (by rw [hl q (by simp)]; exact lt_irrefl _)]
      exact ih fun q hq => hl q (by simp [hq])
  unfold scan
  rw [h c (by simp), if_pos ha, this cs fun q hq => h q (by simp [hq])]

/-! ## C55: the model-agnostic criterion -/

/-- The reduction of the (weighted) standard deviation of the outputs by a split. -/
noncomputable def reduction (D : Data d) (c : Cand d) : ℝ :=
  std D.y - (c.left.X.length * std c.left.y + c.right.X.length * std c.right.y) / D.X.length

/-- The loss of a split with points on both sides. -/
theorem lossSplit_agnostic {cfg : Config} (hc : cfg.criterion = .modelAgnostic) {fit : Fit d} {D : Data d} {c : Cand d}
    (h1 : 0 < c.left.X.length) (h2 : 0 < c.right.X.length) :
    lossSplit cfg fit D c = ((reduction D c : ℝ) : WithTop ℝ) := by
  unfold lossSplit reduction
  rw [hc]
  simp only
  rw [if_neg (by omega)]

/-- C55, what holds: with the model-agnostic criterion a split is made whenever one is admissible, and
the split made is an admissible one for which the reduction of the standard deviation is *smallest*.
Missing: that it is largest (`c55_agnostic_violated`). -/
theorem c55_agnostic_partial (cfg : Config) (hc : cfg.criterion = .modelAgnostic) (msl : ℕ) (hm : 0 < msl) (fit : Fit d)
    (D : Data d) : (candidates cfg msl D ≠ [] → ∃ c, splitter cfg msl fit D = some c) ∧
    ∀ c, splitter cfg msl fit D = some c → c ∈ candidates cfg msl D ∧
      ∀ c' ∈ candidates cfg msl D, reduction D c ≤ reduction D c' := by
  have hloss : ∀ c ∈ candidates cfg msl D, lossSplit cfg fit D c = ((reduction D c : ℝ) : WithTop ℝ) := by
    intro c hcc
    obtain ⟨-, -, -, h4, h5⟩ := mem_candidates.1 hcc
    exact lossSplit_agnostic hc (by omega) (by omega)
  obtain ⟨h1, h2, h3, h4, h5⟩ := scan_spec (lossSplit cfg fit D) (candidates cfg msl D) (⊤, none)
    (fun c h => by simp at h)
  have hsp : splitter cfg msl fit D =
      (scan (lossSplit cfg fit D) (candidates cfg msl D) (⊤, none)).2 := by
    unfold splitter; rw [hc]
  refine ⟨fun hne => ?_, fun c h => ⟨splitter_mem h, fun c' hc' => ?_⟩⟩
  · rw [hsp]
    apply h4
    obtain ⟨c, hmem⟩ := List.exists_mem_of_ne_nil _ hne
    exact lt_of_le_of_lt (h2 c hmem) (by rw [hloss c hmem]; exact WithTop.coe_lt_top _)
  · have hcm := splitter_mem h
    rw [hsp] at h
    have := h3 c h
    have h6 := h2 c' hc'
    rw [← this, hloss c hcm, hloss c' hc'] at h6
    exact WithTop.coe_le_coe.1 h6

/-- C55, violated as stated: whenever the admissible splits do not all reduce the standard deviation by
the same amount, the split made is not one that reduces it most. -/
theorem c55_agnostic_violated (cfg : Config) (hc : cfg.criterion = .modelAgnostic) (msl : ℕ) (hm : 0 < msl) (fit : Fit d)
    (D : Data d) (c1 c2 : Cand d) (h1 : c1 ∈ candidates cfg msl D) (_h2 : c2 ∈ candidates cfg msl D)
    (hlt : reduction D c1 < reduction D c2) :
    ∃ c, splitter cfg msl fit D = some c ∧ reduction D c < reduction D c2 := by
  obtain ⟨ha, hb⟩ := c55_agnostic_partial cfg hc msl hm fit D
  obtain ⟨c, hsc⟩ := ha (List.ne_nil_of_mem h1)
  exact ⟨c, hsc, lt_of_le_of_lt ((hb c hsc).2 c1 h1) hlt⟩

/-! ## C88: the model-aware criterion -/

/-- C88, one node. With the model-aware criterion a split is made exactly if some admissible split has
a smaller weighted loss than the node itself, and then it is one with the smallest. -/
theorem c88_aware_split (cfg : Config) (hc : cfg.criterion = .modelAware) (msl : ℕ) (fit : Fit d)
    (D : Data d) : ((∃ c, splitter cfg msl fit D = some c) ↔
      ∃ c ∈ candidates cfg msl D, lossSplit cfg fit D c < (fit D).1) ∧
    ∀ c, splitter cfg msl fit D = some c → lossSplit cfg fit D c < (fit D).1 ∧
      ∀ c' ∈ candidates cfg msl D, lossSplit cfg fit D c ≤ lossSplit cfg fit D c' := by
  obtain ⟨h1, h2, h3, h4, h5⟩ := scan_spec (lossSplit cfg fit D) (candidates cfg msl D)
    ((fit D).1, none) (fun c h => by simp at h)
  have hsp : splitter cfg msl fit D =
      (scan (lossSplit cfg fit D) (candidates cfg msl D) ((fit D).1, none)).2 := by
    unfold splitter; rw [hc]
  have hkey : ∀ c, splitter cfg msl fit D = some c → lossSplit cfg fit D c < (fit D).1 ∧
      ∀ c' ∈ candidates cfg msl D, lossSplit cfg fit D c ≤ lossSplit cfg fit D c' := by
    intro c h
    rw [hsp] at h
    rw [h3 c h]
    exact ⟨h5 (by rw [h]; simp), h2⟩
  refine ⟨⟨fun ⟨c, h⟩ => ⟨c, splitter_mem h, (hkey c h).1⟩, fun ⟨c, hmem, hlt⟩ => ?_⟩, hkey⟩
  rw [hsp]
  exact h4 (lt_of_le_of_lt (h2 c hmem) hlt)

/-- Sum of the squared errors over the leaves, each with the loss of its fit. -/
noncomputable def leafError (fit : Fit d) (t : Node d) : WithTop ℝ :=
  (t.leaves.map fun L => match (fit L).1 with
    | some a => ((L.X.length * a : ℝ) : WithTop ℝ)
    | none => ⊤).sum

theorem Grown.leafError_le {cfg : Config} (hc : cfg.criterion = .modelAware) {msl : ℕ} (hm : 0 < msl)
    {fit : Fit d} {D : Data d} (hD : D.Paired) {depth : ℕ} {t : Node d}
    (h : Grown cfg msl fit D depth t) (a : ℝ) (ha : (fit D).1 = (a : WithTop ℝ)) :
    leafError fit t ≤ ((D.X.length * a : ℝ) : WithTop ℝ) := by
  induction h generalizing a with
  | leaf D depth =>
    simp only [leafError, Node.leaves, List.map_cons, List.map_nil, List.sum_cons, List.sum_nil, add_zero]
    rw [ha]
  | branch D depth c l r hd hs hl hr ihl ihr =>
    obtain ⟨p1, p2, q1, q2⟩ := cand_rows hD (splitter_mem hs)
    obtain ⟨-, -, -, m1, m2⟩ := mem_candidates.1 (splitter_mem hs)
    have hlt := ((c88_aware_split cfg hc msl fit D).2 c hs).1
    have hsum : leafError fit (Node.branch (fit D).2 D.X.length c.j c.t l r) =
        leafError fit l + leafError fit r := by
      simp [leafError, Node.leaves]
    have hDpos : (0 : ℝ) < D.X.length := by
      have : c.left.rows.length ≤ D.rows.length := by rw [q1]; exact List.length_filter_le _ _
      rw [rows_length p1, rows_length hD] at this
      exact_mod_cast (by omega : 0 < D.X.length)
    rw [hsum]
    unfold lossSplit at hlt
    rw [hc, ha] at hlt
    simp only at hlt
    split at hlt
    · rename_i x y hx hy
      have h1 := ihl p1 x hx
      have h2 := ihr p2 y hy
      rw [WithTop.coe_lt_coe, div_lt_iff₀ hDpos] at hlt
      refine (add_le_add h1 h2).trans ?_
      rw [← WithTop.coe_add, WithTop.coe_le_coe]
      linarith
    · exact absurd hlt not_top_lt

/-- C88, whole trees. With the model-aware criterion, for every data set and every outcome of the fits
in which the fit at the root succeeds: the training error of the tree (the errors of the leaves' fits
on their own samples, added up) is at most that of a single polynomial. -/
theorem c88_training_error (cfg : Config) (hc : cfg.criterion = .modelAware) (fit : Fit d) (D : Data d)
    (hD : D.Paired) (s s' : State d) (h : fitTree cfg fit D s = .ok s') (hm : s.msl ≠ some 0)
    (hcard : 0 < cfg.cardinality) (a : ℝ) (ha : (fit D).1 = (a : WithTop ℝ)) :
    ∃ t, s'.tree = some t ∧ leafError fit t ≤ ((D.X.length * a : ℝ) : WithTop ℝ) := by
  unfold fitTree at h
  simp only at h
  split_ifs at h
  obtain rfl := Except.ok.inj h
  have hmsl : 0 < resolveMsl cfg.cardinality s.msl := by
    unfold resolveMsl
    split
    · omega
    · split_ifs
      · omega
      · rename_i m heq hne
        rcases Nat.eq_zero_or_pos m with rfl | h
        · exact absurd heq hm
        · exact h
  exact ⟨_, rfl, (grow_grown cfg _ fit D 0).leafError_le hc hmsl hD a ha⟩

/-! ## C89: logging -/

/-- C89, what holds: logging changes nothing with the model-aware criterion. -/
theorem c89_logging_partial (cfg : Config) (fit : Fit d) (D : Data d) (s : State d)
    (h : cfg.criterion = .modelAware) :
    fitTree { cfg with logging := true } fit D s = fitTree { cfg with logging := false } fit D s := by
  have hs : ∀ b msl E, splitter { cfg with logging := b } msl fit E = splitter cfg msl fit (E : Data d) :=
    fun _ _ _ => rfl
  have hg : ∀ b msl n E depth, cfg.maxDepth - depth = n → grow { cfg with logging := b } msl fit E depth =
      grow cfg msl fit (E : Data d) depth := by
    intro b msl n
    induction n with
    | zero =>
      intro E depth hn
      rw [grow, grow, if_neg (by simp only; omega), if_neg (by omega)]
    | succ n ih =>
      intro E depth hn
      rw [grow, grow, if_pos (by simp only; omega), if_pos (by omega), hs]
      cases splitter cfg msl fit E with
      | none => rfl
      | some c => simp only; rw [ih _ _ (by omega), ih _ _ (by omega)]
  have he : ∀ b msl n E depth, cfg.maxDepth - depth = n → (fitsEmpty { cfg with logging := b } msl fit E depth ↔
      fitsEmpty cfg msl fit (E : Data d) depth) := by
    intro b msl n
    induction n with
    | zero =>
      intro E depth hn
      rw [fitsEmpty, fitsEmpty, if_neg (by simp only; omega), if_neg (by omega)]
    | succ n ih =>
      intro E depth hn
      rw [fitsEmpty, fitsEmpty, if_pos (by simp only; omega), if_pos (by omega), hs]
      cases splitter cfg msl fit E with
      | none => rfl
      | some c =>
        simp only
        rw [ih _ _ (by omega), ih _ _ (by omega)]
        rfl
  unfold fitTree
  conv_lhs => rw [if_neg (by simp [h])]
  conv_rhs => rw [if_neg (by simp)]
  simp only [hg true _ _ _ _ rfl, hg false _ _ _ _ rfl]
  by_cases hf : fitsEmpty cfg (resolveMsl cfg.cardinality s.msl) fit D 0
  · rw [if_pos ((he true _ _ _ _ rfl).2 hf), if_pos ((he false _ _ _ _ rfl).2 hf)]
  · rw [if_neg (fun h' => hf ((he true _ _ _ _ rfl).1 h')), if_neg (fun h' => hf ((he false _ _ _ _ rfl).1 h'))]

/-- With a positive `min_samples_leaf`, or with the model-agnostic criterion, only an empty data set makes
`_fit_poly` run on no points. -/
theorem not_fitsEmpty {cfg : Config} {msl : ℕ} {fit : Fit d} (hm : cfg.criterion = .modelAware → 0 < msl) (n : ℕ) :
    ∀ (D : Data d) (depth : ℕ), cfg.maxDepth - depth = n → D.X ≠ [] → ¬ fitsEmpty cfg msl fit D depth := by
  induction n with
  | zero =>
    intro D depth hn hD h
    rw [fitsEmpty, if_neg (by omega), or_false, List.length_eq_zero_iff] at h
    exact hD h
  | succ n ih =>
    intro D depth hn hD h
    rw [fitsEmpty, if_pos (by omega), List.length_eq_zero_iff] at h
    rcases h with h | ⟨hc, c, hcc, h⟩ | h
    · exact hD h
    · obtain ⟨-, -, -, h4, h5⟩ := mem_candidates.1 hcc
      have := hm hc
      omega
    · cases hs : splitter cfg msl fit D with
      | none => rw [hs] at h; exact h
      | some c =>
        rw [hs] at h
        have hpos : c.left.X ≠ [] ∧ c.right.X ≠ [] := by
          rw [← List.length_pos_iff, ← List.length_pos_iff]
          obtain ⟨-, -, -, h4, h5⟩ := mem_candidates.1 (splitter_mem hs)
          cases hcr : cfg.criterion with
          | modelAware => have := hm hcr; omega
          | modelAgnostic =>
            obtain ⟨-, -, g3, -, g5⟩ := scan_spec (lossSplit cfg fit D) (candidates cfg msl D) (⊤, none)
              (fun c h => by simp at h)
            by_contra hcon
            have hl : lossSplit cfg fit D c = ⊤ := by
              unfold lossSplit
              rw [hcr]
              exact if_pos (by omega)
            have hsp : (scan (lossSplit cfg fit D) (candidates cfg msl D) (⊤, none)).2 = some c := by
              unfold splitter at hs
              rw [hcr] at hs
              exact hs
            have := g5 (by rw [hsp]; simp)
            rw [← g3 c hsp, hl] at this
            exact lt_irrefl _ this
        exact h.elim (ih _ _ (by omega) hpos.1) (ih _ _ (by omega) hpos.2)

/-- C89, violated with the model-agnostic criterion: with logging, `fit` raises `UnboundLocalError`
on every data set that has an admissible split; without logging it succeeds. -/
theorem c89_logging_violated (cfg : Config) (fit : Fit d) (D : Data d) (s : State d)
    (h : cfg.criterion = .modelAgnostic) (hD : D.X ≠ [])
    (hne : candidates cfg (resolveMsl cfg.cardinality s.msl) D ≠ []) :
    fitTree { cfg with logging := true } fit D s = .error .unboundLocalError ∧
    ∃ s', fitTree { cfg with logging := false } fit D s = .ok s' := by
  constructor
  · unfold fitTree
    rw [if_pos ⟨rfl, h, hne⟩]
  · unfold fitTree
    rw [if_neg (by simp), if_neg (not_fitsEmpty (by simp [h]) _ D 0 rfl hD)]
    exact ⟨_, rfl⟩

/-! ## A concrete data set -/

/-- The four corners of a square, all outputs zero. -/
noncomputable def square : Data 2 := ⟨[![0, 0], ![0, 1], ![1, 0], ![1, 1]], [0, 0, 0, 0]⟩

/-- Its left and right halves. -/
noncomputable def half (a : ℝ) : Data 2 := ⟨[![a, 0], ![a, 1]], [0, 0]⟩

theorem unique2 : uniqueSorted [0, 0, 1, 1] = [0, 1] := by
  unfold uniqueSorted
  have : ([0, 0, 1, 1] : List ℝ).dedup = [0, 1] := by simp
  rw [this]
  exact List.mergeSort_of_pairwise (by simp)

theorem unique1 : uniqueSorted [0, 1] = [0, 1] := by
  unfold uniqueSorted
  have : ([0, 1] : List ℝ).dedup = [0, 1] := by simp
  rw [this]
  exact List.mergeSort_of_pairwise (by simp)

theorem uniqueSame (a : ℝ) : uniqueSorted [a, a] = [a] := by
  unfold uniqueSorted
  have : ([a, a] : List ℝ).dedup = [a] := by simp
  rw [this]
  exact List.mergeSort_of_pairwise (by simp)

theorem split_square : splitData 0 0 square = (half 0, half 1) := by
  simp [splitData, idxLeft, idxRight, gather, square, half, List.range_succ]

theorem split_half (a : ℝ) : splitData 1 0 (half a) = (⟨[![a, 0]], [0]⟩, ⟨[![a, 1]], [0]⟩) := by
  simp [splitData, idxLeft, idxRight, gather, half, List.range_succ]

theorem split_half_same (a : ℝ) : splitData 0 a (half a) = (half a, ⟨[], []⟩) := by
  simp [splitData, idxLeft, idxRight, gather, half, List.range_succ]

theorem std_zero (l : List ℝ) (h : ∀ a ∈ l, a = 0) : std l = 0 := by
  have h1 : l.sum = 0 := List.sum_eq_zero h
  unfold std
  rw [h1, zero_div]
  have : (l.map fun a => (a - 0) ^ 2).sum = 0 := List.sum_eq_zero fun b hb => by
    obtain ⟨a, ha, rfl⟩ := List.mem_map.1 hb
    rw [h a ha]; simp
  rw [this]
  simp

theorem reduction_zero {cfg : Config} {msl : ℕ} (D : Data d) (hy : ∀ a ∈ D.y, a = 0) (c : Cand d)
    (hc : c ∈ candidates cfg msl D) : reduction D c = 0 := by
  obtain ⟨-, h2, h3, -, -⟩ := mem_candidates.1 hc
  have hg : ∀ idx, ∀ a ∈ gather D.y idx, a = 0 := by
    intro idx a ha
    obtain ⟨i, -, rfl⟩ := List.mem_map.1 ha
    by_cases hi : i < D.y.length
    · rw [getD_lt _ _ _ hi]; exact hy _ (List.getElem_mem hi)
    · rw [List.getD_eq_getElem?_getD, List.getElem?_eq_none (by omega)]; rfl
  unfold reduction
  have e1 : std (splitData c.j c.t D).1.y = 0 := std_zero _ (hg _)
  have e2 : std (splitData c.j c.t D).2.y = 0 := std_zero _ (hg _)
  rw [std_zero _ hy, h2, h3, e1, e2]
  simp

/-- Zero outputs: the first admissible split is made. -/
theorem splitter_zero {cfg : Config} (hc : cfg.criterion = .modelAgnostic) {msl : ℕ} (hm : 0 < msl) {fit : Fit d}
    {D : Data d} (hy : ∀ a ∈ D.y, a = 0) {c : Cand d} {cs : List (Cand d)}
    (h : candidates cfg msl D = c :: cs) : splitter cfg msl fit D = some c := by
  unfold splitter
  rw [hc, h]
  refine scan_const _ ((0 : ℝ) : WithTop ℝ) c cs (fun q hq => ?_) (WithTop.coe_lt_top _)
  have hq' : q ∈ candidates cfg msl D := by rw [h]; exact hq
  obtain ⟨-, -, -, h4, h5⟩ := mem_candidates.1 hq'
  rw [lossSplit_agnostic hc (by omega) (by omega), reduction_zero D hy q hq']

/-- The configuration of the examples. -/
def agnostic (depth card : ℕ) : Config := ⟨.modelAgnostic, .exhaustive, 50, depth, false, card⟩

theorem candidates_square (depth card msl : ℕ) (h : msl ≤ 2) :
    ∃ cs, candidates (agnostic depth card) msl square = ⟨0, 0, half 0, half 1⟩ :: cs := by
  unfold candidates
  have hth : thresholds (agnostic depth card) square 0 = [0, 1] := by
    simp only [thresholds, agnostic, square]
    simpa using unique2
  rw [show List.finRange 2 = [0, 1] by decide, List.flatMap_cons, hth, List.filterMap_cons, split_square]
  have hc : ((half 0, half 1) : Data 2 × Data 2).1.X.length ≥ msl ∧
      ((half 0, half 1) : Data 2 × Data 2).2.X.length ≥ msl := by simp [half, h]
  simp only [if_pos hc]
  exact ⟨_, rfl⟩

theorem candidates_half (depth card : ℕ) (a : ℝ) :
    ∃ cs, candidates (agnostic depth card) 1 (half a) =
      ⟨1, 0, ⟨[![a, 0]], [0]⟩, ⟨[![a, 1]], [0]⟩⟩ :: cs := by
  unfold candidates
  have h0 : thresholds (agnostic depth card) (half a) 0 = [a] := by
    simp only [thresholds, agnostic, half]
    simpa using uniqueSame a
  have h1 : thresholds (agnostic depth card) (half a) 1 = [0, 1] := by
    simp only [thresholds, agnostic, half]
    simpa using unique1
  rw [show List.finRange 2 = [0, 1] by decide, List.flatMap_cons, List.flatMap_cons, h0, h1,
    List.filterMap_cons, split_half_same]
  have hc : ¬ (((half a, ⟨[], []⟩) : Data 2 × Data 2).1.X.length ≥ 1 ∧
      ((half a, ⟨[], []⟩) : Data 2 × Data 2).2.X.length ≥ 1) := by simp
  simp only [if_neg hc]
  rw [List.filterMap_nil, List.nil_append, List.filterMap_cons, split_half]
  simp

theorem half_zero (a : ℝ) : ∀ q ∈ (half a).y, q = 0 := by simp [half]

theorem square_zero : ∀ q ∈ square.y, q = 0 := by simp [square]

/-- The tree grown on the corners of the square: the same split is made in both halves. -/
theorem grow_square (fit : Fit 2) (card : ℕ) : grow (agnostic 2 card) 1 fit square 0 =
    .branch (fit square).2 4 0 0
      (.branch (fit (half 0)).2 2 1 0
        (.leaf (fit ⟨[![0, 0]], [0]⟩).2 1 ⟨[![0, 0]], [0]⟩)
        (.leaf (fit ⟨[![0, 1]], [0]⟩).2 1 ⟨[![0, 1]], [0]⟩))
      (.branch (fit (half 1)).2 2 1 0
        (.leaf (fit ⟨[![1, 0]], [0]⟩).2 1 ⟨[![1, 0]], [0]⟩)
        (.leaf (fit ⟨[![1, 1]], [0]⟩).2 1 ⟨[![1, 1]], [0]⟩)) := by
  obtain ⟨cs, h⟩ := candidates_square 2 card 1 (by norm_num)
  obtain ⟨cs0, h0⟩ := candidates_half 2 card 0
  obtain ⟨cs1, h1⟩ := candidates_half 2 card 1
  rw [grow, if_pos (by simp [agnostic]), splitter_zero rfl (by norm_num) square_zero h]
  simp only
  rw [grow, if_pos (by simp [agnostic]), splitter_zero rfl (by norm_num) (half_zero 0) h0]
  simp only
  rw [grow, if_neg (by simp [agnostic]), grow, if_neg (by simp [agnostic])]
  rw [grow, if_pos (by simp [agnostic]), splitter_zero rfl (by norm_num) (half_zero 1) h1]
  simp only
  rw [grow, if_neg (by simp [agnostic]), grow, if_neg (by simp [agnostic])]
  rfl

/-- C52, violated as stated: on the corners of the square the tree has four leaves but `get_splits`
reports two splits, because equal splits in different branches are listed once. This does not depend
on the fits. -/
theorem c52_splits_violated (fit : Fit 2) : ∃ s' t,
    fitTree (agnostic 2 3) fit square ⟨some 1, 0, none⟩ = .ok s' ∧ s'.tree = some t ∧
      (getPolys t []).length = 4 ∧ getSplits t [] = [(0, 0), (0, 1)] := by
  refine ⟨⟨some 1, 0, some (grow (agnostic 2 3) 1 fit square 0)⟩,
    grow (agnostic 2 3) 1 fit square 0, ?_, rfl, ?_⟩
  · have hm : resolveMsl (agnostic 2 3).cardinality (some 1) = 1 := by decide
    unfold fitTree
    simp only [hm]
    rw [if_neg (by simp [agnostic]), if_neg (not_fitsEmpty (by simp [agnostic]) _ square 0 rfl (by simp [square]))]
    norm_num
  · rw [grow_square]
    simp [getPolys, getSplits]

/-! ## C54: repeated fits -/

theorem resolveMsl_idem (card : ℕ) (o : Option ℕ) :
    resolveMsl card (some (resolveMsl card o)) = resolveMsl card o := by
  unfold resolveMsl
  cases o with
  | none => simp only; split_ifs <;> rfl
  | some m => simp only; split_ifs <;> rfl

/-- Calling `fit` `n` times with the same data. -/
noncomputable def fitTimes (cfg : Config) (fit : Fit d) (D : Data d) : ℕ → State d → Except Err (State d)
  | 0, s => .ok s
  | n + 1, s =>
    match fitTree cfg fit D s with
    | .error e => .error e
    | .ok s' => fitTimes cfg fit D n s'

/-- C54, the part that holds. For every data set and every number of `fit` calls: the tree and
`min_samples_leaf` are the same as after one call, and if the smoothing constant is zero so is the
whole object. The smoothing constant is multiplied by `min_samples_leaf` in every call. -/
theorem c54_refit_partial (cfg : Config) (fit : Fit d) (D : Data d) (s s1 : State d)
    (h : fitTree cfg fit D s = .ok s1) (n : ℕ) : ∃ s2 m, fitTimes cfg fit D n s1 = .ok s2 ∧
      s1.msl = some m ∧ s2.msl = s1.msl ∧ s2.tree = s1.tree ∧ s2.k = s1.k * m ^ n ∧
      (s.k = 0 → s2 = s1) := by
  unfold fitTree at h
  simp only at h
  split_ifs at h with hcond hemp
  obtain rfl := Except.ok.inj h
  set m := resolveMsl cfg.cardinality s.msl with hm
  have key : ∀ n (k : ℝ), fitTimes cfg fit D n ⟨some m, k, some (grow cfg m fit D 0)⟩ =
      .ok ⟨some m, k * m ^ n, some (grow cfg m fit D 0)⟩ := by
    intro n
    induction n with
    | zero => intro k; simp [fitTimes]
    | succ n ih =>
      intro k
      unfold fitTimes fitTree
      simp only
      rw [hm, resolveMsl_idem, ← hm, if_neg hcond, if_neg hemp]
      simp only
      rw [ih, pow_succ]
      congr 2
      ring
  refine ⟨_, m, key n _, rfl, rfl, rfl, rfl, fun h0 => ?_⟩
  simp [h0]

/-- A fit that returns the number of samples. -/
noncomputable def countFit : Fit 2 := fun D => ((0 : ℝ), some fun _ => D.X.length)

theorem grow_square_one (card : ℕ) : grow (agnostic 1 card) 2 countFit square 0 =
    .branch (some fun _ => 4) 4 0 0 (.leaf (some fun _ => 2) 2 (half 0)) (.leaf (some fun _ => 2) 2 (half 1)) := by
  obtain ⟨cs, h⟩ := candidates_square 1 card 2 (by norm_num)
  rw [grow, if_pos (by simp [agnostic]), splitter_zero rfl (by norm_num) square_zero h]
  simp only
  rw [grow, if_neg (by simp [agnostic]), grow, if_neg (by simp [agnostic])]
  simp [countFit, square, half]

/-- C54, violated as stated: a second `fit` with the same data changes the predictions. -/
theorem c54_refit_violated : ∃ s1 s2 : State 2,
    fitTree (agnostic 1 3) countFit square ⟨some 2, 1, none⟩ = .ok s1 ∧
    fitTree (agnostic 1 3) countFit square s1 = .ok s2 ∧
    predict s1 ![0, 0] = .ok (some (8/3)) ∧ predict s2 ![0, 0] = .ok (some 3) := by
  have hm : resolveMsl (agnostic 1 3).cardinality (some 2) = 2 := by decide
  refine ⟨⟨some 2, 2, some (grow (agnostic 1 3) 2 countFit square 0)⟩,
    ⟨some 2, 4, some (grow (agnostic 1 3) 2 countFit square 0)⟩, ?_, ?_, ?_, ?_⟩
  · unfold fitTree
    simp only [hm]
    rw [if_neg (by simp [agnostic]), if_neg (not_fitsEmpty (by simp [agnostic]) _ square 0 rfl (by simp [square]))]
    norm_num
  · unfold fitTree
    simp only [hm]
    rw [if_neg (by simp [agnostic]), if_neg (not_fitsEmpty (by simp [agnostic]) _ square 0 rfl (by simp [square]))]
    norm_num
  · simp only [predict]
    rw [grow_square_one]
    simp [predictNode, evalPoly, Except.map, blend]
    norm_num
  · simp only [predict]
    rw [grow_square_one]
    simp [predictNode, evalPoly, Except.map, blend]
    norm_num

end EQ.Tree
