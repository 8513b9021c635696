import Verif.Tree.MoreProps

/-!
# Polynomial trees: pruning (C56), and examples for C51–C53, C55, C88, C89
-/

namespace EQ.Tree
open EQ.Basis

variable {d : ℕ}

/-! ## Specification -/

/-- `b` is `a` with some inner nodes turned into leaves: a leaf made this way keeps the polynomial of
the node, every node that is left keeps polynomial, split feature and threshold. -/
inductive Collapses : Node d → Node d → Prop
  | leaf (p n n' D) : Collapses (.leaf p n D) (.leaf p n' D)
  | cut (p n n' j t l r D) : Collapses (.branch p n j t l r) (.leaf p n' D)
  | keep (p n n' j t l r l' r') : Collapses l l' → Collapses r r' →
      Collapses (.branch p n j t l r) (.branch p n' j t l' r')

theorem Collapses.refl' : ∀ (t : Node d), Collapses t t
  | .leaf p n D => .leaf p n n D
  | .branch p n j t l r => .keep p n n j t l r l r (refl' l) (refl' r)

theorem Collapses.same (n' : ℕ) (p n j t l r) :
    Collapses (d := d) (.branch p n j t l r) (.branch p n' j t l r) :=
  .keep p n n' j t l r l r (Collapses.refl' l) (Collapses.refl' r)

/-- The polynomial of a node. -/
def Node.poly : Node d → Option (PolyFn d)
  | .leaf p _ _ => p
  | .branch p _ _ _ _ _ => p

/-- The polynomial of the leaf that a point falls into. -/
noncomputable def Node.polyAt (x : Pt d) : Node d → Option (PolyFn d)
  | .leaf p _ _ => p
  | .branch _ _ j t l r => if x j ≤ t then l.polyAt x else r.polyAt x

/-- Squared error of a polynomial at a row, zero if there is none. -/
noncomputable def sqErr (p : Option (PolyFn d)) (r : Pt d × ℝ) : ℝ :=
  match p with
  | none => 0
  | some f => (r.2 - f r.1) ^ 2

/-- Sum of the squared errors of the leaf polynomials on a data set. -/
noncomputable def treeSSE (t : Node d) (V : Data d) : ℝ := (V.rows.map fun r => sqErr (t.polyAt r.1) r).sum

/-- Sum of the squared errors of the polynomial of a node on a data set. -/
noncomputable def ownSSE (t : Node d) (V : Data d) : ℝ := (V.rows.map fun r => sqErr t.poly r).sum

/-- Every node records as its number of samples the number of rows of `V` that reach it. -/
noncomputable def Matched : Node d → Data d → Prop
  | .leaf _ n _, V => n = V.X.length
  | .branch _ n j t l r, V => n = V.X.length ∧ Matched l (splitData j t V).1 ∧ Matched r (splitData j t V).2

/-! ## What pruning does -/

theorem pruner_collapses : ∀ (t : Node d) (V : Data d) (t' : Node d) (e : ℝ),
    pruner t V = .ok (t', e) → Collapses t t' ∧
      (V.X.length = 0 → t'.samples = 0) ∧ (V.X.length ≠ 0 → t'.samples = t.samples) := by
  intro t
  induction t with
  | leaf p n D =>
    intro V t' e h
    unfold pruner at h
    split at h
    · rename_i hV
      obtain ⟨rfl, -⟩ := Prod.mk.inj (Except.ok.inj h)
      exact ⟨.leaf .., fun _ => rfl, fun hc => absurd hc (by omega)⟩
    · rename_i hV
      split at h
      · cases h
      · obtain ⟨rfl, -⟩ := Prod.mk.inj (Except.ok.inj h)
        exact ⟨.leaf .., fun hc => absurd hc (by omega), fun _ => rfl⟩
  | branch p n j t l r ihl ihr =>
    intro V t' e h
    unfold pruner at h
    split at h
    · rename_i hV
      obtain ⟨rfl, -⟩ := Prod.mk.inj (Except.ok.inj h)
      exact ⟨.same .., fun _ => rfl, fun hc => absurd hc (by omega)⟩
    · rename_i hV
      split at h
      · cases h
      · split at h
        · cases h
        · rename_i l' el hl
          split at h
          · cases h
          · rename_i r' er hr
            split at h
            · obtain ⟨rfl, -⟩ := Prod.mk.inj (Except.ok.inj h)
              exact ⟨.cut .., fun hc => absurd hc (by omega), fun _ => rfl⟩
            · obtain ⟨rfl, -⟩ := Prod.mk.inj (Except.ok.inj h)
              exact ⟨.keep _ _ _ _ _ _ _ _ _ (ihl _ _ _ hl).1 (ihr _ _ _ hr).1,
                fun hc => absurd hc (by omega), fun _ => rfl⟩

theorem Collapses.poly {a b : Node d} (h : Collapses a b) : b.poly = a.poly := by
  cases h <;> rfl

theorem Collapses.splits {a b : Node d} (h : Collapses a b) : b.splits.Sublist a.splits := by
  induction h with
  | leaf => exact List.Sublist.refl _
  | cut => simp [Node.splits]
  | keep p n n' j t l r l' r' hl hr ihl ihr =>
    simp only [Node.splits]
    exact (ihl.append ihr).cons_cons _

theorem Collapses.leaves_le {a b : Node d} (h : Collapses a b) : b.leaves.length ≤ a.leaves.length := by
  induction h with
  | leaf => simp [Node.leaves]
  | cut p n n' j t l r D =>
    have : ∀ q : Node d, 1 ≤ q.leaves.length := by
      intro q
      induction q with
      | leaf => simp [Node.leaves]
      | branch _ _ _ _ _ _ h1 h2 => simp only [Node.leaves, List.length_append]; omega
    exact this _
  | keep p n n' j t l r l' r' hl hr ihl ihr =>
    simp only [Node.leaves, List.length_append]
    omega

theorem rows_nil {V : Data d} (h : V.X.length < 1) : V.rows = [] := by
  have : V.X = [] := List.eq_nil_of_length_eq_zero (by omega)
  simp [Data.rows, this]

theorem treeSSE_branch (p n j t) (l r : Node d) (V : Data d) (hV : V.Paired) :
    treeSSE (.branch p n j t l r) V = treeSSE l (splitData j t V).1 + treeSSE r (splitData j t V).2 := by
  obtain ⟨-, -, h1, h2⟩ := c51_split V hV j t
  unfold treeSSE
  rw [h1, h2]
  induction V.rows with
  | nil => simp
  | cons a rows ih =>
    by_cases ha : a.1 j ≤ t
    · rw [List.map_cons, List.sum_cons, ih, List.filter_cons_of_pos (by simpa using ha),
        List.filter_cons_of_neg (by simpa using ha), List.map_cons, List.sum_cons]
      rw [show (Node.branch p n j t l r).polyAt a.1 = l.polyAt a.1 by simp [Node.polyAt, ha]]
      ring
    · rw [List.map_cons, List.sum_cons, ih, List.filter_cons_of_neg (by simpa using ha),
        List.filter_cons_of_pos (by simpa using ha), List.map_cons, List.sum_cons]
      rw [show (Node.branch p n j t l r).polyAt a.1 = r.polyAt a.1 by simp [Node.polyAt, ha]]
      ring

theorem mse_own {f : PolyFn d} {V : Data d} (hV : ¬ V.X.length < 1) :
    mse f V * V.X.length = (V.rows.map fun r => sqErr (some f) r).sum := by
  have : (V.X.length : ℝ) ≠ 0 := by
    have : V.X.length ≠ 0 := by omega
    exact_mod_cast this
  unfold mse Data.rows
  rw [div_mul_cancel₀ _ this]
  rfl

/-- The length of a data set is the sum of the lengths of the two parts. -/
theorem split_length (V : Data d) (hV : V.Paired) (j : Fin d) (t : ℝ) :
    (splitData j t V).1.X.length + (splitData j t V).2.X.length = V.X.length := by
  obtain ⟨p1, p2, h1, h2⟩ := c51_split V hV j t
  rw [← rows_length p1, ← rows_length p2, ← rows_length hV, h1, h2]
  have := List.length_eq_length_filter_add (l := V.rows) (fun r => decide (r.1 j ≤ t))
  rw [this]
  congr 2
  refine List.filter_congr fun r _ => ?_
  rw [decide_not]

theorem pruner_error : ∀ (t : Node d) (V : Data d) (t' : Node d) (e : ℝ), V.Paired → Matched t V →
    pruner t V = .ok (t', e) → treeSSE t' V ≤ ownSSE t V ∧ e * V.X.length = ownSSE t V ∧
      t'.samples = V.X.length := by
  intro t
  induction t with
  | leaf p n D =>
    intro V t' e hV hm h
    unfold pruner at h
    split at h
    · rename_i hc
      obtain ⟨rfl, rfl⟩ := Prod.mk.inj (Except.ok.inj h)
      simp [treeSSE, ownSSE, rows_nil hc, Node.samples]
      omega
    · rename_i hc
      split at h
      · cases h
      · obtain ⟨rfl, rfl⟩ := Prod.mk.inj (Except.ok.inj h)
        exact ⟨le_refl _, mse_own hc, hm⟩
  | branch p n j t l r ihl ihr =>
    intro V t' e hV hm h
    unfold pruner at h
    split at h
    · rename_i hc
      obtain ⟨rfl, rfl⟩ := Prod.mk.inj (Except.ok.inj h)
      simp [treeSSE, ownSSE, rows_nil hc, Node.samples]
      omega
    · rename_i hc
      obtain ⟨hn, hml, hmr⟩ := hm
      obtain ⟨p1, p2, -, -⟩ := c51_split V hV j t
      split at h
      · cases h
      · rename_i f
        split at h
        · cases h
        · rename_i l' el hl
          split at h
          · cases h
          · rename_i r' er hr
            obtain ⟨a1, a2, a3⟩ := ihl _ _ _ p1 hml hl
            obtain ⟨b1, b2, b3⟩ := ihr _ _ _ p2 hmr hr
            have hown : mse f V * V.X.length = ownSSE (.branch (some f) n j t l r) V := mse_own hc
            split at h
            · obtain ⟨rfl, rfl⟩ := Prod.mk.inj (Except.ok.inj h)
              exact ⟨le_refl _, hown, hn⟩
            · rename_i hcmp
              obtain ⟨rfl, rfl⟩ := Prod.mk.inj (Except.ok.inj h)
              refine ⟨?_, hown, hn⟩
              have hlen := split_length V hV j t
              have hpos : (0 : ℝ) < V.X.length := by
                have : 0 < V.X.length := by omega
                exact_mod_cast this
              rw [a3, b3, hlen] at hcmp
              have hle : (el * (splitData j t V).1.X.length + er * (splitData j t V).2.X.length) /
                  V.X.length ≤ mse f V := by
                by_contra hcon
                refine hcmp ⟨by omega, ?_⟩
                rw [← Nat.cast_add, hlen]
                exact not_le.1 hcon
              rw [div_le_iff₀ hpos, a2, b2, hown] at hle
              rw [treeSSE_branch _ _ _ _ _ _ _ hV]
              linarith

/-- C56, the part that holds. For every fitted tree and every validation set: if `prune` returns, the
smoothing constant, `min_samples_leaf` and the root are unchanged and the new tree is the old one with
inner nodes turned into leaves (so the splits left are some of the old ones, in order). If the number
of samples that every node below the root records is the number of validation rows that reach it, then
below the root the pruned tree is at least as accurate on the validation set as the two polynomials of
the root's children.
Missing: that the error on the validation set does not grow (`c56_error_violated`), that predictions
elsewhere are unaffected (`c56_unreached_violated`), unsplit trees (`c56_unsplit_violated`). -/
theorem c56_prune_partial (s s' : State d) (V : Data d) (h : prune s V = .ok s') :
    s'.k = s.k ∧ s'.msl = s.msl ∧ ∃ p n j t l r l' r', s.tree = some (.branch p n j t l r) ∧
      s'.tree = some (.branch p n j t l' r') ∧ Collapses l l' ∧ Collapses r r' ∧
      (Node.branch p n j t l' r').splits.Sublist (Node.branch p n j t l r).splits ∧
      (V.Paired → Matched l (splitData j t V).1 → Matched r (splitData j t V).2 →
        treeSSE (.branch p n j t l' r') V ≤
          ownSSE l (splitData j t V).1 + ownSSE r (splitData j t V).2) := by
  unfold prune at h
  split at h
  · cases h
  · cases h
  · rename_i p n j t l r htree
    split at h
    · cases h
    · rename_i l' el hl
      split at h
      · cases h
      · rename_i r' er hr
        obtain rfl := Except.ok.inj h
        have hcl := (pruner_collapses _ _ _ _ hl).1
        have hcr := (pruner_collapses _ _ _ _ hr).1
        refine ⟨rfl, rfl, p, n, j, t, l, r, l', r', htree, rfl, hcl, hcr,
          (Collapses.keep p n n j t l r l' r' hcl hcr).splits, fun hV hml hmr => ?_⟩
        obtain ⟨p1, p2, -, -⟩ := c51_split V hV j t
        rw [treeSSE_branch _ _ _ _ _ _ _ hV]
        exact add_le_add (pruner_error _ _ _ _ p1 hml hl).1 (pruner_error _ _ _ _ p2 hmr hr).1

/-! ## What pruning does not do -/

/-- A tree with one inner node below the root. The recorded numbers of samples are 9 and 1. -/
noncomputable def deepTree : Node 1 :=
  .branch (some fun _ => 0) 20 0 10
    (.branch (some fun _ => 0) 10 0 0 (.leaf (some fun _ => -1) 9 ⟨[], []⟩) (.leaf (some fun _ => 2) 1 ⟨[], []⟩))
    (.leaf (some fun _ => 0) 10 ⟨[], []⟩)

/-- Two validation rows, one for each of the two lower leaves. -/
noncomputable def twoRows : Data 1 := ⟨[fun _ => 0, fun _ => 1], [1, 2]⟩

/-- C56, violated as stated: the losses of the children are weighted by the numbers of *training*
samples, so pruning can raise the error on the validation set (from 4 to 5). -/
theorem c56_error_violated : ∃ s' t', prune ⟨some 1, 0, some deepTree⟩ twoRows = .ok s' ∧
    s'.tree = some t' ∧ treeSSE deepTree twoRows = 4 ∧ treeSSE t' twoRows = 5 := by
  have e1 : splitData 0 10 twoRows = (twoRows, ⟨[], []⟩) := by
    simp [splitData, idxLeft, idxRight, gather, twoRows, List.range_succ]
  have e2 : splitData 0 0 twoRows = (⟨[fun _ => 0], [1]⟩, ⟨[fun _ => 1], [2]⟩) := by
    simp [splitData, idxLeft, idxRight, gather, twoRows, List.range_succ]
  have hp : pruner (.branch (some fun _ => 0) 10 0 0 (.leaf (some fun _ => -1) 9 ⟨[], []⟩)
      (.leaf (some fun _ => 2) 1 ⟨[], []⟩)) twoRows = .ok (.leaf (some fun _ => 0) 10 ⟨[], []⟩, 5/2) := by
    have hm : mse (fun _ => 0) twoRows = 5/2 := by
      simp [mse, twoRows]
      norm_num
    have h1 : ¬ twoRows.X.length < 1 := by simp [twoRows]
    unfold pruner
    rw [if_neg h1]
    simp only [e2, hm]
    simp [pruner, mse, Node.samples]
    norm_num
  refine ⟨⟨some 1, 0, some (.branch (some fun _ => 0) 20 0 10 (.leaf (some fun _ => 0) 10 ⟨[], []⟩)
      (.leaf (some fun _ => 0) 0 ⟨[], []⟩))⟩, _, ?_, rfl, ?_, ?_⟩
  · unfold prune deepTree
    simp only [e1, hp]
    simp [pruner]
  · simp [treeSSE, deepTree, twoRows, Data.rows, Node.polyAt, sqErr]
    norm_num
  · simp [treeSSE, twoRows, Data.rows, Node.polyAt, sqErr]
    norm_num

/-- C56, violated: after pruning with a validation set none of whose rows falls into the left (say)
half of the tree, the prediction at *every* point of that half is `nan` without smoothing, and with
smoothing it no longer depends on the leaves there. -/
theorem c56_unreached_violated (s : State d) (V : Data d) (p q : PolyFn d) (n m : ℕ) (j i : Fin d)
    (t u : ℝ) (a b r : Node d) (hs : s.tree = some (.branch (some p) n j t (.branch (some q) m i u a b) r))
    (hV : ∀ v ∈ V.X, ¬ v j ≤ t) (s' : State d) (h : prune s V = .ok s') (x : Pt d) (hx : x j ≤ t) :
    ∀ y, predictNode s.k x (if x i ≤ u then a else b) = .ok (some y) →
      (s.k = 0 → predict s' x = .ok none) ∧
      (0 < s.k → predict s' x = .ok (some ((q x * n + p x * s.k) / (s.k + n)))) := by
  intro y hy
  have hl : (splitData j t V).1.X.length < 1 := by
    have : idxLeft j t V.X = [] := by
      unfold idxLeft
      rw [List.filter_eq_nil_iff]
      intro k hk
      have hk' := List.mem_range.1 hk
      rw [getD_lt _ _ _ hk']
      simpa using hV _ (List.getElem_mem hk')
    simp [splitData, this, gather]
  have hpl : pruner (.branch (some q) m i u a b) (splitData j t V).1 = .ok (.branch (some q) 0 i u a b, 0) := by
    unfold pruner
    rw [if_pos hl]
  unfold prune at h
  rw [hs] at h
  simp only [hpl] at h
  split at h
  · cases h
  · rename_i r' er hr
    obtain rfl := Except.ok.inj h
    have hnode : predictNode s.k x (.branch (some q) 0 i u a b) = .ok (blend s.k 0 (q x) (some y)) := by
      unfold predictNode
      simp only [evalPoly]
      split_ifs with hc
      · rw [if_pos hc] at hy; rw [hy]; rfl
      · rw [if_neg hc] at hy; rw [hy]; rfl
    have hpred : predict { s with tree := some (.branch (some p) n j t (.branch (some q) 0 i u a b) r') } x =
        .ok (blend s.k n (p x) (blend s.k 0 (q x) (some y))) := by
      unfold predict
      simp only
      rw [predictNode]
      simp only [evalPoly]
      rw [if_pos hx, hnode]
      rfl
    refine ⟨fun hk => ?_, fun hk => ?_⟩
    · rw [hpred, hk]
      simp [blend]
    · rw [hpred]
      have hn : (0 : ℝ) ≤ n := Nat.cast_nonneg n
      have h1 : s.k ≠ 0 := hk.ne'
      have h2 : s.k + n ≠ 0 := by positivity
      simp only [blend, Nat.cast_zero, add_zero, mul_zero, zero_add, if_neg h1, if_neg h2]
      rw [mul_div_assoc, div_self h1, mul_one]

/-- C56, violated: `prune` after a `fit` that made no split raises `TypeError`, for every data set with
fewer than twice `min_samples_leaf` rows. -/
theorem c56_unsplit_violated (cfg : Config) (fit : Fit d) (D V : Data d) (hD : D.Paired) (s s' : State d)
    (h : fitTree cfg fit D s = .ok s') (hsmall : D.X.length < 2 * resolveMsl cfg.cardinality s.msl) :
    prune s' V = .error .typeError := by
  unfold fitTree at h
  simp only at h
  split_ifs at h
  obtain rfl := Except.ok.inj h
  have hnone : splitter cfg (resolveMsl cfg.cardinality s.msl) fit D = none := by
    by_contra hne
    obtain ⟨c, hc⟩ := Option.ne_none_iff_exists'.1 hne
    obtain ⟨-, h2, h3, h4, h5⟩ := mem_candidates.1 (splitter_mem hc)
    have := split_length D hD c.j c.t
    rw [h2] at h4
    rw [h3] at h5
    omega
  have : grow cfg (resolveMsl cfg.cardinality s.msl) fit D 0 = .leaf (fit D).2 D.X.length D := by
    rw [grow, hnone]
    simp
  simp only [prune, this]

/-! ## Examples -/

/-- C51, C52, C53: a fit that splits, and whose hypotheses hold. -/
example (fit : Fit 2) : square.Paired ∧ (∃ s', fitTree (agnostic 2 3) fit square ⟨some 1, 1, none⟩ = .ok s') ∧
    (0 : ℝ) ≤ 1 ∧ (some 1 : Option ℕ) ≠ some 0 ∧ 0 < (agnostic 2 3).cardinality :=
  ⟨rfl, by
    unfold fitTree
    rw [if_neg (by simp [agnostic]), if_neg (not_fitsEmpty (by simp [agnostic]) _ square 0 rfl (by simp [square]))]
    exact ⟨_, rfl⟩, by norm_num, by simp, by decide⟩

/-- Four points on a line with a jump in the output. -/
noncomputable def step : Data 1 := ⟨[fun _ => 0, fun _ => 1, fun _ => 2, fun _ => 3], [0, 0, 1, 1]⟩

/-- C55: on `step` the split between 1 and 2, which separates the outputs, reduces the standard
deviation more than the split between 0 and 1; both are admissible. So the split made is another. -/
example (fit : Fit 1) : ∃ c, splitter (agnostic 3 3) 1 fit step = some c ∧ reduction step c < 1/2 := by
  have e0 : splitData 0 0 step = (⟨[fun _ => 0], [0]⟩, ⟨[fun _ => 1, fun _ => 2, fun _ => 3], [0, 1, 1]⟩) := by
    simp [splitData, idxLeft, idxRight, gather, step, List.range_succ]
  have e1 : splitData 0 1 step = (⟨[fun _ => 0, fun _ => 1], [0, 0]⟩, ⟨[fun _ => 2, fun _ => 3], [1, 1]⟩) := by
    simp [splitData, idxLeft, idxRight, gather, step, List.range_succ]
  have hth : ∀ t : ℝ, t = 0 ∨ t = 1 → t ∈ thresholds (agnostic 3 3) step 0 := by
    intro t ht
    simp only [thresholds, agnostic, uniqueSorted, List.mem_mergeSort, List.mem_dedup, step]
    rcases ht with rfl | rfl <;> simp
  have hstep : std step.y = 1/2 := by
    simp only [std, step]
    norm_num
    rw [show (4 : ℝ) = 2 ^ 2 by norm_num, Real.sqrt_sq (by norm_num)]
    norm_num
  have h2 : reduction step ⟨0, 1, (splitData 0 1 step).1, (splitData 0 1 step).2⟩ = 1/2 := by
    unfold reduction
    rw [hstep, e1]
    simp [std]
  have h1 : reduction step ⟨0, 0, (splitData 0 0 step).1, (splitData 0 0 step).2⟩ < 1/2 := by
    unfold reduction
    rw [hstep, e0]
    simp only [std, step]
    have hpos : 0 < √((([0, 1, 1] : List ℝ).map fun a => (a - ([0, 1, 1] : List ℝ).sum /
        ([0, 1, 1] : List ℝ).length) ^ 2).sum / ([0, 1, 1] : List ℝ).length) := by
      apply Real.sqrt_pos.2
      norm_num
    have h0 : (0 : ℝ) ≤ √((([0] : List ℝ).map fun a => (a - ([0] : List ℝ).sum /
        ([0] : List ℝ).length) ^ 2).sum / ([0] : List ℝ).length) := Real.sqrt_nonneg _
    have : (0 : ℝ) < ((([fun _ => 0] : List (Pt 1)).length : ℝ) * √((([0] : List ℝ).map fun a => (a - ([0] : List ℝ).sum /
        ([0] : List ℝ).length) ^ 2).sum / ([0] : List ℝ).length) + ((([fun _ => 1, fun _ => 2, fun _ => 3] : List (Pt 1)).length : ℝ)) *
        √((([0, 1, 1] : List ℝ).map fun a => (a - ([0, 1, 1] : List ℝ).sum /
        ([0, 1, 1] : List ℝ).length) ^ 2).sum / ([0, 1, 1] : List ℝ).length)) / 4 := by
      simp only [List.length_cons, List.length_nil]
      push_cast
      positivity
    simpa using this
  have := c55_agnostic_violated (agnostic 3 3) rfl 1 Nat.one_pos fit step _ _
    (mem_candidates.2 ⟨hth 0 (.inl rfl), rfl, rfl, by rw [e0]; simp, by rw [e0]; simp⟩)
    (mem_candidates.2 ⟨hth 1 (.inr rfl), rfl, rfl, by rw [e1]; simp, by rw [e1]; simp⟩)
    (lt_of_lt_of_eq h1 h2.symm)
  rwa [h2] at this

/-- C89: on `square` there is an admissible split. -/
example : square.X ≠ [] ∧ candidates (agnostic 2 3) (resolveMsl 3 (some 2)) square ≠ [] := by
  refine ⟨by simp [square], ?_⟩
  obtain ⟨cs, h⟩ := candidates_square 2 3 2 (le_refl _)
  rw [show resolveMsl 3 (some 2) = 2 by decide, h]
  simp

/-- C88: hypotheses of `c88_training_error` for the model-aware criterion. -/
example : (∃ s', fitTree ⟨.modelAware, .exhaustive, 50, 2, false, 3⟩ countFit square ⟨none, 0, none⟩ = .ok s') ∧
    square.Paired ∧ (countFit square).1 = ((0 : ℝ) : WithTop ℝ) :=
  ⟨by
    unfold fitTree
    rw [if_neg (by simp), if_neg (not_fitsEmpty (by simp [resolveMsl]) _ square 0 rfl (by simp [square]))]
    exact ⟨_, rfl⟩, rfl, rfl⟩

/-- C56: the fitted trees whose counts are those of the training set are matched by it. -/
theorem Grown.matched {cfg : Config} {msl : ℕ} {fit : Fit d} {D : Data d} {depth : ℕ} {t : Node d}
    (h : Grown cfg msl fit D depth t) : Matched t D := by
  induction h with
  | leaf D depth => rfl
  | branch D depth c l r hd hs hl hr ihl ihr =>
    obtain ⟨-, h2, h3, -, -⟩ := mem_candidates.1 (splitter_mem hs)
    refine ⟨rfl, ?_, ?_⟩
    · rw [← h2]; exact ihl
    · rw [← h3]; exact ihr

/-- C56: pruning with the training set itself, so the hypotheses of the last part of
`c56_prune_partial` hold (the fit of `square` is matched by `square`). -/
example (fit : Fit 2) : Matched (grow (agnostic 2 3) 1 fit square 0) square :=
  (grow_grown (agnostic 2 3) 1 fit square 0).matched

end EQ.Tree
