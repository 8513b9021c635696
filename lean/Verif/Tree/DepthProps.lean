import Verif.Tree.CandProps

/-!
# Trees of different depth (C223)
-/

namespace EQ.Tree
open EQ.Basis

variable {d : ℕ}

/-- The first tree is the second cut off below depth `k`: it has the same nodes down to that depth, with the same polynomials,
numbers of samples and splits, and a leaf where the second goes on below. -/
def Spec.Cut : ℕ → Node d → Node d → Prop
  | _, .leaf p n D, .leaf p' n' D' => p = p' ∧ n = n' ∧ D = D'
  | 0, .leaf p n _, .branch p' n' _ _ _ _ => p = p' ∧ n = n'
  | k + 1, .branch p n j t l r, .branch p' n' j' t' l' r' =>
    p = p' ∧ n = n' ∧ j = j' ∧ t = t' ∧ Spec.Cut k l l' ∧ Spec.Cut k r r'
  | _, _, _ => False

theorem cut_path {k : ℕ} {s t : Node d} (h : Spec.Cut k s t) (x : Pt d) : s.path x = (t.path x).take (k + 1) := by
  induction k generalizing s t with
  | zero =>
    cases s <;> cases t <;> simp_all [Spec.Cut, Node.path]
  | succ k ih =>
    cases s <;> cases t
    · simp_all [Spec.Cut, Node.path]
    · simp [Spec.Cut] at h
    · simp [Spec.Cut] at h
    · obtain ⟨rfl, rfl, rfl, rfl, h1, h2⟩ := h
      simp only [Node.path, List.take_succ_cons, ih h1, ih h2]
      split_ifs <;> rfl

theorem cut_splits {k : ℕ} {s t : Node d} (h : Spec.Cut k s t) : s.splits.Sublist t.splits := by
  induction k generalizing s t with
  | zero => cases s <;> cases t <;> simp_all [Spec.Cut, Node.splits]
  | succ k ih =>
    cases s <;> cases t
    · simp [Node.splits]
    · simp [Spec.Cut] at h
    · simp [Spec.Cut] at h
    · obtain ⟨rfl, rfl, rfl, rfl, h1, h2⟩ := h
      exact ((ih h1).append (ih h2)).cons_cons _

theorem cut_eq {k : ℕ} {s t : Node d} (h : Spec.Cut k s t) (ht : t.height ≤ k) : s = t := by
  induction k generalizing s t with
  | zero => cases s <;> cases t <;> simp_all [Spec.Cut, Node.height]
  | succ k ih =>
    cases s <;> cases t
    · obtain ⟨rfl, rfl, rfl⟩ := h
      rfl
    · simp [Spec.Cut] at h
    · simp [Spec.Cut] at h
    · obtain ⟨rfl, rfl, rfl, rfl, h1, h2⟩ := h
      simp only [Node.height] at ht
      rw [ih h1 (by omega), ih h2 (by omega)]

theorem grow_cut (cfg : Config) (msl : ℕ) (fit : Fit d) {a b : ℕ} (hab : a ≤ b) : ∀ (k : ℕ) (D : Data d) (depth : ℕ),
    depth + k = a → Spec.Cut k (grow { cfg with maxDepth := a } msl fit D depth) (grow { cfg with maxDepth := b } msl fit D depth)
  | 0, D, depth, hk => by
    rw [grow, if_neg (by simp only; omega), grow]
    split_ifs
    · split
      · exact ⟨rfl, rfl, rfl⟩
      · exact ⟨rfl, rfl⟩
    · exact ⟨rfl, rfl, rfl⟩
  | k + 1, D, depth, hk => by
    rw [grow, if_pos (by simp only; omega), grow, if_pos (by simp only; omega)]
    change Spec.Cut (k + 1) (match splitter cfg msl fit D with | none => _ | some c => _)
      (match splitter cfg msl fit D with | none => _ | some c => _)
    cases splitter cfg msl fit D with
    | none => exact ⟨rfl, rfl, rfl⟩
    | some c =>
      exact ⟨rfl, rfl, rfl, rfl, grow_cut cfg msl fit hab k c.left (depth + 1) (by omega),
        grow_cut cfg msl fit hab k c.right (depth + 1) (by omega)⟩

theorem fitsEmpty_mono (cfg : Config) (msl : ℕ) (fit : Fit d) {a b : ℕ} (hab : a ≤ b) : ∀ (k : ℕ) (D : Data d) (depth : ℕ),
    depth + k = a → fitsEmpty { cfg with maxDepth := a } msl fit D depth → fitsEmpty { cfg with maxDepth := b } msl fit D depth
  | 0, D, depth, hk => by
    intro h
    rw [fitsEmpty, if_neg (by simp only; omega), or_false] at h
    rw [fitsEmpty]
    exact .inl h
  | k + 1, D, depth, hk => by
    intro h
    rw [fitsEmpty, if_pos (by simp only; omega)] at h
    rw [fitsEmpty, if_pos (by simp only; omega)]
    rcases h with h | h | h
    · exact .inl h
    · exact .inr (.inl h)
    · refine .inr (.inr ?_)
      change (match splitter cfg msl fit D with | none => _ | some c => _) at h
      change (match splitter cfg msl fit D with | none => _ | some c => _)
      cases hs : splitter cfg msl fit D with
      | none => rw [hs] at h; exact h
      | some c =>
        rw [hs] at h
        rcases h with h | h
        · exact .inl (fitsEmpty_mono cfg msl fit hab k c.left (depth + 1) (by omega) h)
        · exact .inr (fitsEmpty_mono cfg msl fit hab k c.right (depth + 1) (by omega) h)

/-- C223. If fitting succeeds with `max_depth = b`, it does with every smaller `max_depth = a`; the tree is then the deeper tree cut
off below depth `a`: a point meets the same polynomials down to that depth, all splits are splits of the deeper tree, and if the
deeper tree does not go below depth `a` the trees are the same. -/
theorem c223_depth (cfg : Config) (fit : Fit d) (D : Data d) (s sb : State d) {a b : ℕ} (hab : a ≤ b)
    (h : fitTree { cfg with maxDepth := b } fit D s = .ok sb) :
    ∃ sa ta tb, fitTree { cfg with maxDepth := a } fit D s = .ok sa ∧ sa.tree = some ta ∧ sb.tree = some tb ∧
      sa.msl = sb.msl ∧ sa.k = sb.k ∧ Spec.Cut a ta tb ∧ (∀ x, ta.path x = (tb.path x).take (a + 1)) ∧
      ta.splits.Sublist tb.splits ∧ (tb.height ≤ a → ta = tb) := by
  unfold fitTree at h ⊢
  simp only at h ⊢
  split_ifs at h with h1 h2
  obtain rfl := Except.ok.inj h
  have hc := grow_cut cfg (resolveMsl cfg.cardinality s.msl) fit hab a D 0 (by omega)
  refine ⟨⟨_, _, some (grow { cfg with maxDepth := a } (resolveMsl cfg.cardinality s.msl) fit D 0)⟩, _, _, ?_, rfl, rfl, rfl, rfl, hc,
    cut_path hc, cut_splits hc, cut_eq hc⟩
  exact (if_neg h1).trans (if_neg fun h => h2 (fitsEmpty_mono cfg _ fit hab a D 0 (by omega) h))

theorem leafError_branch (fit : Fit d) (p : Option (PolyFn d)) (n : ℕ) (j : Fin d) (t : ℝ) (l r : Node d) :
    leafError fit (.branch p n j t l r) = leafError fit l + leafError fit r := by
  simp [leafError, Node.leaves]

theorem grow_error (cfg : Config) (hc : cfg.criterion = .modelAware) {msl : ℕ} (hm : 0 < msl) (fit : Fit d) {a b : ℕ}
    (hab : a ≤ b) : ∀ (k : ℕ) (D : Data d) (depth : ℕ), D.Paired → depth + k = a →
    leafError fit (grow { cfg with maxDepth := b } msl fit D depth) ≤ leafError fit (grow { cfg with maxDepth := a } msl fit D depth)
  | 0, D, depth, hD, hk => by
    have hleaf : grow { cfg with maxDepth := a } msl fit D depth = .leaf (fit D).2 D.X.length D := by
      rw [grow, if_neg (by simp only; omega)]
    rw [hleaf]
    cases ha : (fit D).1 with
    | top => simp [leafError, Node.leaves, ha]
    | coe v =>
      refine (Grown.leafError_le (cfg := { cfg with maxDepth := b }) hc hm hD (grow_grown _ msl fit D depth) v ha).trans ?_
      simp only [leafError, Node.leaves, List.map_cons, List.map_nil, List.sum_cons, List.sum_nil, add_zero]
      rw [ha]
  | k + 1, D, depth, hD, hk => by
    rw [grow, if_pos (by simp only; omega), grow.eq_1 { cfg with maxDepth := a }, if_pos (by simp only; omega)]
    change leafError fit (match splitter cfg msl fit D with | none => _ | some c => _) ≤
      leafError fit (match splitter cfg msl fit D with | none => _ | some c => _)
    cases hs : splitter cfg msl fit D with
    | none => exact le_rfl
    | some c =>
      obtain ⟨p1, p2, -, -⟩ := cand_rows hD (splitter_mem hs)
      simp only [leafError_branch]
      exact add_le_add (grow_error cfg hc hm fit hab k c.left (depth + 1) p1 (by omega))
        (grow_error cfg hc hm fit hab k c.right (depth + 1) p2 (by omega))

/-- C223, the training error: with the model-aware criterion it does not grow with `max_depth`. -/
theorem c223_error (cfg : Config) (hc : cfg.criterion = .modelAware) (fit : Fit d) (D : Data d) (hD : D.Paired)
    (s sa sb : State d) {a b : ℕ} (hab : a ≤ b) (hm : s.msl ≠ some 0) (hcard : 0 < cfg.cardinality)
    (ha : fitTree { cfg with maxDepth := a } fit D s = .ok sa) (hb : fitTree { cfg with maxDepth := b } fit D s = .ok sb) :
    ∃ ta tb, sa.tree = some ta ∧ sb.tree = some tb ∧ leafError fit tb ≤ leafError fit ta := by
  unfold fitTree at ha hb
  simp only at ha hb
  split_ifs at ha hb
  obtain rfl := Except.ok.inj ha
  obtain rfl := Except.ok.inj hb
  have hmsl : 0 < resolveMsl cfg.cardinality s.msl := by
    unfold resolveMsl
    split
    · omega
    · split_ifs
      · omega
      · rename_i m heq hne
        rcases Nat.eq_zero_or_pos m with rfl | h
        · exact absurd heq hm
        · exact h
  exact ⟨_, _, rfl, rfl, grow_error cfg hc hmsl fit hab a D 0 hD (by omega)⟩

/-- Both hypotheses hold for the corners of a square: the tree of depth two has four leaves, cut off at depth one it has two. -/
example (fit : Fit 2) : ∃ sb tb, fitTree { agnostic 1 3 with maxDepth := 2 } fit square ⟨some 1, 0, none⟩ = .ok sb ∧
    sb.tree = some tb ∧ tb.leaves.length = 4 ∧ ∃ ta, Spec.Cut 1 ta tb ∧ ta.leaves.length = 2 := by
  obtain ⟨sb, t, h, ht, -, -⟩ := c52_splits_violated fit
  have hg : t = grow (agnostic 2 3) 1 fit square 0 := by
    unfold fitTree at h
    simp only at h
    split_ifs at h
    obtain rfl := Except.ok.inj h
    exact (Option.some.inj ht).symm
  rw [grow_square] at hg
  subst hg
  exact ⟨sb, _, h, ht, rfl, .branch _ _ _ _ (.leaf _ _ (half 0)) (.leaf _ _ (half 1)), ⟨rfl, rfl, rfl, rfl, ⟨rfl, rfl⟩, ⟨rfl, rfl⟩⟩, rfl⟩

/-- The hypotheses of `c223_error`, for every outcome of the fits. -/
example (fit : Fit 2) : square.Paired ∧
    (∃ sa, fitTree { (⟨.modelAware, .exhaustive, 50, 1, false, 3⟩ : Config) with maxDepth := 1 } fit square ⟨none, 1, none⟩ = .ok sa) ∧
    ∃ sb, fitTree { (⟨.modelAware, .exhaustive, 50, 1, false, 3⟩ : Config) with maxDepth := 2 } fit square ⟨none, 1, none⟩ = .ok sb :=
  ⟨rfl, c145_fit_partial _ fit square _ (by simp [square]) (by decide) (by simp) (by simp),
    c145_fit_partial _ fit square _ (by simp [square]) (by decide) (by simp) (by simp)⟩

end EQ.Tree
