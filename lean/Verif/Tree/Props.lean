import Verif.Tree.Model
import Mathlib.Algebra.BigOperators.Group.List.Basic
import Mathlib.Data.List.Perm.Basic
import Mathlib.Tactic.Linarith
import Mathlib.Tactic.FieldSimp
import Mathlib.Tactic.Ring
import Mathlib.Tactic.NormNum

/-!
# Polynomial trees: splits, shape, prediction (C51, C52, C53)
-/

namespace EQ.Tree
open EQ.Basis

variable {d : ℕ}

/-! ## Specification -/

/-- The samples of a data set: points with their outputs. -/
def Data.rows (D : Data d) : List (Pt d × ℝ) := D.X.zip D.y

/-- As many outputs as points. -/
def Data.Paired (D : Data d) : Prop := D.X.length = D.y.length

/-- The data sets of the leaves, from left to right. -/
def Node.leaves : Node d → List (Data d)
  | .leaf _ _ D => [D]
  | .branch _ _ _ _ l r => l.leaves ++ r.leaves

/-- `n_samples` of the leaves, from left to right. -/
def Node.counts : Node d → List ℕ
  | .leaf _ n _ => [n]
  | .branch _ _ _ _ l r => l.counts ++ r.counts

/-- Number of splits on the longest way down. -/
def Node.height : Node d → ℕ
  | .leaf _ _ _ => 0
  | .branch _ _ _ _ l r => max l.height r.height + 1

/-- The splits of the inner nodes, with repetitions. -/
def Node.splits : Node d → List (ℝ × Fin d)
  | .leaf _ _ _ => []
  | .branch _ _ j t l r => (t, j) :: (l.splits ++ r.splits)

/-- The data of the leaf whose region contains the point. -/
noncomputable def Node.leafAt (x : Pt d) : Node d → Data d
  | .leaf _ _ D => D
  | .branch _ _ j t l r => if x j ≤ t then l.leafAt x else r.leafAt x

/-- The polynomials on the way from the root to the leaf of a point. -/
noncomputable def Node.path (x : Pt d) : Node d → List (Option (PolyFn d))
  | .leaf p _ _ => [p]
  | .branch p _ j t l r => p :: if x j ≤ t then l.path x else r.path x

/-! ## C51: splits -/

theorem getD_lt {α : Type*} (l : List α) (a : α) (i : ℕ) (h : i < l.length) : l.getD i a = l[i] := by
  simp [List.getD, h]

theorem gather_rows {D : Data d} (h : D.Paired) (idx : List ℕ) (hidx : ∀ i ∈ idx, i < D.X.length) :
    (gather D.X idx).zip (gather D.y idx) = idx.map fun i => D.rows.getD i default := by
  unfold gather Data.rows
  rw [List.zip_map']
  refine List.map_congr_left fun i hi => ?_
  have h1 := hidx i hi
  have h2 : i < D.y.length := by rw [← h]; exact h1
  have h3 : i < (D.X.zip D.y).length := by rw [List.length_zip]; omega
  rw [getD_lt _ _ _ h1, getD_lt _ _ _ h2, getD_lt _ _ _ h3, List.getElem_zip]

theorem range_map_getD {α : Type*} [Inhabited α] (l : List α) :
    (List.range l.length).map (fun i => l.getD i default) = l := by
  refine List.ext_getElem (by simp) fun i h1 h2 => ?_
  simp [h2]

theorem rows_length {D : Data d} (h : D.Paired) : D.rows.length = D.X.length := by
  unfold Data.rows
  rw [List.length_zip, ← h, min_self]

theorem rows_fst {D : Data d} (h : D.Paired) {i : ℕ} (hi : i < D.X.length) :
    (D.rows.getD i default).1 = D.X.getD i default := by
  have h2 : i < D.rows.length := by rw [rows_length h]; exact hi
  rw [getD_lt _ _ _ h2, getD_lt _ _ _ hi]
  simp [Data.rows]

/-- C51, one split. For every data set with as many outputs as points, every feature and threshold:
the left part consists of the samples whose feature is at most the threshold and the right part of the
others, points still paired with their outputs and in the original order. -/
theorem c51_split (D : Data d) (h : D.Paired) (j : Fin d) (t : ℝ) :
    (splitData j t D).1.Paired ∧ (splitData j t D).2.Paired ∧
    (splitData j t D).1.rows = D.rows.filter (fun r => r.1 j ≤ t) ∧
    (splitData j t D).2.rows = D.rows.filter (fun r => ¬ r.1 j ≤ t) := by
  have key : ∀ (q : ℕ → Prop) [DecidablePred q] (p : Pt d × ℝ → Prop) [DecidablePred p],
      (∀ i < D.X.length, q i ↔ p (D.rows.getD i default)) →
      (((List.range D.X.length).filter fun i => q i).map fun i => D.rows.getD i default) =
      D.rows.filter fun r => p r := by
    intro q _ p _ hq
    conv_rhs => rw [← range_map_getD D.rows, List.filter_map, rows_length h]
    congr 1
    refine List.filter_congr fun i hi => ?_
    simp only [Function.comp, decide_eq_decide]
    exact hq i (List.mem_range.1 hi)
  refine ⟨by simp [splitData, gather, Data.Paired], by simp [splitData, gather, Data.Paired], ?_, ?_⟩
  · show (gather D.X _).zip (gather D.y _) = _
    rw [gather_rows h (idxLeft j t D.X) fun i hi => List.mem_range.1 (List.mem_filter.1 hi).1]
    refine key _ (fun r => r.1 j ≤ t) fun i hi => ?_
    rw [rows_fst h hi]
  · show (gather D.X _).zip (gather D.y _) = _
    rw [gather_rows h (idxRight j t D.X) fun i hi => List.mem_range.1 (List.mem_filter.1 hi).1]
    refine key _ (fun r => ¬ r.1 j ≤ t) fun i hi => ?_
    rw [rows_fst h hi]
    simp [idxLeft, hi]

/-- Three points on a line, split at 1. -/
example : (⟨[fun _ => 0, fun _ => 2, fun _ => 1], [5, 6, 7]⟩ : Data 1).Paired := rfl

/-! ## The trees that `fit` builds -/

theorem scan_mem (loss : Cand d → WithTop ℝ) (cs : List (Cand d)) :
    ∀ best c, (scan loss cs best).2 = some c → c ∈ cs ∨ best.2 = some c := by
  induction cs with
  | nil => intro best c h; exact .inr h
  | cons a cs ih =>
    intro best c h
    unfold scan at h
    rcases ih _ _ h with h1 | h1
    · exact .inl (List.mem_cons_of_mem _ h1)
    · split_ifs at h1
      · simp only [Option.some.injEq] at h1
        exact .inl (by simp [h1])
      · exact .inr h1

theorem splitter_mem {cfg : Config} {msl : ℕ} {fit : Fit d} {D : Data d} {c : Cand d}
    (h : splitter cfg msl fit D = some c) : c ∈ candidates cfg msl D := by
  unfold splitter at h
  rcases scan_mem _ _ _ _ h with h1 | h1
  · exact h1
  · simp at h1

theorem mem_candidates {cfg : Config} {msl : ℕ} {D : Data d} {c : Cand d} :
    c ∈ candidates cfg msl D ↔ c.t ∈ thresholds cfg D c.j ∧
      c.left = (splitData c.j c.t D).1 ∧ c.right = (splitData c.j c.t D).2 ∧
      msl ≤ c.left.X.length ∧ msl ≤ c.right.X.length := by
  unfold candidates
  simp only [List.mem_flatMap, List.mem_finRange, true_and, List.mem_filterMap]
  constructor
  · rintro ⟨j, t, ht, h⟩
    split_ifs at h with hc
    obtain rfl := Option.some.inj h
    exact ⟨ht, rfl, rfl, hc.1, hc.2⟩
  · rintro ⟨h1, h2, h3, h4, h5⟩
    refine ⟨c.j, c.t, h1, ?_⟩
    rw [if_pos ⟨by rw [← h2]; exact h4, by rw [← h3]; exact h5⟩, ← h2, ← h3]

/-- The trees that can be grown: every inner node carries one of the candidate splits of its data. -/
inductive Grown (cfg : Config) (msl : ℕ) (fit : Fit d) : Data d → ℕ → Node d → Prop
  | leaf (D : Data d) (depth : ℕ) : Grown cfg msl fit D depth (.leaf (fit D).2 D.X.length D)
  | branch (D : Data d) (depth : ℕ) (c : Cand d) (l r : Node d) (hd : depth < cfg.maxDepth)
      (hs : splitter cfg msl fit D = some c) (hl : Grown cfg msl fit c.left (depth + 1) l)
      (hr : Grown cfg msl fit c.right (depth + 1) r) :
      Grown cfg msl fit D depth (.branch (fit D).2 D.X.length c.j c.t l r)

theorem grow_grown (cfg : Config) (msl : ℕ) (fit : Fit d) (D : Data d) (depth : ℕ) :
    Grown cfg msl fit D depth (grow cfg msl fit D depth) := by
  induction hn : cfg.maxDepth - depth generalizing D depth with
  | zero =>
    rw [grow, if_neg (by omega)]
    exact .leaf D depth
  | succ n ih =>
    rw [grow, if_pos (by omega)]
    cases hs : splitter cfg msl fit D with
    | none => exact .leaf D depth
    | some c => exact .branch D depth c _ _ (by omega) hs (ih _ _ (by omega)) (ih _ _ (by omega))

section grown
variable {cfg : Config} {msl : ℕ} {fit : Fit d} {D : Data d} {depth : ℕ} {t : Node d}

theorem cand_rows (hD : D.Paired) {c : Cand d} (hc : c ∈ candidates cfg msl D) :
    c.left.Paired ∧ c.right.Paired ∧ c.left.rows = D.rows.filter (fun r => r.1 c.j ≤ c.t) ∧
    c.right.rows = D.rows.filter (fun r => ¬ r.1 c.j ≤ c.t) := by
  obtain ⟨-, h2, h3, -, -⟩ := mem_candidates.1 hc
  rw [h2, h3]
  exact c51_split D hD c.j c.t

theorem Grown.rows (h : Grown cfg msl fit D depth t) (hD : D.Paired) :
    (t.leaves.flatMap Data.rows).Perm D.rows ∧ t.counts = t.leaves.map (fun L => L.rows.length) ∧
    ∀ L ∈ t.leaves, L.Paired := by
  induction h with
  | leaf D depth => simp [Node.leaves, Node.counts, rows_length hD, hD]
  | branch D depth c l r hd hs hl hr ihl ihr =>
    obtain ⟨hp1, hp2, h1, h2⟩ := cand_rows hD (splitter_mem hs)
    obtain ⟨a1, a2, a3⟩ := ihl hp1
    obtain ⟨b1, b2, b3⟩ := ihr hp2
    refine ⟨?_, by simp [Node.counts, Node.leaves, a2, b2], ?_⟩
    · simp only [Node.leaves, List.flatMap_append]
      refine (a1.append b1).trans ?_
      rw [h1, h2]
      have := List.filter_append_perm (fun r : Pt d × ℝ => decide (r.1 c.j ≤ c.t)) D.rows
      refine List.Perm.trans (List.Perm.of_eq ?_) this
      refine congrArg _ (List.filter_congr fun r _ => ?_)
      rw [decide_not]
    · intro L hL
      simp only [Node.leaves, List.mem_append] at hL
      exact hL.elim (a3 L) (b3 L)

theorem Grown.height (h : Grown cfg msl fit D depth t) :
    t.height ≤ cfg.maxDepth - depth := by
  induction h with
  | leaf D depth => simp [Node.height]
  | branch D depth c l r hd hs hl hr ihl ihr =>
    simp only [Node.height]
    omega

theorem Grown.counts_ge (h : Grown cfg msl fit D depth t) (hD : msl ≤ D.X.length) :
    ∀ n ∈ t.counts, msl ≤ n := by
  induction h with
  | leaf D depth => simpa [Node.counts] using hD
  | branch D depth c l r hd hs hl hr ihl ihr =>
    obtain ⟨-, -, -, h4, h5⟩ := mem_candidates.1 (splitter_mem hs)
    intro n hn
    simp only [Node.counts, List.mem_append] at hn
    exact hn.elim (ihl h4 n) (ihr h5 n)

theorem Grown.leafAt (h : Grown cfg msl fit D depth t) (hD : D.Paired) :
    ∀ r ∈ D.rows, r ∈ (t.leafAt r.1).rows ∧ t.leafAt r.1 ∈ t.leaves := by
  induction h with
  | leaf D depth => intro r hr; exact ⟨hr, by simp [Node.leafAt, Node.leaves]⟩
  | branch D depth c l r hd hs hl hr ihl ihr =>
    obtain ⟨hp1, hp2, h1, h2⟩ := cand_rows hD (splitter_mem hs)
    intro q hq
    simp only [Node.leafAt, Node.leaves, List.mem_append]
    by_cases hle : q.1 c.j ≤ c.t
    · rw [if_pos hle]
      obtain ⟨a, b⟩ := ihl hp1 q (by rw [h1]; exact List.mem_filter.2 ⟨hq, by simpa using hle⟩)
      exact ⟨a, .inl b⟩
    · rw [if_neg hle]
      obtain ⟨a, b⟩ := ihr hp2 q (by rw [h2]; exact List.mem_filter.2 ⟨hq, by simpa using hle⟩)
      exact ⟨a, .inr b⟩

end grown

/-- C51, whole trees. For every data set with as many outputs as points, whatever the fits, the
criterion, the search and the limits: after `fit` the samples of the leaves are together exactly the
training samples (each in one leaf), the recorded sample counts are the sizes of the leaves, and they
add up to the number of training samples. -/
theorem c51_leaves_partition (cfg : Config) (fit : Fit d) (D : Data d) (hD : D.Paired) (s s' : State d)
    (h : fitTree cfg fit D s = .ok s') : ∃ t, s'.tree = some t ∧
      (t.leaves.flatMap Data.rows).Perm D.rows ∧ t.counts = t.leaves.map (fun L => L.rows.length) ∧
      t.counts.sum = D.X.length := by
  unfold fitTree at h
  simp only at h
  split_ifs at h
  obtain rfl := Except.ok.inj h
  have hg := grow_grown cfg (resolveMsl cfg.cardinality s.msl) fit D 0
  obtain ⟨h1, h2, h3⟩ := hg.rows hD
  refine ⟨_, rfl, h1, h2, ?_⟩
  rw [h2, ← rows_length hD, ← h1.length_eq, List.length_flatMap]

/-! ## C52: shape -/

theorem leaves_length (t : Node d) : t.leaves.length = t.splits.length + 1 := by
  induction t with
  | leaf => rfl
  | branch p n j t l r ihl ihr => simp only [Node.leaves, Node.splits, List.length_append,
      List.length_cons, ihl, ihr]; omega

theorem counts_length (t : Node d) : t.counts.length = t.leaves.length := by
  induction t with
  | leaf => rfl
  | branch p n j t l r ihl ihr => simp [Node.leaves, Node.counts, ihl, ihr]

/-- The polynomials of the leaves, from left to right. -/
def Node.leafPolys : Node d → List (Option (PolyFn d))
  | .leaf p _ _ => [p]
  | .branch _ _ _ _ l r => l.leafPolys ++ r.leafPolys

theorem getPolys_eq (t : Node d) : ∀ acc, getPolys t acc = acc ++ t.leafPolys := by
  induction t with
  | leaf => intro acc; rfl
  | branch p n j t l r ihl ihr =>
    intro acc
    simp [getPolys, ihl, ihr, Node.leafPolys, List.append_assoc]

theorem leafPolys_length (t : Node d) : t.leafPolys.length = t.leaves.length := by
  induction t with
  | leaf => rfl
  | branch p n j t l r ihl ihr => simp [Node.leaves, Node.leafPolys, ihl, ihr]

theorem getSplits_spec (t : Node d) : ∀ acc : List (ℝ × Fin d), acc.Nodup →
    (getSplits t acc).Nodup ∧ (∀ q, q ∈ getSplits t acc ↔ q ∈ acc ∨ q ∈ t.splits) := by
  classical
  induction t with
  | leaf => intro acc h; simp [getSplits, Node.splits, h]
  | branch p n j t l r ihl ihr =>
    intro acc hacc
    unfold getSplits
    simp only
    set acc1 := if (t, j) ∈ acc then acc else acc ++ [(t, j)] with hacc1
    have h1 : acc1.Nodup ∧ ∀ q, q ∈ acc1 ↔ q ∈ acc ∨ q = (t, j) := by
      rw [hacc1]
      split_ifs with h
      · exact ⟨hacc, fun q => ⟨.inl, fun hq => hq.elim id fun h' => h' ▸ h⟩⟩
      · refine ⟨?_, fun q => by simp⟩
        rw [List.nodup_append]
        exact ⟨hacc, by simp, fun a ha b hb hab => h (by
          simp only [List.mem_singleton] at hb; rw [← hb, ← hab]; exact ha)⟩
    obtain ⟨h2, h3⟩ := ihl acc1 h1.1
    rw [if_pos ((h3 _).2 (.inl ((h1.2 _).2 (.inr rfl))))]
    obtain ⟨h4, h5⟩ := ihr _ h2
    refine ⟨h4, fun q => ?_⟩
    rw [h5, h3, h1.2]
    simp only [Node.splits, List.mem_cons, List.mem_append]
    tauto

/-- C52, the part that holds. For every data set and every outcome of the fits: the tree is not deeper
than `max_depth`; if it was split at all, every leaf has at least `min_samples_leaf` samples;
`get_polys` lists the polynomials of the leaves; the number of leaves is one more than the number of
inner nodes; `get_splits` lists the splits of the inner nodes, each value once. Missing: the number of
splits reported is one less than the number of leaves (`c52_splits_violated`). -/
theorem c52_shape_partial (cfg : Config) (fit : Fit d) (D : Data d) (s s' : State d)
    (h : fitTree cfg fit D s = .ok s') : ∃ t, s'.tree = some t ∧ t.height ≤ cfg.maxDepth ∧
      (∃ m, s'.msl = some m ∧ (t.height ≠ 0 → ∀ n ∈ t.counts, m ≤ n)) ∧
      getPolys t [] = t.leafPolys ∧ t.leafPolys.length = t.splits.length + 1 ∧
      (getSplits t []).Nodup ∧ (∀ q, q ∈ getSplits t [] ↔ q ∈ t.splits) ∧
      (getSplits t []).length + 1 ≤ (getPolys t []).length ∧
      (t.splits.Nodup → (getPolys t []).length = (getSplits t []).length + 1) := by
  unfold fitTree at h
  simp only at h
  split_ifs at h
  obtain rfl := Except.ok.inj h
  have hg := grow_grown cfg (resolveMsl cfg.cardinality s.msl) fit D 0
  set t := grow cfg (resolveMsl cfg.cardinality s.msl) fit D 0 with ht
  obtain ⟨h1, h2⟩ := getSplits_spec t [] List.nodup_nil
  have h2' : ∀ q, q ∈ getSplits t [] ↔ q ∈ t.splits := fun q => by simpa using h2 q
  have hp : getPolys t [] = t.leafPolys := by rw [getPolys_eq]; rfl
  have hlen : t.leafPolys.length = t.splits.length + 1 := by
    rw [leafPolys_length, leaves_length]
  refine ⟨t, rfl, by simpa using hg.height, ⟨_, rfl, fun h0 => ?_⟩, hp, hlen, h1, h2', ?_, fun hn => ?_⟩
  · generalize t = t' at hg h0
    cases hg with
    | leaf => simp [Node.height] at h0
    | branch _ _ c l r hd hs hl hr =>
      obtain ⟨-, -, -, h4, h5⟩ := mem_candidates.1 (splitter_mem hs)
      intro n hn
      simp only [Node.counts, List.mem_append] at hn
      exact hn.elim (hl.counts_ge h4 n) (hr.counts_ge h5 n)
  · rw [hp, hlen]
    have : (getSplits t []).Subperm t.splits := h1.subperm fun q hq => (h2' q).1 hq
    exact Nat.succ_le_succ this.length_le
  · rw [hp, hlen]
    have : (getSplits t []).Perm t.splits := (List.perm_ext_iff_of_nodup h1 hn).2 h2'
    rw [this.length_eq]

/-! ## C53: prediction -/

/-- Evaluating the polynomials on the way down. -/
def evalPath (x : Pt d) : List (Option (PolyFn d)) → Except Err (List ℝ)
  | [] => .ok []
  | p :: ps =>
    match evalPoly p x with
    | .error e => .error e
    | .ok v => (evalPath x ps).map (v :: ·)

/-- A convex combination of the values in a list. -/
def Convex (v : ℝ) (l : List ℝ) : Prop := ∃ w : List ℝ, w.length = l.length ∧ (∀ a ∈ w, 0 ≤ a) ∧
  w.sum = 1 ∧ v = ((w.zip l).map fun a => a.1 * a.2).sum

/-- Every inner node has samples. -/
def Node.Sampled : Node d → Prop
  | .leaf _ _ _ => True
  | .branch _ n _ _ l r => 0 < n ∧ l.Sampled ∧ r.Sampled

theorem Convex.blend {v own k : ℝ} {n : ℕ} {l : List ℝ} (h : Convex v l) (hk : 0 ≤ k) (hn : 0 < n) :
    Convex ((v * n + own * k) / (k + n)) (own :: l) := by
  obtain ⟨w, h1, h2, h3, h4⟩ := h
  have hn' : (0 : ℝ) < n := by exact_mod_cast hn
  have hpos : 0 < k + n := by linarith
  refine ⟨k / (k + n) :: w.map (· * (n / (k + n))), by simp [h1], ?_, ?_, ?_⟩
  · intro a ha
    rcases List.mem_cons.1 ha with rfl | ha
    · positivity
    · obtain ⟨b, hb, rfl⟩ := List.mem_map.1 ha
      exact mul_nonneg (h2 b hb) (by positivity)
  · simp only [List.sum_cons, List.sum_map_mul_right, List.map_id', h3]
    field_simp
  · have hz : ∀ w l : List ℝ, (((w.map (· * (n / (k + n)))).zip l).map fun a => a.1 * a.2).sum =
        (n / (k + n)) * ((w.zip l).map fun a => a.1 * a.2).sum := by
      intro w
      induction w with
      | nil => simp
      | cons a w ih =>
        intro l
        cases l with
        | nil => simp
        | cons b l =>
          simp only [List.map_cons, List.zip_cons_cons, List.sum_cons, ih]
          ring
    simp only [List.zip_cons_cons, List.map_cons, List.sum_cons]
    rw [hz, ← h4]
    field_simp
    ring

theorem predictNode_spec (k : ℝ) (hk : 0 ≤ k) (x : Pt d) (t : Node d) (ht : t.Sampled) :
    (∃ e, evalPath x (t.path x) = .error e ∧ predictNode k x t = .error e) ∨
    ∃ vals v, evalPath x (t.path x) = .ok vals ∧ predictNode k x t = .ok (some v) ∧
      Convex v vals ∧ (k = 0 → vals.getLast? = some v) := by
  induction t with
  | leaf p n D =>
    cases p with
    | none => exact .inl ⟨_, rfl, rfl⟩
    | some f =>
      refine .inr ⟨[f x], f x, rfl, rfl, ⟨[1], rfl, by simp, by simp, by simp⟩, fun _ => rfl⟩
  | branch p n j t l r ihl ihr =>
    obtain ⟨hn, hl, hr⟩ := ht
    cases p with
    | none => exact .inl ⟨_, rfl, rfl⟩
    | some f =>
      have hn' : (0 : ℝ) < n := by exact_mod_cast hn
      have hne : k + n ≠ 0 := by linarith
      have key : ∀ (c : Node d), ((∃ e, evalPath x (c.path x) = .error e ∧
          predictNode k x c = .error e) ∨ ∃ vals v, evalPath x (c.path x) = .ok vals ∧
          predictNode k x c = .ok (some v) ∧ Convex v vals ∧ (k = 0 → vals.getLast? = some v)) →
          (∃ e, evalPath x (some f :: c.path x) = .error e ∧
            (predictNode k x c).map (blend k n (f x)) = .error e) ∨
          ∃ vals v, evalPath x (some f :: c.path x) = .ok vals ∧
            (predictNode k x c).map (blend k n (f x)) = .ok (some v) ∧ Convex v vals ∧
            (k = 0 → vals.getLast? = some v) := by
        intro c hc
        rcases hc with ⟨e, h1, h2⟩ | ⟨vals, v, h1, h2, h3, h4⟩
        · left
          exact ⟨e, by simp [evalPath, evalPoly, h1, Except.map], by rw [h2]; rfl⟩
        · right
          refine ⟨f x :: vals, (v * n + f x * k) / (k + n), by simp [evalPath, evalPoly, h1, Except.map],
            ?_, h3.blend hk hn, fun h0 => ?_⟩
          · rw [h2]
            simp [Except.map, EQ.Tree.blend, hne]
          · have := h4 h0
            subst h0
            have e : (v * n + f x * 0) / (0 + n) = v := by field_simp; ring
            rw [e]
            cases vals with
            | nil => simp at this
            | cons a l => simpa using this
      unfold Node.path predictNode
      simp only [evalPoly]
      by_cases hle : x j ≤ t
      · simp only [hle, if_true]; exact key l (ihl hl)
      · simp only [hle, if_false]; exact key r (ihr hr)

theorem Grown.sampled {cfg : Config} {msl : ℕ} {fit : Fit d} {D : Data d} {depth : ℕ} {t : Node d}
    (h : Grown cfg msl fit D depth t) (hD : D.Paired) (hm : 0 < msl) : t.Sampled := by
  induction h with
  | leaf => trivial
  | branch D depth c l r hd hs hl hr ihl ihr =>
    obtain ⟨-, h2, h3, h4, h5⟩ := mem_candidates.1 (splitter_mem hs)
    obtain ⟨p1, p2, q1, q2⟩ := cand_rows hD (splitter_mem hs)
    refine ⟨?_, ihl p1, ihr p2⟩
    have : c.left.rows.length ≤ D.rows.length := by rw [q1]; exact List.length_filter_le _ _
    rw [rows_length p1, rows_length hD] at this
    omega

/-- C53. For every data set, every outcome of the fits, every smoothing constant `k ≥ 0` and every
point, for a fitted tree: a training sample is routed to the leaf that was fitted with it; the
prediction is a convex combination of the values of the polynomials on the way from the root to the
leaf of the point (or the exception raised by the first of these whose fit had failed); and without
smoothing it is the value of the leaf's polynomial. -/
theorem c53_predict (cfg : Config) (fit : Fit d) (D : Data d) (hD : D.Paired) (s s' : State d)
    (h : fitTree cfg fit D s = .ok s') (hk : 0 ≤ s.k) (hm : s.msl ≠ some 0) (hc : 0 < cfg.cardinality) :
    ∃ t, s'.tree = some t ∧
      (∀ r ∈ D.rows, t.leafAt r.1 ∈ t.leaves ∧ r ∈ (t.leafAt r.1).rows) ∧
      ∀ x, (∃ e, evalPath x (t.path x) = .error e ∧ predict s' x = .error e) ∨
        ∃ vals v, evalPath x (t.path x) = .ok vals ∧ predict s' x = .ok (some v) ∧ Convex v vals ∧
          (s.k = 0 → vals.getLast? = some v) := by
  unfold fitTree at h
  simp only at h
  split_ifs at h
  obtain rfl := Except.ok.inj h
  have hg := grow_grown cfg (resolveMsl cfg.cardinality s.msl) fit D 0
  have hmsl : 0 < resolveMsl cfg.cardinality s.msl := by
    unfold resolveMsl
    split
    · omega
    · split_ifs
      · omega
      · rename_i m heq hne
        rcases Nat.eq_zero_or_pos m with rfl | h
        · exact absurd heq hm
        · exact h
  refine ⟨_, rfl, fun r hr => (hg.leafAt hD r hr).symm, fun x => ?_⟩
  have := predictNode_spec (s.k * resolveMsl cfg.cardinality s.msl)
    (mul_nonneg hk (Nat.cast_nonneg _)) x _ (hg.sampled hD hmsl)
  rcases this with h1 | ⟨vals, v, h1, h2, h3, h4⟩
  · exact .inl h1
  · exact .inr ⟨vals, v, h1, h2, h3, fun h0 => h4 (by rw [h0, zero_mul])⟩

end EQ.Tree
