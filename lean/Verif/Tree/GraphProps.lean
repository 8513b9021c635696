import Verif.Tree.Model

/-!
# The drawing of a tree: C165
-/

namespace EQ.Tree
open EQ.Basis

variable {d : ℕ}

/-! ## Model -/

/-- A node with its entry `index` (`polytree.py:256-266`); the other entries as in `Node`. -/
inductive INode (d : ℕ) where
  | leaf (i : ℕ) (poly : Option (PolyFn d)) (n : ℕ) (data : Data d) : INode d
  | branch (i : ℕ) (poly : Option (PolyFn d)) (n : ℕ) (j : Fin d) (t : ℝ) (left right : INode d) : INode d

/-- `node["index"]`. -/
def INode.index : INode d → ℕ
  | .leaf i _ _ _ => i
  | .branch i _ _ _ _ _ _ => i

/-- The node without its index. -/
def INode.erase : INode d → Node d
  | .leaf _ p n D => .leaf p n D
  | .branch _ p n j t l r => .branch p n j t l.erase r.erase

/-- `_split_traverse_node` (`polytree.py:270-296`) for a node that has been made with index `i`, when the counter `index_node_global` is `c`; also the
counter afterwards. The splitter raises the counter by `work D` (one for each fit that gets to line 240), `_create_node` by `bump D`
for its fit and by one for the node (line 266); both numbers depend on the fits and are arbitrary here. Both children are made before
the first is traversed. -/
noncomputable def growIndex (cfg : Config) (msl : ℕ) (fit : Fit d) (bump work : Data d → ℕ) (D : Data d) (depth i c : ℕ) : INode d × ℕ :=
  if depth < cfg.maxDepth then
    match splitter cfg msl fit D with
    | none => (.leaf i (fit D).2 D.X.length D, c + work D)
    | some s =>
      let il := c + work D + bump s.left
      let ir := il + 1 + bump s.right
      let L := growIndex cfg msl fit bump work s.left (depth + 1) il (ir + 1)
      let R := growIndex cfg msl fit bump work s.right (depth + 1) ir L.2
      (.branch i (fit D).2 D.X.length s.j s.t L.1 R.1, R.2)
  else (.leaf i (fit D).2 D.X.length D, c + work D)
termination_by cfg.maxDepth - depth

/-- `polytree.py:298-300`: the root is made first. -/
noncomputable def buildIndex (cfg : Config) (msl : ℕ) (fit : Fit d) (bump work : Data d → ℕ) (D : Data d) : INode d :=
  (growIndex cfg msl fit bump work D 0 (0 + bump D) (0 + bump D + 1)).1

/-- `node["n_samples"]`. -/
def INode.samples : INode d → ℕ
  | .leaf _ _ n _ => n
  | .branch _ _ n _ _ _ _ => n

/-- `polytree.py:327-354` `pruner`, as in `pruner`, on nodes with their indices. -/
noncomputable def prunerIndex : INode d → Data d → Except Err (INode d × ℝ)
  | .leaf i p n D, V =>
    if V.X.length < 1 then .ok (.leaf i p 0 D, 0)
    else
      match p with
      | none => .error .attributeError
      | some f => .ok (.leaf i p n D, mse f V)
  | .branch i p n j t l r, V =>
    if V.X.length < 1 then .ok (.branch i p 0 j t l r, 0)
    else
      match p with
      | none => .error .attributeError
      | some f =>
        match prunerIndex l (splitData j t V).1 with
        | .error e => .error e
        | .ok (l', el) =>
          match prunerIndex r (splitData j t V).2 with
          | .error e => .error e
          | .ok (r', er) =>
            if l'.samples + r'.samples ≠ 0 ∧
                (el * l'.samples + er * r'.samples) / (l'.samples + r'.samples) > mse f V then
              .ok (.leaf i p n ⟨[], []⟩, mse f V)
            else .ok (.branch i p n j t l' r', mse f V)

/-- `polytree.py:356-360` `prune` on a fitted tree, as in `prune`. -/
noncomputable def pruneIndex (T : INode d) (V : Data d) : Except Err (INode d) :=
  match T with
  | .leaf _ _ _ _ => .error .typeError
  | .branch i p n j t l r =>
    match prunerIndex l (splitData j t V).1 with
    | .error e => .error e
    | .ok (l', _) =>
      match prunerIndex r (splitData j t V).2 with
      | .error e => .error e
      | .ok (r', _) => .ok (.branch i p n j t l' r')

/-- What `polytree.py:410-418` writes into the label: the feature and the threshold of an inner node, and the number of samples. Simplified: the losses and the
formatting are left out. -/
structure Label where
  split : Option (String × ℝ)
  samples : ℕ

/-- A statement of the graph description: default label for nodes made later (`g.attr`), a node, an edge. -/
inductive Stmt
  | attr (l : Label)
  | node (i : ℕ)
  | edge (a b : ℕ)

/-- `polytree.py:399-445` `build_graphviz_recurse`: the statements added for a node. A feature without a name raises `IndexError`. -/
noncomputable def draw (names : List String) : INode d → (parent depth : ℕ) → Except Err (List Stmt)
  | .leaf i _ n _, parent, depth =>
    .ok ([.attr ⟨none, n⟩, .node i] ++ if depth > 0 then [.edge parent i] else [])
  | .branch i _ n j t l r, parent, depth =>
    match names[(j : ℕ)]? with
    | none => .error .indexError
    | some s =>
      match draw names l i (depth + 1) with
      | .error e => .error e
      | .ok a =>
        match draw names r i (depth + 1) with
        | .error e => .error e
        | .ok b => .ok ([.attr ⟨some (s, t), n⟩, .node i] ++ (if depth > 0 then [.edge parent i] else []) ++ a ++ b)

/-- `get_graphviz(feature_names, file_name)` (`polytree.py:390-457`): the description that is rendered or written to the file. Before a fit the tree is `None`
and the graph is empty. -/
noncomputable def getGraphviz (names : List String) : Option (INode d) → Except Err (List Stmt)
  | none => .ok []
  | some T => draw names T 0 0

/-! ## Specification -/

/-- A picture: nodes with their labels, and edges; and the label for the next new nodes. -/
structure Picture where
  next : Option Label
  nodes : List (ℕ × Option Label)
  edges : List (ℕ × ℕ)

/-- Adds a node unless there is one of that name. -/
def Picture.add (g : Picture) (i : ℕ) : Picture :=
  if i ∈ g.nodes.map Prod.fst then g else { g with nodes := g.nodes ++ [(i, g.next)] }

/-- How the description language is read: `g.attr('node', label=…)` is the default for nodes that are made from then on, and an edge makes its end points
if they are not there. -/
def Picture.read (g : Picture) : Stmt → Picture
  | .attr l => { g with next := some l }
  | .node i => g.add i
  | .edge a b => let g' := (g.add a).add b; { g' with edges := g'.edges ++ [(a, b)] }

/-- The picture of a description. -/
def picture (l : List Stmt) : Picture := l.foldl Picture.read ⟨none, [], []⟩

/-- The nodes of a tree with the text they should have. -/
noncomputable def INode.texts (names : List String) : INode d → List (ℕ × Option Label)
  | .leaf i _ n _ => [(i, some ⟨none, n⟩)]
  | .branch i _ n j t l r => (i, some ⟨some (names.getD j "", t), n⟩) :: (l.texts names ++ r.texts names)

/-- The pairs of parents and children. -/
def INode.links : INode d → List (ℕ × ℕ)
  | .leaf _ _ _ _ => []
  | .branch i _ _ _ _ l r => (i, l.index) :: (l.links ++ (i, r.index) :: r.links)

/-- The features that a tree splits. -/
def INode.features : INode d → List (Fin d)
  | .leaf _ _ _ _ => []
  | .branch _ _ _ j _ l r => j :: (l.features ++ r.features)

/-- The number of nodes of a tree. -/
def Node.count : Node d → ℕ
  | .leaf _ _ _ => 1
  | .branch _ _ _ _ l r => 1 + l.count + r.count

/-! ## Lemmas -/

/-- The indices of a tree, parents first. -/
def INode.indices : INode d → List ℕ
  | .leaf i _ _ _ => [i]
  | .branch i _ _ _ _ l r => i :: (l.indices ++ r.indices)

theorem texts_fst (names : List String) (T : INode d) : (T.texts names).map Prod.fst = T.indices := by
  induction T with
  | leaf => rfl
  | branch i p n j t l r hl hr => simp [INode.texts, INode.indices, hl, hr]

theorem growIndex_erase (cfg : Config) (msl : ℕ) (fit : Fit d) (bump work : Data d → ℕ) (D : Data d) (depth i c : ℕ) :
    (growIndex cfg msl fit bump work D depth i c).1.erase = grow cfg msl fit D depth := by
  induction D, depth using grow.induct cfg msl fit generalizing i c with
  | case1 D depth h hs => rw [growIndex, grow, if_pos h, if_pos h, hs]; rfl
  | case2 D depth h s hs hl hr =>
    rw [growIndex, grow, if_pos h, if_pos h, hs]
    simp only [INode.erase, hl, hr]
  | case3 D depth h => rw [growIndex, grow, if_neg h, if_neg h]; rfl

theorem growIndex_indices (cfg : Config) (msl : ℕ) (fit : Fit d) (bump work : Data d → ℕ) (D : Data d) (depth i c : ℕ) :
    ∃ rest, (growIndex cfg msl fit bump work D depth i c).1.indices = i :: rest ∧ rest.Nodup ∧ c ≤ (growIndex cfg msl fit bump work D depth i c).2 ∧
      ∀ k ∈ rest, c ≤ k ∧ k < (growIndex cfg msl fit bump work D depth i c).2 := by
  induction D, depth using grow.induct cfg msl fit generalizing i c with
  | case1 D depth h hs => rw [growIndex, if_pos h, hs]; exact ⟨[], rfl, List.nodup_nil, by simp, by simp⟩
  | case2 D depth h s hs hl hr =>
    rw [growIndex, if_pos h, hs]
    simp only
    generalize hil : c + work D + bump s.left = il
    generalize hir : il + 1 + bump s.right = ir
    obtain ⟨rl, el, nl, cl, bl⟩ := hl il (ir + 1)
    generalize growIndex cfg msl fit bump work s.left (depth + 1) il (ir + 1) = L at *
    obtain ⟨rr, er, nr, cr, br⟩ := hr ir L.2
    generalize growIndex cfg msl fit bump work s.right (depth + 1) ir L.2 = R at *
    refine ⟨L.1.indices ++ R.1.indices, rfl, ?_, by omega, ?_⟩
    · rw [el, er, List.nodup_append]
      refine ⟨List.nodup_cons.2 ⟨fun hm => ?_, nl⟩, List.nodup_cons.2 ⟨fun hm => ?_, nr⟩, ?_⟩
      · have := bl il hm; omega
      · have := br ir hm; omega
      · intro a ha b hb
        rcases List.mem_cons.1 ha with rfl | ha <;> rcases List.mem_cons.1 hb with rfl | hb
        · omega
        · have := br b hb; omega
        · have := bl a ha; omega
        · have := bl a ha; have := br b hb; omega
    · intro k hk
      rw [el, er] at hk
      rcases List.mem_append.1 hk with hk | hk
      · rcases List.mem_cons.1 hk with rfl | hk
        · exact ⟨by omega, by omega⟩
        · have := bl k hk; exact ⟨by omega, by omega⟩
      · rcases List.mem_cons.1 hk with rfl | hk
        · exact ⟨by omega, by omega⟩
        · have := br k hk; exact ⟨by omega, by omega⟩
  | case3 D depth h => rw [growIndex, if_neg h]; exact ⟨[], rfl, List.nodup_nil, by simp, by simp⟩

theorem build_nodup (cfg : Config) (msl : ℕ) (fit : Fit d) (bump work : Data d → ℕ) (D : Data d) : (buildIndex cfg msl fit bump work D).indices.Nodup := by
  obtain ⟨rest, h, hn, -, hb⟩ := growIndex_indices cfg msl fit bump work D 0 (0 + bump D) (0 + bump D + 1)
  rw [buildIndex, h]
  refine List.nodup_cons.2 ⟨fun hm => ?_, hn⟩
  have := hb _ hm
  omega

theorem samples_erase (T : INode d) : T.erase.samples = T.samples := by cases T <;> rfl

theorem prunerIndex_erase (T : INode d) (V : Data d) : (prunerIndex T V).map (fun r => (r.1.erase, r.2)) = pruner T.erase V := by
  induction T generalizing V with
  | leaf i p n D =>
    unfold prunerIndex INode.erase pruner
    split_ifs
    · rfl
    · cases p <;> rfl
  | branch i p n j t l r hl hr =>
    unfold prunerIndex INode.erase pruner
    split_ifs
    · rfl
    · cases p with
      | none => rfl
      | some f =>
        simp only
        rw [← hl, ← hr]
        cases prunerIndex l (splitData j t V).1 with
        | error e => rfl
        | ok a =>
          cases prunerIndex r (splitData j t V).2 with
          | error e => rfl
          | ok b =>
            simp only [Except.map, samples_erase]
            split_ifs <;> rfl

theorem prunerIndex_indices (T : INode d) (V : Data d) (T' : INode d) (e : ℝ) (h : prunerIndex T V = .ok (T', e)) :
    T'.indices.Sublist T.indices ∧ T'.features.Sublist T.features := by
  induction T generalizing V T' e with
  | leaf i p n D =>
    unfold prunerIndex at h
    split_ifs at h
    · simp only [Except.ok.injEq, Prod.mk.injEq] at h; rw [← h.1]; exact ⟨List.Sublist.refl _, List.Sublist.refl _⟩
    · cases p with
      | none => cases h
      | some f => simp only [Except.ok.injEq, Prod.mk.injEq] at h; rw [← h.1]; exact ⟨List.Sublist.refl _, List.Sublist.refl _⟩
  | branch i p n j t l r hl hr =>
    unfold prunerIndex at h
    split_ifs at h
    · simp only [Except.ok.injEq, Prod.mk.injEq] at h; rw [← h.1]; exact ⟨List.Sublist.refl _, List.Sublist.refl _⟩
    · cases p with
      | none => cases h
      | some f =>
        simp only at h
        cases h1 : prunerIndex l (splitData j t V).1 with
        | error e => rw [h1] at h; cases h
        | ok a =>
          rw [h1] at h
          cases h2 : prunerIndex r (splitData j t V).2 with
          | error e => rw [h2] at h; cases h
          | ok b =>
            rw [h2] at h
            simp only at h
            split_ifs at h <;> simp only [Except.ok.injEq, Prod.mk.injEq] at h <;> rw [← h.1]
            · exact ⟨List.Sublist.cons_cons _ (List.nil_sublist _), List.nil_sublist _⟩
            · have a1 := hl _ _ _ h1
              have a2 := hr _ _ _ h2
              exact ⟨List.Sublist.cons_cons _ (a1.1.append a2.1), List.Sublist.cons_cons _ (a1.2.append a2.2)⟩

theorem add_fresh {g : Picture} {i : ℕ} (h : i ∉ g.nodes.map Prod.fst) : g.add i = { g with nodes := g.nodes ++ [(i, g.next)] } := if_neg h

theorem add_old {g : Picture} {i : ℕ} (h : i ∈ g.nodes.map Prod.fst) : g.add i = g := if_pos h

/-- The statements of one node, read. -/
theorem read_head (g : Picture) (lab : Label) (i parent depth : ℕ) (hi : i ∉ g.nodes.map Prod.fst) (hp : 0 < depth → parent ∈ g.nodes.map Prod.fst) :
    ([Stmt.attr lab, .node i] ++ if depth > 0 then [Stmt.edge parent i] else []).foldl Picture.read g =
      ⟨some lab, g.nodes ++ [(i, some lab)], g.edges ++ if depth > 0 then [(parent, i)] else []⟩ := by
  have h1 : (g.read (.attr lab)).read (.node i) = ⟨some lab, g.nodes ++ [(i, some lab)], g.edges⟩ := by
    have : (g.read (.attr lab)) = ⟨some lab, g.nodes, g.edges⟩ := rfl
    rw [this]
    exact add_fresh (g := ⟨some lab, g.nodes, g.edges⟩) hi
  simp only [List.foldl_append, List.foldl_cons, List.foldl_nil]
  rw [h1]
  split_ifs with h
  · simp only [List.foldl_cons, List.foldl_nil, Picture.read]
    have hp' : parent ∈ (g.nodes ++ [(i, some lab)]).map Prod.fst := by
      rw [List.map_append, List.mem_append]; exact Or.inl (hp h)
    rw [add_old (g := ⟨some lab, g.nodes ++ [(i, some lab)], g.edges⟩) hp', add_old (by simp)]
  · simp

theorem draw_spec (names : List String) (T : INode d) (hf : ∀ j ∈ T.features, (j : ℕ) < names.length) (hn : T.indices.Nodup) (parent depth : ℕ) :
    ∃ l, draw names T parent depth = .ok l ∧ ∀ g : Picture, (∀ k ∈ T.indices, k ∉ g.nodes.map Prod.fst) → (0 < depth → parent ∈ g.nodes.map Prod.fst) →
      (l.foldl Picture.read g).nodes = g.nodes ++ T.texts names ∧
      (l.foldl Picture.read g).edges = g.edges ++ ((if depth > 0 then [(parent, T.index)] else []) ++ T.links) := by
  induction T generalizing parent depth with
  | leaf i p n D =>
    refine ⟨_, rfl, fun g hg hp => ?_⟩
    rw [read_head g _ i parent depth (hg i (by simp [INode.indices])) hp]
    exact ⟨rfl, by simp [INode.links, INode.index]⟩
  | branch i p n j t l r hl hr =>
    simp only [INode.features, List.mem_cons, List.mem_append] at hf
    simp only [INode.indices, List.nodup_cons, List.nodup_append, List.mem_append] at hn
    obtain ⟨hi, nl, nr, disj⟩ := hn
    obtain ⟨a, ha, sa⟩ := hl (fun k hk => hf k (by tauto)) nl i (depth + 1)
    obtain ⟨b, hb, sb⟩ := hr (fun k hk => hf k (by tauto)) nr i (depth + 1)
    have hj : names[(j : ℕ)]? = some (names.getD j "") := by
      have := hf j (Or.inl rfl)
      simp [List.getElem?_eq_getElem this]
    refine ⟨[.attr ⟨some (names.getD j "", t), n⟩, .node i] ++ (if depth > 0 then [.edge parent i] else []) ++ a ++ b, ?_, fun g hg hp => ?_⟩
    · rw [draw, hj]
      simp only [ha, hb]
    · have hgi : i ∉ g.nodes.map Prod.fst := hg i (by simp [INode.indices])
      rw [List.foldl_append, List.foldl_append, read_head g _ i parent depth hgi hp]
      set g1 : Picture := ⟨some ⟨some (names.getD j "", t), n⟩, g.nodes ++ [(i, some ⟨some (names.getD j "", t), n⟩)],
        g.edges ++ if depth > 0 then [(parent, i)] else []⟩ with hg1
      obtain ⟨n1, e1⟩ := sa g1 (fun k hk => by
          rw [hg1]
          simp only [List.map_append, List.mem_append, List.map_cons, List.map_nil, List.mem_singleton, not_or]
          exact ⟨hg k (by simp [INode.indices, hk]), fun h => hi (Or.inl (h ▸ hk))⟩) (fun _ => by rw [hg1]; simp)
      obtain ⟨n2, e2⟩ := sb (a.foldl Picture.read g1) (fun k hk => by
          rw [n1, hg1, List.map_append, texts_fst]
          simp only [List.map_append, List.mem_append, List.map_cons, List.map_nil, List.mem_singleton, not_or]
          exact ⟨⟨hg k (by simp [INode.indices, hk]), fun h => hi (Or.inr (h ▸ hk))⟩, fun h => disj k h k hk rfl⟩) (fun _ => by rw [n1, hg1]; simp)
      rw [n2, e2, n1, e1, hg1]
      refine ⟨by simp [INode.texts], by simp [INode.links, INode.index]⟩

theorem links_count (T : INode d) : T.links.length + 1 = T.erase.count := by
  induction T with
  | leaf => rfl
  | branch i p n j t l r hl hr => simp only [INode.links, INode.erase, Node.count, List.length_cons, List.length_append]; omega

theorem indices_count (T : INode d) : T.indices.length = T.erase.count := by
  induction T with
  | leaf => rfl
  | branch i p n j t l r hl hr => simp only [INode.indices, INode.erase, Node.count, List.length_cons, List.length_append]; omega

theorem draw_unnamed (names : List String) (T : INode d) (parent depth : ℕ) (j : Fin d) (hj : j ∈ T.features) (h : names.length ≤ j) :
    draw names T parent depth = .error .indexError := by
  induction T generalizing parent depth with
  | leaf => simp [INode.features] at hj
  | branch i p n k t l r hl hr =>
    have all : ∀ (S : INode d) (p q : ℕ) (e : Err), draw names S p q = .error e → e = .indexError := by
      intro S
      induction S with
      | leaf => intro p q e h; simp [draw] at h
      | branch i p n k t l r hl hr =>
        intro p q e h
        rw [draw] at h
        split at h
        · cases h; rfl
        · split at h
          · cases h; exact hl _ _ _ (by assumption)
          · split at h
            · cases h; exact hr _ _ _ (by assumption)
            · cases h
    rw [draw]
    split
    · rfl
    · rename_i s hs
      simp only [INode.features, List.mem_cons, List.mem_append] at hj
      rcases hj with rfl | hj | hj
      · rw [List.getElem?_eq_none h] at hs; cases hs
      · rw [hl _ _ hj]
      · split
        · rename_i e he; rw [all _ _ _ _ he]
        · rw [hr _ _ hj]

/-- Prunings one after the other. -/
noncomputable def pruneAll (T : INode d) : List (Data d) → Except Err (INode d)
  | [] => .ok T
  | V :: Vs =>
    match pruneIndex T V with
    | .error e => .error e
    | .ok T' => pruneAll T' Vs

theorem pruneIndex_indices (T : INode d) (V : Data d) (T' : INode d) (h : pruneIndex T V = .ok T') :
    T'.indices.Sublist T.indices ∧ T'.features.Sublist T.features := by
  cases T with
  | leaf => cases h
  | branch i p n j t l r =>
    rw [pruneIndex] at h
    split at h
    · cases h
    · rename_i l' el hl
      split at h
      · cases h
      · rename_i r' er hr
        cases h
        have a1 := prunerIndex_indices _ _ _ _ hl
        have a2 := prunerIndex_indices _ _ _ _ hr
        exact ⟨List.Sublist.cons_cons _ (a1.1.append a2.1), List.Sublist.cons_cons _ (a1.2.append a2.2)⟩

theorem pruneAll_indices (T : INode d) (Vs : List (Data d)) (T' : INode d) (h : pruneAll T Vs = .ok T') :
    T'.indices.Sublist T.indices := by
  induction Vs generalizing T with
  | nil => cases h; exact List.Sublist.refl _
  | cons V Vs ih =>
    rw [pruneAll] at h
    split at h
    · cases h
    · rename_i S hS
      exact (ih S h).trans (pruneIndex_indices _ _ _ hS).1

/-! ## Properties -/

/-- **C165.** After a fit and any number of prunings, whatever the fits did to the counter, the picture has one node for every node of the tree, under
different names and each with its own split and number of samples; the edges are the pairs of parents and children, one fewer than the nodes.
It is made if and only if every feature that is split has a name; otherwise `IndexError` is raised. -/
theorem c165_graph (cfg : Config) (msl : ℕ) (fit : Fit d) (bump work : Data d → ℕ) (D : Data d) (Vs : List (Data d)) (T : INode d)
    (hT : pruneAll (buildIndex cfg msl fit bump work D) Vs = .ok T) (names : List String) :
    ((∀ j ∈ T.features, (j : ℕ) < names.length) → ∃ l, getGraphviz names (some T) = .ok l ∧
      (picture l).nodes = T.texts names ∧ ((picture l).nodes.map Prod.fst).Nodup ∧ (picture l).edges = T.links ∧
      (picture l).nodes.length = T.erase.count ∧ (picture l).edges.length + 1 = (picture l).nodes.length) ∧
    ((∃ j ∈ T.features, names.length ≤ (j : ℕ)) → getGraphviz names (some T) = .error .indexError) := by
  have hn : T.indices.Nodup := (pruneAll_indices _ _ _ hT).nodup (build_nodup cfg msl fit bump work D)
  refine ⟨fun hf => ?_, fun ⟨j, hj, h⟩ => draw_unnamed names T 0 0 j hj h⟩
  obtain ⟨l, hl, hs⟩ := draw_spec names T hf hn 0 0
  obtain ⟨h1, h2⟩ := hs ⟨none, [], []⟩ (by simp) (by simp)
  have h1' : (picture l).nodes = T.texts names := by rw [picture, h1]; rfl
  have h2' : (picture l).edges = T.links := by rw [picture, h2]; simp
  have hlen : (T.texts names).length = T.erase.count := by
    rw [← List.length_map (f := Prod.fst), texts_fst, indices_count]
  refine ⟨l, hl, h1', ?_, h2', ?_, ?_⟩
  · rw [h1', texts_fst]; exact hn
  · rw [h1', hlen]
  · rw [h1', h2', hlen, links_count]

/-- **C165.** The tree that is drawn is the tree that was fitted and pruned: without the indices it is that of `fit` and `prune`. -/
theorem c165_tree (cfg : Config) (msl : ℕ) (fit : Fit d) (bump work : Data d → ℕ) (D : Data d) :
    (buildIndex cfg msl fit bump work D).erase = grow cfg msl fit D 0 ∧
    ∀ (T : INode d) (s : State d) (V : Data d), s.tree = some T.erase →
      (pruneIndex T V).map (fun T' => { s with tree := some T'.erase }) = prune s V := by
  refine ⟨growIndex_erase _ _ _ _ _ _ _ _ _, fun T s V hs => ?_⟩
  rw [prune, hs]
  cases T with
  | leaf => rfl
  | branch i p n j t l r =>
    simp only [INode.erase, pruneIndex]
    rw [← prunerIndex_erase, ← prunerIndex_erase]
    cases prunerIndex l (splitData j t V).1 with
    | error e => rfl
    | ok a =>
      cases prunerIndex r (splitData j t V).2 with
      | error e => rfl
      | ok b => rfl

/-- A tree of one split: three nodes, two edges. -/
example : ∃ l, getGraphviz ["x"] (some (.branch 1 none 4 (0 : Fin 1) 0.5 (.leaf 7 none 2 ⟨[], []⟩) (.leaf 9 none 2 ⟨[], []⟩))) = .ok l ∧
    (picture l).edges = [(1, 7), (1, 9)] := by
  refine ⟨_, rfl, ?_⟩
  simp [picture, Picture.read, Picture.add]

/-- Fitted trees that have not been pruned meet the hypothesis. -/
example (cfg : Config) (fit : Fit 2) (bump work : Data 2 → ℕ) (D : Data 2) :
    pruneAll (buildIndex cfg 3 fit bump work D) [] = .ok (buildIndex cfg 3 fit bump work D) := rfl

end EQ.Tree
