import Verif.Tree.FitModel
import Verif.Tree.UnitsProps
import Verif.Sub.UnitsProps
import Verif.Poly.UnitsProps

/-!
# Trees and the units of the inputs (C191)
-/

namespace EQ.Tree
open EQ.Basis

variable {d : ℕ}

/-! ## Specification -/

/-- A point in other units: `x_j ↦ s_j x_j + t_j`. -/
def shiftPt (s t : Fin d → ℝ) (x : Pt d) : Pt d := fun j => s j * x j + t j

/-- A point in the first units. -/
noncomputable def backPt (s t : Fin d → ℝ) (x : Pt d) : Pt d := fun j => (x j - t j) / s j

/-- The data with the inputs in other units. -/
def Data.move (s t : Fin d → ℝ) (D : Data d) : Data d := ⟨D.X.map (shiftPt s t), D.y⟩

/-- A way to fit that follows the units of the inputs, for the data in `G`: the error is the same, the polynomial takes the same values at corresponding
points. -/
def FollowsIn (G : Data d → Prop) (fit : Fit d) (s t : Fin d → ℝ) : Prop :=
  ∀ D : Data d, G D → fit (D.move s t) = ((fit D).1, (fit D).2.map fun p x => p (backPt s t x))

/-! ## Proofs -/

theorem back_shift (s t : Fin d → ℝ) (hs : ∀ j, 0 < s j) (x : Pt d) : backPt s t (shiftPt s t x) = x := by
  funext j
  have := (hs j).ne'
  simp only [backPt, shiftPt]
  field_simp
  ring

theorem gather_mapX {α β : Type} [Inhabited α] [Inhabited β] (g : α → β) (l : List α) (idx : List ℕ) (h : ∀ i ∈ idx, i < l.length) :
    gather (l.map g) idx = (gather l idx).map g := by
  unfold gather
  rw [List.map_map]
  refine List.map_congr_left fun i hi => ?_
  simp only [Function.comp_apply, List.getD_eq_getElem?_getD, List.getElem?_map, List.getElem?_eq_getElem (h i hi), Option.map_some,
    Option.getD_some]

theorem idxLeft_move (s t : Fin d → ℝ) (hs : ∀ j, 0 < s j) (j : Fin d) (u : ℝ) (X : List (Pt d)) :
    idxLeft j (s j * u + t j) (X.map (shiftPt s t)) = idxLeft j u X := by
  unfold idxLeft
  rw [List.length_map]
  refine List.filter_congr fun i hi => ?_
  have hi : i < X.length := by simpa using hi
  have e : (X.map (shiftPt s t)).getD i default j = s j * X.getD i default j + t j := by
    simp only [List.getD_eq_getElem?_getD, List.getElem?_map, List.getElem?_eq_getElem hi, Option.map_some, Option.getD_some]
    rfl
  rw [e]
  refine decide_eq_decide.2 ⟨fun h => ?_, fun h => ?_⟩
  · exact le_of_mul_le_mul_left (by linarith) (hs j)
  · have := mul_le_mul_of_nonneg_left h (hs j).le
    linarith

theorem idxRight_move (s t : Fin d → ℝ) (hs : ∀ j, 0 < s j) (j : Fin d) (u : ℝ) (X : List (Pt d)) :
    idxRight j (s j * u + t j) (X.map (shiftPt s t)) = idxRight j u X := by
  unfold idxRight
  rw [List.length_map, idxLeft_move s t hs]

theorem split_move (s t : Fin d → ℝ) (hs : ∀ j, 0 < s j) (D : Data d) (j : Fin d) (u : ℝ) :
    splitData j (s j * u + t j) (D.move s t) = ((splitData j u D).1.move s t, (splitData j u D).2.move s t) := by
  simp only [splitData, Data.move, idxLeft_move s t hs, idxRight_move s t hs]
  rw [gather_mapX _ _ _ (idxLeft_lt j u D.X), gather_mapX _ _ _ (idxRight_lt j u D.X)]

theorem unique_map (φ : ℝ → ℝ) (h : StrictMono φ) (l : List ℝ) : uniqueSorted (l.map φ) = (uniqueSorted l).map φ := by
  unfold uniqueSorted
  rw [List.dedup_map_of_injective h.injective]
  exact (List.map_mergeSort fun a _ b _ => by simp [h.le_iff_le]).symm

theorem foldl_mono (op : ℝ → ℝ → ℝ) (φ : ℝ → ℝ) (h : ∀ a b, op (φ a) (φ b) = φ (op a b)) (l : List ℝ) (a : ℝ) :
    (l.map φ).foldl op (φ a) = φ (l.foldl op a) := by
  induction l generalizing a with
  | nil => rfl
  | cons b l ih => rw [List.map_cons, List.foldl_cons, List.foldl_cons, h, ih]

theorem least_map (φ : ℝ → ℝ) (h : Monotone φ) (l : List ℝ) (hl : l ≠ []) : least (l.map φ) = φ (least l) := by
  cases l with
  | nil => exact absurd rfl hl
  | cons a l => exact foldl_mono min φ (fun a b => (h.map_min).symm) (a :: l) a

theorem greatest_map (φ : ℝ → ℝ) (h : Monotone φ) (l : List ℝ) (hl : l ≠ []) : greatest (l.map φ) = φ (greatest l) := by
  cases l with
  | nil => exact absurd rfl hl
  | cons a l => exact foldl_mono max φ (fun a b => (h.map_max).symm) (a :: l) a

theorem units_strict (s t : ℝ) (hs : 0 < s) : StrictMono fun x : ℝ => s * x + t := fun a b h => by
  have := mul_lt_mul_of_pos_left h hs
  simpa using this

theorem col_move (s t : Fin d → ℝ) (X : List (Pt d)) (j : Fin d) :
    (X.map (shiftPt s t)).map (fun x => x j) = (X.map fun x => x j).map fun v => s j * v + t j := by
  rw [List.map_map, List.map_map]
  rfl

theorem thresholds_move (cfg : Config) (s t : Fin d → ℝ) (hs : ∀ j, 0 < s j) (D : Data d) (j : Fin d) :
    thresholds cfg (D.move s t) j = (thresholds cfg D j).map fun u => s j * u + t j := by
  have hφ := units_strict (s j) (t j) (hs j)
  unfold thresholds
  simp only [Data.move, col_move, List.length_map]
  cases cfg.search with
  | exhaustive => exact unique_map _ hφ _
  | grid =>
    by_cases hX : D.X = []
    · have h0 : (if cfg.samples > D.X.length then D.X.length else cfg.samples) = 0 := by
        rw [hX, List.length_nil]
        split_ifs <;> omega
      simp only [h0]
      simp [linspace, uniqueSorted]
    simp only
    generalize (if cfg.samples > D.X.length then D.X.length else cfg.samples) = n
    have hne : (D.X.map fun x => x j) ≠ [] := by simpa using hX
    have h1 := least_map _ hφ.monotone _ hne
    have h2 := greatest_map _ hφ.monotone _ hne
    unfold least at h1
    unfold greatest at h2
    rw [h1, h2]
    generalize List.foldl min ((D.X.map fun x => x j).headD 0) (D.X.map fun x => x j) = lo
    generalize List.foldl max ((D.X.map fun x => x j).headD 0) (D.X.map fun x => x j) = hi
    rw [← unique_map _ hφ]
    congr 1
    unfold linspace
    rw [List.map_map]
    refine List.map_congr_left fun i _ => ?_
    simp only [Function.comp_apply]
    ring

/-- A candidate with the inputs in other units. -/
def Cand.move (s t : Fin d → ℝ) (c : Cand d) : Cand d := ⟨c.j, s c.j * c.t + t c.j, c.left.move s t, c.right.move s t⟩

theorem candidates_move (cfg : Config) (msl : ℕ) (s t : Fin d → ℝ) (hs : ∀ j, 0 < s j) (D : Data d) :
    candidates cfg msl (D.move s t) = (candidates cfg msl D).map (Cand.move s t) := by
  unfold candidates
  rw [List.map_flatMap]
  congr 1
  funext j
  rw [thresholds_move cfg s t hs, List.map_filterMap, List.filterMap_map]
  refine List.filterMap_congr fun u _ => ?_
  rw [Function.comp_apply, split_move s t hs]
  have e : ∀ D : Data d, (D.move s t).X.length = D.X.length := fun D => List.length_map _
  simp only [e]
  by_cases hc : (splitData j u D).1.X.length ≥ msl ∧ (splitData j u D).2.X.length ≥ msl
  · rw [if_pos hc, if_pos hc]
    rfl
  · rw [if_neg hc, if_neg hc]
    rfl

theorem move_length (s t : Fin d → ℝ) (D : Data d) : (D.move s t).X.length = D.X.length := List.length_map _

theorem loss_move (cfg : Config) (G : Data d → Prop) (fit : Fit d) (s t : Fin d → ℝ) (hf : FollowsIn G fit s t) (D : Data d) (c : Cand d)
    (hl : G c.left) (hr : G c.right) : lossSplit cfg fit (D.move s t) (c.move s t) = lossSplit cfg fit D c := by
  unfold lossSplit
  simp only [Cand.move, hf _ hl, hf _ hr, move_length]
  rfl

theorem scan_map (loss loss' : Cand d → WithTop ℝ) (g : Cand d → Cand d) (cs : List (Cand d)) (h : ∀ x ∈ cs, loss' (g x) = loss x)
    (best : WithTop ℝ × Option (Cand d)) : scan loss' (cs.map g) (best.1, best.2.map g) = ((scan loss cs best).1, (scan loss cs best).2.map g) := by
  induction cs generalizing best with
  | nil => rfl
  | cons x cs ih =>
    simp only [List.map_cons, scan, h x (by simp)]
    split_ifs with hlt
    · exact ih (fun y hy => h y (by simp [hy])) (loss x, some x)
    · exact ih (fun y hy => h y (by simp [hy])) best

theorem splitter_move (cfg : Config) (msl : ℕ) (G : Data d → Prop) (hG : Closed cfg msl G) (fit : Fit d) (s t : Fin d → ℝ) (hs : ∀ j, 0 < s j)
    (hf : FollowsIn G fit s t) (D : Data d) (h : G D) : splitter cfg msl fit (D.move s t) = (splitter cfg msl fit D).map (Cand.move s t) := by
  unfold splitter
  have key := scan_map (lossSplit cfg fit D) (lossSplit cfg fit (D.move s t)) (Cand.move s t) (candidates cfg msl D) fun c hc =>
    loss_move cfg G fit s t hf D c (hG D h c hc).1 (hG D h c hc).2
  rw [candidates_move cfg msl s t hs D]
  cases hcr : cfg.criterion with
  | modelAware =>
    simp only [hf D h]
    exact congrArg Prod.snd (key ((fit D).1, none))
  | modelAgnostic => exact congrArg Prod.snd (key (⊤, none))

/-- A polynomial in the new units. -/
noncomputable def movePoly (s t : Fin d → ℝ) (p : Option (PolyFn d)) : Option (PolyFn d) := p.map fun p x => p (backPt s t x)

/-- A tree in the new units. -/
noncomputable def Node.move (s t : Fin d → ℝ) : Node d → Node d
  | .leaf p n D => .leaf (movePoly s t p) n (D.move s t)
  | .branch p n j u l r => .branch (movePoly s t p) n j (s j * u + t j) (l.move s t) (r.move s t)

theorem grow_move (cfg : Config) (msl : ℕ) (G : Data d → Prop) (hG : Closed cfg msl G) (fit : Fit d) (s t : Fin d → ℝ) (hs : ∀ j, 0 < s j)
    (hf : FollowsIn G fit s t) (k : ℕ) :
    ∀ (D : Data d) (depth : ℕ), G D → cfg.maxDepth - depth ≤ k → grow cfg msl fit (D.move s t) depth = (grow cfg msl fit D depth).move s t := by
  induction k with
  | zero =>
    intro D depth h hk
    have : ¬ depth < cfg.maxDepth := by omega
    rw [grow, grow, if_neg this, if_neg this, hf D h, move_length]
    rfl
  | succ k ih =>
    intro D depth h hk
    rw [grow, grow]
    by_cases hd : depth < cfg.maxDepth
    · rw [if_pos hd, if_pos hd, splitter_move cfg msl G hG fit s t hs hf D h, hf D h, move_length]
      cases hc : splitter cfg msl fit D with
      | none => rfl
      | some c =>
        obtain ⟨h1, h2⟩ := hG D h c (splitter_mem hc)
        simp only [Option.map_some, Cand.move]
        rw [ih c.left (depth + 1) h1 (by omega), ih c.right (depth + 1) h2 (by omega)]
        rfl
    · rw [if_neg hd, if_neg hd, hf D h, move_length]
      rfl

theorem fitsEmpty_move (cfg : Config) (msl : ℕ) (G : Data d → Prop) (hG : Closed cfg msl G) (fit : Fit d) (s t : Fin d → ℝ) (hs : ∀ j, 0 < s j)
    (hf : FollowsIn G fit s t) (k : ℕ) :
    ∀ (D : Data d) (depth : ℕ), G D → cfg.maxDepth - depth ≤ k → (fitsEmpty cfg msl fit (D.move s t) depth ↔ fitsEmpty cfg msl fit D depth) := by
  induction k with
  | zero =>
    intro D depth h hk
    have : ¬ depth < cfg.maxDepth := by omega
    rw [fitsEmpty, fitsEmpty, if_neg this, if_neg this, move_length]
  | succ k ih =>
    intro D depth h hk
    rw [fitsEmpty, fitsEmpty]
    by_cases hd : depth < cfg.maxDepth
    · rw [if_pos hd, if_pos hd, splitter_move cfg msl G hG fit s t hs hf D h, candidates_move cfg msl s t hs D, move_length]
      refine or_congr Iff.rfl (or_congr (and_congr Iff.rfl ?_) ?_)
      · constructor
        · rintro ⟨c, hc, h⟩
          obtain ⟨c', hc', rfl⟩ := List.mem_map.1 hc
          exact ⟨c', hc', by simpa [Cand.move, Data.move] using h⟩
        · rintro ⟨c, hc, h⟩
          exact ⟨c.move s t, List.mem_map_of_mem hc, by simpa [Cand.move, Data.move] using h⟩
      · cases hc : splitter cfg msl fit D with
        | none => rfl
        | some c =>
          obtain ⟨h1, h2⟩ := hG D h c (splitter_mem hc)
          exact or_congr (ih c.left (depth + 1) h1 (by omega)) (ih c.right (depth + 1) h2 (by omega))
    · rw [if_neg hd, if_neg hd, move_length]

/-- The object in the new units. -/
noncomputable def State.move (s t : Fin d → ℝ) (S : State d) : State d := { S with tree := S.tree.map (Node.move s t) }

theorem fit_move (cfg : Config) (G : Data d → Prop) (fit : Fit d) (s t : Fin d → ℝ) (hs : ∀ j, 0 < s j) (hf : FollowsIn G fit s t) (D : Data d) (h : G D)
    (S : State d) (hG : Closed cfg (resolveMsl cfg.cardinality S.msl) G) :
    fitTree cfg fit (D.move s t) S = (fitTree cfg fit D S).map (State.move s t) := by
  simp only [fitTree]
  rw [candidates_move cfg _ s t hs D]
  simp only [ne_eq, List.map_eq_nil_iff, grow_move cfg _ G hG fit s t hs hf _ D 0 h le_rfl]
  by_cases h1 : cfg.logging = true ∧ cfg.criterion = .modelAgnostic ∧ ¬ candidates cfg (resolveMsl cfg.cardinality S.msl) D = []
  · rw [if_pos h1, if_pos h1]; rfl
  · rw [if_neg h1, if_neg h1]
    by_cases h2 : fitsEmpty cfg (resolveMsl cfg.cardinality S.msl) fit D 0
    · rw [if_pos h2, if_pos ((fitsEmpty_move cfg _ G hG fit s t hs hf _ D 0 h le_rfl).2 h2)]; rfl
    · rw [if_neg h2, if_neg fun h3 => h2 ((fitsEmpty_move cfg _ G hG fit s t hs hf _ D 0 h le_rfl).1 h3)]; rfl

theorem predictNode_move (s t : Fin d → ℝ) (hs : ∀ j, 0 < s j) (k : ℝ) (x : Pt d) (T : Node d) :
    predictNode k (shiftPt s t x) (T.move s t) = predictNode k x T := by
  induction T with
  | leaf p n D =>
    cases p with
    | none => rfl
    | some p => simp only [Node.move, movePoly, Option.map_some, predictNode, evalPoly, back_shift s t hs]
  | branch p n j u l r ihl ihr =>
    have hiff : shiftPt s t x j ≤ s j * u + t j ↔ x j ≤ u := (units_strict (s j) (t j) (hs j)).le_iff_le
    cases p with
    | none => rfl
    | some p => simp only [Node.move, movePoly, Option.map_some, predictNode, evalPoly, back_shift s t hs, hiff, ihl, ihr]

theorem mse_move (s t : Fin d → ℝ) (hs : ∀ j, 0 < s j) (f : PolyFn d) (D : Data d) : mse (fun x => f (backPt s t x)) (D.move s t) = mse f D := by
  simp only [mse, Data.move, List.zip_map_left, List.map_map, List.length_map]
  congr 3
  funext r
  simp only [Function.comp_apply, Prod.map_snd, Prod.map_fst, id, back_shift s t hs]

theorem samples_move (s t : Fin d → ℝ) (T : Node d) : (T.move s t).samples = T.samples := by cases T <;> rfl

theorem pruner_move (s t : Fin d → ℝ) (hs : ∀ j, 0 < s j) (T : Node d) : ∀ V : Data d,
    pruner (T.move s t) (V.move s t) = (pruner T V).map fun r => (r.1.move s t, r.2) := by
  induction T with
  | leaf p n D =>
    intro V
    simp only [Node.move, pruner, move_length]
    split_ifs with h0
    · simp [Except.map, Node.move]
    · cases p with
      | none => rfl
      | some p => simp only [movePoly, Option.map_some, mse_move s t hs, Except.map, Node.move]
  | branch p n j u l r ihl ihr =>
    intro V
    simp only [Node.move, pruner, move_length]
    split_ifs with h0
    · simp [Except.map, Node.move]
    · cases p with
      | none => rfl
      | some p =>
        simp only [movePoly, Option.map_some, split_move s t hs, mse_move s t hs]
        rw [ihl, ihr]
        cases pruner l (splitData j u V).1 with
        | error e => rfl
        | ok L =>
          cases pruner r (splitData j u V).2 with
          | error e => rfl
          | ok R =>
            simp only [Except.map, samples_move]
            split_ifs
            · rfl
            · rfl

theorem prune_move (s t : Fin d → ℝ) (hs : ∀ j, 0 < s j) (S : State d) (V : Data d) :
    prune (S.move s t) (V.move s t) = (prune S V).map (State.move s t) := by
  obtain ⟨m, k, T⟩ := S
  cases T with
  | none => rfl
  | some T =>
    cases T with
    | leaf p n D => rfl
    | branch p n j u l r =>
      simp only [prune, State.move, Option.map_some, Node.move, split_move s t hs]
      rw [pruner_move s t hs l, pruner_move s t hs r]
      cases pruner l (splitData j u V).1 with
      | error e => rfl
      | ok L =>
        cases pruner r (splitData j u V).2 with
        | error e => rfl
        | ok R => rfl

theorem prunes_move (s t : Fin d → ℝ) (hs : ∀ j, 0 < s j) (Vs : List (Data d)) (S : State d) :
    (Vs.map (Data.move s t)).foldlM prune (S.move s t) = (Vs.foldlM prune S).map (State.move s t) := by
  induction Vs generalizing S with
  | nil => rfl
  | cons V Vs ih =>
    rw [List.map_cons, List.foldlM_cons, List.foldlM_cons, prune_move s t hs S V]
    cases prune S V with
    | error e => rfl
    | ok S => exact ih S

theorem getSplits_move (s t : Fin d → ℝ) (hs : ∀ j, 0 < s j) (T : Node d) (l : List (ℝ × Fin d)) :
    getSplits (T.move s t) (l.map fun q => (s q.2 * q.1 + t q.2, q.2)) = (getSplits T l).map fun q => (s q.2 * q.1 + t q.2, q.2) := by
  have hinj : Function.Injective fun q : ℝ × Fin d => (s q.2 * q.1 + t q.2, q.2) := by
    rintro ⟨u, j⟩ ⟨u', j'⟩ h
    simp only [Prod.mk.injEq] at h
    obtain ⟨h1, rfl⟩ := h
    rw [(units_strict (s j) (t j) (hs j)).injective h1]
  have step : ∀ (l : List (ℝ × Fin d)) (u : ℝ) (j : Fin d),
      (if (s j * u + t j, j) ∈ l.map fun q => (s q.2 * q.1 + t q.2, q.2) then l.map fun q => (s q.2 * q.1 + t q.2, q.2)
        else (l.map fun q => (s q.2 * q.1 + t q.2, q.2)) ++ [(s j * u + t j, j)]) =
      (if (u, j) ∈ l then l else l ++ [(u, j)]).map fun q => (s q.2 * q.1 + t q.2, q.2) := by
    intro l u j
    have hm : (s j * u + t j, j) ∈ (l.map fun q => (s q.2 * q.1 + t q.2, q.2)) ↔ (u, j) ∈ l := List.mem_map_of_injective hinj (a := (u, j))
    by_cases h : (u, j) ∈ l
    · rw [if_pos h, if_pos (hm.2 h)]
    · rw [if_neg h, if_neg (fun h' => h (hm.1 h')), List.map_append]
      rfl
  induction T generalizing l with
  | leaf => rfl
  | branch p n j u L R ihl ihr =>
    simp only [Node.move, getSplits]
    rw [step, ihl, step, ihr]

/-- A way to fit that follows the units of the inputs gives trees that do. -/
theorem tree_move (cfg : Config) (G : Data d → Prop) (fit : Fit d) (s t : Fin d → ℝ) (hs : ∀ j, 0 < s j) (hf : FollowsIn G fit s t) (D : Data d) (h : G D)
    (S : State d) (hG : Closed cfg (resolveMsl cfg.cardinality S.msl) G) (Vs : List (Data d)) :
    match fitAndPrune cfg fit D Vs S, fitAndPrune cfg fit (D.move s t) (Vs.map (Data.move s t)) S with
    | .error e, .error e' => e = e'
    | .ok T, .ok T' =>
      (∀ n, T.tree = some n → ∃ n', T'.tree = some n' ∧ getSplits n' [] = (getSplits n []).map fun q => (s q.2 * q.1 + t q.2, q.2)) ∧
      ∀ x, predict T' (shiftPt s t x) = predict T x
    | _, _ => False := by
  have h : fitAndPrune cfg fit (D.move s t) (Vs.map (Data.move s t)) S = (fitAndPrune cfg fit D Vs S).map (State.move s t) := by
    unfold fitAndPrune
    rw [fit_move cfg G fit s t hs hf D h S hG]
    cases fitTree cfg fit D S with
    | error e => rfl
    | ok S => exact prunes_move s t hs Vs S
  rw [h]
  cases fitAndPrune cfg fit D Vs S with
  | error e => exact rfl
  | ok T =>
    refine ⟨fun n hn => ⟨n.move s t, by simp [State.move, hn], getSplits_move s t hs n []⟩, fun x => ?_⟩
    obtain ⟨m, k, T⟩ := T
    cases T with
    | none => rfl
    | some T => exact predictNode_move s t hs k x T

/-! ## The fits at the nodes -/

open EQ.Param EQ.Sampling EQ.Poly EQ.Sub

theorem getD_abs (P : Fin d → MParam) (k : ℕ) (hk : k < d) : ((List.ofFn P).map MParam.ab).getD k (fun _ => (0, 0)) = (P ⟨k, hk⟩).ab := by
  rw [List.getD_eq_getElem?_getD, List.getElem?_map, List.getElem?_ofFn, dif_pos hk]
  rfl

theorem getD_pt (x : Pt d) (k : ℕ) (hk : k < d) : (List.ofFn x).getD k 0 = x ⟨k, hk⟩ := by
  rw [List.getD_eq_getElem?_getD, List.getElem?_ofFn, dif_pos hk]
  rfl

theorem multiPoly_move (P Q : Fin d → MParam) (s t : Fin d → ℝ) (hs : ∀ j, 0 < s j) (hPQ : ∀ j, SameLaw (s j, t j) (P j) (Q j)) (els : List (List ℕ))
    (X : List (Pt d)) :
    multiPoly (List.ofFn Q) els d ((X.map (shiftPt s t)).map fun x => List.ofFn x) = multiPoly (List.ofFn P) els d (X.map fun x => List.ofFn x) := by
  have key : ∀ (x : Pt d) (k : ℕ) (hk : k < d) (N n : ℕ), n < N →
      (orthoTables (((List.ofFn Q).map MParam.ab).getD k fun _ => (0, 0)) N ((List.ofFn (shiftPt s t x)).getD k 0)).poly n =
        (orthoTables (((List.ofFn P).map MParam.ab).getD k fun _ => (0, 0)) N ((List.ofFn x).getD k 0)).poly n := by
    intro x k hk N n hn
    rw [(orthoTables_eq _ _ _ _ hn).1, (orthoTables_eq _ _ _ _ hn).1, getD_abs Q k hk, getD_abs P k hk, getD_pt _ k hk, getD_pt _ k hk]
    exact opoly_units (s := (s ⟨k, hk⟩, t ⟨k, hk⟩)) (hs _) (hPQ _) n _
  unfold multiPoly
  simp only [List.map_map]
  split_ifs with h1
  · refine List.map_congr_left fun n hn => List.map_congr_left fun x _ => ?_
    exact key x 0 (by omega) _ n (by simpa using hn)
  · refine List.map_congr_left fun row hrow => List.map_congr_left fun x _ => ?_
    refine List.foldl_ext _ _ _ fun acc k hk => ?_
    simp only [Function.comp_apply]
    rw [key x k (by simpa using hk) _ _ (Nat.lt_succ_of_le (le_colMax els k row hrow))]

theorem getPoly_move (P Q : Fin d → MParam) (s t : Fin d → ℝ) (hs : ∀ j, 0 < s j) (hPQ : ∀ j, SameLaw (s j, t j) (P j) (Q j)) (els : List (List ℕ))
    (X : List (Pt d)) :
    (Expansion.mk (List.ofFn Q) els none).getPoly none ((X.map (shiftPt s t)).map fun x => List.ofFn x) =
      (Expansion.mk (List.ofFn P) els none).getPoly none (X.map fun x => List.ofFn x) := by
  have hm := multiPoly_move P Q s t hs hPQ els X
  unfold Expansion.getPoly Expansion.dims
  simp only [List.length_ofFn, Option.getD_none, List.length_map]
  by_cases h1 : d = 1
  · subst h1
    rw [hm]
  · rw [hm, if_neg h1, if_neg h1]

theorem same_uniform (a b l u : ℝ) : SameLaw (a, b) (uniformParam l u) (uniformParam (a * l + b) (a * u + b)) := by
  refine ⟨fun k => ?_, fun k hk => ?_⟩
  · simp only [uniformParam, mkUniform, jacobiRow]
    split_ifs <;> ring
  · simp only [uniformParam, mkUniform, jacobiRow, if_neg (show k ≠ 0 by omega)]
    split_ifs <;> ring

/-- The samples are at least `0.1` apart in every input, in both units. -/
def Apart (s : Fin d → ℝ) (X : List (Pt d)) : Prop :=
  ∀ j, ∃ x ∈ X, ∃ x' ∈ X, 0.1 ≤ x' j - x j ∧ 0.1 ≤ s j * (x' j - x j)

theorem foldl_min_le (l : List ℝ) : ∀ c : ℝ, l.foldl min c ≤ c ∧ ∀ v ∈ l, l.foldl min c ≤ v := by
  induction l with
  | nil => intro c; simp
  | cons a l ih =>
    intro c
    have := ih (min c a)
    refine ⟨this.1.trans (min_le_left _ _), fun v hv => ?_⟩
    rcases List.mem_cons.1 hv with rfl | hv
    · exact this.1.trans (min_le_right _ _)
    · exact this.2 v hv

theorem le_foldl_maxR (l : List ℝ) : ∀ c : ℝ, c ≤ l.foldl max c ∧ ∀ v ∈ l, v ≤ l.foldl max c := by
  induction l with
  | nil => intro c; simp
  | cons a l ih =>
    intro c
    have := ih (max c a)
    refine ⟨(le_max_left _ _).trans this.1, fun v hv => ?_⟩
    rcases List.mem_cons.1 hv with rfl | hv
    · exact (le_max_right _ _).trans this.1
    · exact this.2 v hv

theorem nodeParam_move (s t : Fin d → ℝ) (hs : ∀ j, 0 < s j) (X : List (Pt d)) (h : Apart s X) (j : Fin d) :
    SameLaw (s j, t j) (nodeParam (X.map fun x => x j)) (nodeParam ((X.map (shiftPt s t)).map fun x => x j)) := by
  obtain ⟨x, hx, x', hx', h1, h2⟩ := h j
  have hne : X.map (fun x => x j) ≠ [] := by
    intro h0
    rw [List.map_eq_nil_iff] at h0
    simp [h0] at hx
  have hm : Monotone fun v : ℝ => s j * v + t j := fun a b hab => by
    have := mul_le_mul_of_nonneg_left hab (hs j).le
    simpa using this
  have hl : least (X.map fun x => x j) ≤ x j := (foldl_min_le _ _).2 _ (List.mem_map.2 ⟨x, hx, rfl⟩)
  have hg : x' j ≤ greatest (X.map fun x => x j) := (le_foldl_maxR _ _).2 _ (List.mem_map.2 ⟨x', hx', rfl⟩)
  have e1 := least_map _ hm _ hne
  have e2 := greatest_map _ hm _ hne
  rw [col_move]
  unfold nodeParam
  rw [e1, e2]
  generalize least (X.map fun x => x j) = l at *
  generalize greatest (X.map fun x => x j) = g at *
  have a1 : (0.1 : ℝ) ≤ g - l := by linarith
  have a2 : (0.1 : ℝ) ≤ s j * (g - l) := h2.trans (mul_le_mul_of_nonneg_left (by linarith) (hs j).le)
  rw [if_neg (by nlinarith), if_neg (by nlinarith)]
  exact same_uniform _ _ _ _

theorem valueAt_move (P Q : Fin d → MParam) (s t : Fin d → ℝ) (hs : ∀ j, 0 < s j) (hPQ : ∀ j, SameLaw (s j, t j) (P j) (Q j)) (els : List (List ℕ))
    (c : List ℝ) (x : Pt d) :
    valueAt ⟨⟨List.ofFn Q, els, none⟩, c⟩ x = valueAt ⟨⟨List.ofFn P, els, none⟩, c⟩ (backPt s t x) := by
  have hx : shiftPt s t (backPt s t x) = x := by
    funext j
    have := (hs j).ne'
    simp only [backPt, shiftPt]
    field_simp
    ring
  have h := getPoly_move P Q s t hs hPQ els [backPt s t x]
  simp only [List.map_cons, List.map_nil, hx] at h
  simp only [valueAt, Expansion.polyfit, h]
  rfl

/-- The fits at the nodes follow the units of the inputs as long as the samples are at least `0.1` apart in every input. -/
theorem fitPoly_follows (lstsq : List (List ℝ) → List ℝ → ℕ → List ℝ) (els : List (List ℕ)) (s t : Fin d → ℝ) (hs : ∀ j, 0 < s j) :
    FollowsIn (fun D => Apart s D.X) (fitPoly lstsq els) s t := by
  intro D h
  have hP := nodeParam_move s t hs D.X h
  have h1 := multiPoly_move _ _ s t hs hP els D.X
  have h2 := getPoly_move _ _ s t hs hP els D.X
  have h3 := valueAt_move _ _ s t hs hP els
  simp only [fitPoly, fitSamples, nodeBasis, Data.move, Expansion.dims, List.length_ofFn, List.length_map]
  rw [h1, h2]
  cases (Expansion.mk (List.ofFn fun j => nodeParam (D.X.map fun x => x j)) els none).getPoly none (D.X.map fun x => List.ofFn x) with
  | error e => rfl
  | ok M =>
    simp only [Option.map_some]
    have e := funext (h3 (lstsq (designMatrix M (sampleWeights (multiPoly (List.ofFn fun j => nodeParam (D.X.map fun x => x j)) els d
      (D.X.map fun x => List.ofFn x)) D.X.length)) (rhs (sampleWeights (multiPoly (List.ofFn fun j => nodeParam (D.X.map fun x => x j)) els d
      (D.X.map fun x => List.ofFn x)) D.X.length) D.y) M.length))
    rw [e]
    have := mse_move s t hs (valueAt ⟨⟨List.ofFn fun j => nodeParam (D.X.map fun x => x j), els, none⟩, lstsq (designMatrix M (sampleWeights (multiPoly (List.ofFn fun j => nodeParam (D.X.map fun x => x j)) els d
      (D.X.map fun x => List.ofFn x)) D.X.length)) (rhs (sampleWeights (multiPoly (List.ofFn fun j => nodeParam (D.X.map fun x => x j)) els d
      (D.X.map fun x => List.ofFn x)) D.X.length) D.y) M.length⟩) D
    unfold Data.move at this
    rw [this]

theorem gather_sublist {α : Type} [Inhabited α] (l : List α) (p : ℕ → Bool) : (gather l ((List.range l.length).filter p)).Sublist l := by
  have h : gather l (List.range l.length) = l := by
    apply List.ext_getElem
    · simp [gather]
    · intro i h1 h2
      simp [gather, h2]
  have := (List.filter_sublist (p := p) (l := List.range l.length)).map fun i => l.getD i default
  rwa [show (List.range l.length).map (fun i => l.getD i default) = l from h] at this

theorem split_sublist (j : Fin d) (t : ℝ) (D : Data d) : (splitData j t D).1.X.Sublist D.X ∧ (splitData j t D).2.X.Sublist D.X :=
  ⟨gather_sublist _ _, gather_sublist _ _⟩

/-- **C191, samples far apart.** If, in both units, every set of samples that a node may hold — the whole training set, or at least `min_samples_leaf` of the
samples — has two samples at least `0.1` apart in every input, then the tree fitted and pruned with the inputs in other units fails if the first one fails, has the
same splits in the new units, and predicts the same values at corresponding points. What is missing for the full claim: `c191_units_violated`. -/
theorem c191_tree_partial (cfg : Config) (lstsq : List (List ℝ) → List ℝ → ℕ → List ℝ) (els : List (List ℕ)) (s t : Fin d → ℝ) (hs : ∀ j, 0 < s j) (D : Data d)
    (S : State d) (h : ∀ L : List (Pt d), L.Sublist D.X → L = D.X ∨ resolveMsl cfg.cardinality S.msl ≤ L.length → Apart s L) (Vs : List (Data d)) :
    match fitAndPrune cfg (fitPoly lstsq els) D Vs S, fitAndPrune cfg (fitPoly lstsq els) (D.move s t) (Vs.map (Data.move s t)) S with
    | .error e, .error e' => e = e'
    | .ok T, .ok T' =>
      (∀ n, T.tree = some n → ∃ n', T'.tree = some n' ∧ getSplits n' [] = (getSplits n []).map fun q => (s q.2 * q.1 + t q.2, q.2)) ∧
      ∀ x, predict T' (shiftPt s t x) = predict T x
    | _, _ => False := by
  refine tree_move cfg (fun E => E.X.Sublist D.X ∧ (E.X = D.X ∨ resolveMsl cfg.cardinality S.msl ≤ E.X.length)) _ s t hs
    (fun E hE => fitPoly_follows lstsq els s t hs E (h _ hE.1 hE.2)) D ⟨List.Sublist.refl _, Or.inl rfl⟩ S ?_ Vs
  intro E hE c hc
  unfold candidates at hc
  simp only [List.mem_flatMap, List.mem_filterMap] at hc
  obtain ⟨j, _, v, _, hc⟩ := hc
  split_ifs at hc with hlen
  · obtain rfl := Option.some.inj hc
    exact ⟨⟨(split_sublist j v E).1.trans hE.1, Or.inr hlen.1⟩, ⟨(split_sublist j v E).2.trans hE.1, Or.inr hlen.2⟩⟩

/-! ## Samples that are close together -/

theorem middle_weights (q v : ℝ) (hv : v = 1 / (1 + q ^ 2)) :
    sampleWeights [[1, 1, 1], [-q, 0, q]] 3 = [v / (2 * v + 1), 1 / (2 * v + 1), v / (2 * v + 1)] := by
  subst hv
  simp only [sampleWeights, columnSquares, List.range_succ, List.range_zero, List.nil_append, List.map_cons, List.map_nil,
    List.sum_cons, List.sum_nil, List.cons_append, List.getD_cons_zero, List.getD_cons_succ]
  norm_num
  ring_nf
  exact ⟨trivial, trivial, trivial⟩

theorem middle_residual (q a b x y : ℝ) (ha : 0 ≤ a) (hb : 0 ≤ b) :
    sqResidual (designMatrix [[1, 1, 1], [-q, 0, q]] [a, b, a]) (rhs [a, b, a] [0, 0, 1]) [x, y] =
      a * (x - q * y) ^ 2 + b * x ^ 2 + a * (x + q * y - 1) ^ 2 := by
  simp only [sqResidual, designMatrix, rhs, List.zipIdx_cons, List.zipIdx_nil, List.map_cons, List.map_nil, List.zipWith_cons_cons,
    List.zipWith_nil_right, List.sum_cons, List.sum_nil, List.getD_cons_zero, List.getD_cons_succ]
  have h1 : √a ^ 2 = a := Real.sq_sqrt ha
  have h2 : √b ^ 2 = b := Real.sq_sqrt hb
  linear_combination ((x - q * y) ^ 2 + (x + q * y - 1) ^ 2) * h1 + x ^ 2 * h2

/-- The fit of a line to the outputs `0, 0, 1` at points where the second polynomial is `-q, 0, q`: the value at the middle. -/
theorem middle_fit {lstsq : List (List ℝ) → List ℝ → ℕ → List ℝ} (hl : LstsqOK lstsq) (q v : ℝ) (hq : 0 < q) (hv : v = 1 / (1 + q ^ 2)) :
    ∃ c1, lstsq (designMatrix [[1, 1, 1], [-q, 0, q]] [v / (2 * v + 1), 1 / (2 * v + 1), v / (2 * v + 1)])
      (rhs [v / (2 * v + 1), 1 / (2 * v + 1), v / (2 * v + 1)] [0, 0, 1]) 2 = [v / (2 * v + 1), c1] := by
  have hv0 : 0 < v := by rw [hv]; positivity
  have h := hl (designMatrix [[1, 1, 1], [-q, 0, q]] [v / (2 * v + 1), 1 / (2 * v + 1), v / (2 * v + 1)])
    (rhs [v / (2 * v + 1), 1 / (2 * v + 1), v / (2 * v + 1)] [0, 0, 1]) 2
  generalize lstsq _ _ _ = c at h
  obtain ⟨hlen, hmin⟩ := h
  obtain ⟨c0, c1, rfl⟩ := List.length_eq_two.1 hlen
  have h2 := hmin [v / (2 * v + 1), 1 / (2 * q)] rfl
  have hpos : 0 < 2 * v + 1 := by linarith
  rw [middle_residual _ _ _ _ _ (by positivity) (by positivity), middle_residual _ _ _ _ _ (by positivity) (by positivity)] at h2
  have e : v / (2 * v + 1) * (c0 - q * c1) ^ 2 + 1 / (2 * v + 1) * c0 ^ 2 + v / (2 * v + 1) * (c0 + q * c1 - 1) ^ 2 -
      (v / (2 * v + 1) * (v / (2 * v + 1) - q * (1 / (2 * q))) ^ 2 + 1 / (2 * v + 1) * (v / (2 * v + 1)) ^ 2 +
        v / (2 * v + 1) * (v / (2 * v + 1) + q * (1 / (2 * q)) - 1) ^ 2) =
      (c0 - v / (2 * v + 1)) ^ 2 + v / (2 * v + 1) * 2 * (q * c1 - 1 / 2) ^ 2 := by
    field_simp
    ring
  have h3 : 0 ≤ v / (2 * v + 1) * 2 * (q * c1 - 1 / 2) ^ 2 := by positivity
  have h4 : (c0 - v / (2 * v + 1)) ^ 2 = 0 := le_antisymm (by linarith) (sq_nonneg _)
  have h5 : c0 = v / (2 * v + 1) := by
    have := pow_eq_zero_iff (two_ne_zero) |>.1 h4
    linarith
  exact ⟨c1, by rw [h5]⟩

/-- Three samples on a line. -/
noncomputable def three (h : ℝ) : Data 1 := ⟨[fun _ => 0, fun _ => h, fun _ => 2 * h], [0, 0, 1]⟩

theorem fitElements_one : fitElements 1 1 = [[0], [1]] := by decide

theorem uniform_first (l u x : ℝ) : (opoly (uniformParam l u).ab 1).eval x = (√((u - l) ^ 2 / 12))⁻¹ * (x - (l + u) / 2) := by
  simp only [opoly, uniformParam, mkUniform, jacobiRow]
  simp only [Polynomial.eval_mul, Polynomial.eval_C, Polynomial.eval_sub, Polynomial.eval_X]
  norm_num
  ring_nf
  simp

theorem three_poly (l u h q : ℝ) (hm : l + u = 2 * h) (hq : q = (√((u - l) ^ 2 / 12))⁻¹ * h) (pts : List (List ℝ)) (hp : pts = [[0], [h], [2 * h]]) :
    multiPoly [uniformParam l u] [[0], [1]] 1 pts = [[1, 1, 1], [-q, 0, q]] := by
  subst hp
  have e : ∀ x n, n < 2 → (orthoTables (uniformParam l u).ab 2 x).poly n = (opoly (uniformParam l u).ab n).eval x := fun x n hn => (orthoTables_eq _ _ _ _ hn).1
  have hc : colMax [[0], [1]] 0 = 1 := by decide
  unfold multiPoly
  rw [if_pos rfl, hc]
  simp only [List.range_succ, List.range_zero, List.nil_append, List.map_cons, List.map_nil, List.cons_append, List.getD_cons_zero]
  simp only [hc, Nat.reduceAdd]
  rw [e _ 0 (by norm_num), e _ 0 (by norm_num), e _ 0 (by norm_num), e _ 1 (by norm_num), e _ 1 (by norm_num), e _ 1 (by norm_num), uniform_first, uniform_first,
    uniform_first, hm, hq]
  simp only [opoly, Polynomial.eval_one]
  congr 3
  · ring
  · ring_nf

theorem three_fit {lstsq : List (List ℝ) → List ℝ → ℕ → List ℝ} (hl : LstsqOK lstsq) (l u h q v : ℝ) (hh : 0 < h) (hlu : l < u) (hm : l + u = 2 * h)
    (hq : q = (√((u - l) ^ 2 / 12))⁻¹ * h) (hv : v = 1 / (1 + q ^ 2)) (hn : nodeParam [0, h, 2 * h] = uniformParam l u) :
    ∃ f, (fitPoly lstsq (fitElements 1 1) (three h)).2 = some f ∧ f (fun _ => h) = v / (2 * v + 1) := by
  have hpos : 0 < q := by
    rw [hq]
    have : 0 < u - l := by linarith
    positivity
  obtain ⟨c1, hc⟩ := middle_fit hl q v hpos hv
  have hb : nodeBasis (fitElements 1 1) (three h).X = ⟨[uniformParam l u], [[0], [1]], none⟩ := by
    unfold nodeBasis
    rw [fitElements_one, List.ofFn_succ, List.ofFn_zero]
    simp only [three, List.map_cons, List.map_nil]
    rw [hn]
  have hp := three_poly l u h q hm hq
  have hpts : (three h).X.map (fun x => List.ofFn x) = [[0], [h], [2 * h]] := by simp [three]
  have hfit : fitSamples lstsq (nodeBasis (fitElements 1 1) (three h).X) ((three h).X.map fun x => List.ofFn x) (three h).y =
      .ok ⟨⟨[uniformParam l u], [[0], [1]], none⟩, [v / (2 * v + 1), c1]⟩ := by
    rw [hb, hpts]
    simp only [fitSamples, Expansion.getPoly, Expansion.dims, List.length_cons, List.length_nil, Option.getD_none, zero_add, if_true]
    rw [hp _ rfl, if_neg (by simp), middle_weights q v hv]
    simp only [three]
    rw [← hc]
    rfl
  refine ⟨_, by unfold fitPoly; rw [hfit], ?_⟩
  unfold valueAt Expansion.polyfit
  have e1 : List.ofFn (fun _ : Fin 1 => h) = [h] := by simp
  have hg : (Expansion.mk [uniformParam l u] [[0], [1]] none).getPoly none [[h]] = .ok [[1], [0]] := by
    simp only [Expansion.getPoly, Expansion.dims, List.length_cons, List.length_nil, Option.getD_none, zero_add, if_true]
    rw [if_neg (by simp)]
    have e : ∀ x n, n < 2 → (orthoTables (uniformParam l u).ab 2 x).poly n = (opoly (uniformParam l u).ab n).eval x := fun x n hn => (orthoTables_eq _ _ _ _ hn).1
    have hc : colMax [[0], [1]] 0 = 1 := by decide
    unfold multiPoly
    rw [if_pos rfl, hc]
    simp only [List.range_succ, List.range_zero, List.nil_append, List.map_cons, List.map_nil, List.cons_append, List.getD_cons_zero]
    simp only [hc, Nat.reduceAdd]
    rw [e _ 0 (by norm_num), e _ 1 (by norm_num), uniform_first, hm]
    simp [opoly]
  rw [e1, hg]
  simp [dotT]

theorem three_tree (fit : Fit 1) (D : Data 1) (h : D.X.length ≠ 0) (S : State 1) (x : Pt 1) (f : PolyFn 1) (hf : (fit D).2 = some f) :
    ∃ T, fitTree ⟨.modelAware, .exhaustive, 50, 0, false, 2⟩ fit D S = .ok T ∧ predict T x = .ok (some (f x)) := by
  unfold fitTree
  simp only [Bool.false_eq_true, false_and, if_false]
  rw [if_neg]
  · refine ⟨_, rfl, ?_⟩
    unfold predict grow
    simp only [lt_irrefl, if_false, predictNode, hf, evalPoly]
    rfl
  · unfold fitsEmpty
    simp [h]

/-- **C191, what fails.** Three samples on a line, one leaf, degree 1. With the inputs `0, 1, 2` the prediction at the middle is `1/6`. With the same inputs in other
units (`0, 0.01, 0.02`) it is `4/15`: the bounds of the basis are then moved apart by `0.01`. -/
theorem c191_units_violated {lstsq : List (List ℝ) → List ℝ → ℕ → List ℝ} (hl : LstsqOK lstsq) (S : State 1) :
    ∃ (cfg : Config) (D : Data 1) (s t : Fin 1 → ℝ) (x : Pt 1) (T T' : State 1), (∀ j, 0 < s j) ∧
      fitTree cfg (fitPoly lstsq (fitElements 1 1)) D S = .ok T ∧ fitTree cfg (fitPoly lstsq (fitElements 1 1)) (D.move s t) S = .ok T' ∧
      predict T x = .ok (some (1 / 6)) ∧ predict T' (shiftPt s t x) = .ok (some (4 / 15)) := by
  have hmv : (three 1).move (fun _ => 1 / 100) (fun _ => 0) = three (1 / 100) := by
    simp only [three, Data.move, List.map_cons, List.map_nil]
    congr 2 <;> [skip; congr 1 <;> [skip; congr 1]] <;> · funext j; simp only [shiftPt]; norm_num
  have hx : shiftPt (fun _ => 1 / 100) (fun _ => 0) (fun _ : Fin 1 => (1 : ℝ)) = fun _ => 1 / 100 := by
    funext j
    simp [shiftPt]
  have hs1 : (√((2 - 0 : ℝ) ^ 2 / 12))⁻¹ ^ 2 = 3 := by
    rw [inv_pow, Real.sq_sqrt (by norm_num)]
    norm_num
  have hs2 : (√((3 / 100 - (-1 / 100) : ℝ) ^ 2 / 12))⁻¹ ^ 2 = 7500 := by
    rw [inv_pow, Real.sq_sqrt (by norm_num)]
    norm_num
  obtain ⟨f, hf, hf1⟩ := three_fit hl 0 2 1 _ _ (by norm_num) (by norm_num) (by norm_num) rfl rfl (by
    simp only [nodeParam, least, greatest, List.foldl_cons, List.foldl_nil, List.headD_cons]
    norm_num)
  obtain ⟨g, hg, hg1⟩ := three_fit hl (-1 / 100) (3 / 100) (1 / 100) _ _ (by norm_num) (by norm_num) (by norm_num) rfl rfl (by
    simp only [nodeParam, least, greatest, List.foldl_cons, List.foldl_nil, List.headD_cons]
    norm_num)
  obtain ⟨T, h1, h2⟩ := three_tree _ (three 1) (by simp [three]) S (fun _ => 1) f hf
  obtain ⟨T', h1', h2'⟩ := three_tree _ (three (1 / 100)) (by simp [three]) S (fun _ => 1 / 100) g hg
  refine ⟨_, three 1, fun _ => 1 / 100, fun _ => 0, fun _ => 1, T, T', fun _ => by norm_num, h1, by rw [hmv]; exact h1', ?_, ?_⟩
  · rw [h2, hf1, mul_pow, hs1]
    norm_num
  · rw [hx, h2', hg1, mul_pow, hs2]
    norm_num

/-- The theorem applies to a tree fitted to samples at `0, 1, ..., n`, in units twice as large. -/
example (n : ℕ) (y : List ℝ) (s : Fin 1 → ℝ) (hs : s 0 = 2) (S : State 1) (hS : S.msl = some 3) (cfg : Config) (hc : cfg.cardinality = 2)
    (D : Data 1) (hD : D = ⟨(List.range (n + 2)).map fun (i : ℕ) (_ : Fin 1) => (i : ℝ), y⟩) :
    (∀ j, 0 < s j) ∧ ∀ L : List (Pt 1), L.Sublist D.X → L = D.X ∨ resolveMsl cfg.cardinality S.msl ≤ L.length → Apart s L := by
  subst hD
  refine ⟨fun j => by rw [Subsingleton.elim j 0, hs]; norm_num, fun L hL h => ?_⟩
  have hlen : 2 ≤ L.length := by
    rcases h with h | h
    · rw [h]; simp
    · rw [hS, hc] at h
      exact le_trans (by decide) h
  have hinc : ((List.range (n + 2)).map fun (i : ℕ) (_ : Fin 1) => (i : ℝ)).Pairwise fun a b => 1 ≤ b 0 - a 0 := by
    rw [List.pairwise_map]
    refine List.pairwise_lt_range.imp fun {a b} hab => ?_
    have : (a : ℝ) + 1 ≤ b := by exact_mod_cast hab
    linarith
  have hp := hinc.sublist hL
  match L, hlen, hp with
  | a :: b :: L, _, hp =>
    have h1 : 1 ≤ b 0 - a 0 := (List.pairwise_cons.1 hp).1 b (by simp)
    intro j
    rw [Subsingleton.elim j 0, hs]
    exact ⟨a, by simp, b, by simp, by linarith, by linarith⟩

end EQ.Tree
