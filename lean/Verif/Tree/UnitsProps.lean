import Verif.Tree.Props
import Mathlib.Algebra.Module.Submodule.Defs
import Mathlib.Algebra.Module.Pi

/-!
# A tree follows the units of the outputs (C186)
-/

namespace EQ.Tree
open EQ.Basis

variable {d : ℕ}

/-! ## Specification -/

/-- The data with the outputs in other units. -/
def Data.scale (a b : ℝ) (D : Data d) : Data d := ⟨D.X, D.y.map fun v => a * v + b⟩

/-- A way to fit that follows the units of the outputs, for the data in `G`: the polynomial is transformed like the outputs, the mean squared error
gets the square of the factor; a failed fit still fails. -/
def Follows (G : Data d → Prop) (fit : Fit d) (a b : ℝ) : Prop :=
  ∀ D : Data d, G D → D.Paired → fit (D.scale a b) = ((fit D).1.map fun l => a ^ 2 * l, (fit D).2.map fun p x => a * p x + b)

/-- Both parts of every split that is tried belong to `G` again. -/
def Closed (cfg : Config) (msl : ℕ) (G : Data d → Prop) : Prop := ∀ D, G D → ∀ c ∈ candidates cfg msl D, G c.left ∧ G c.right

/-! ## Proofs -/

theorem gather_map (g : ℝ → ℝ) (l : List ℝ) (idx : List ℕ) (h : ∀ i ∈ idx, i < l.length) :
    gather (l.map g) idx = (gather l idx).map g := by
  unfold gather
  rw [List.map_map]
  refine List.map_congr_left fun i hi => ?_
  simp only [Function.comp_apply, List.getD_eq_getElem?_getD, List.getElem?_map, List.getElem?_eq_getElem (h i hi), Option.map_some,
    Option.getD_some]

theorem idxLeft_lt (j : Fin d) (t : ℝ) (X : List (Pt d)) : ∀ i ∈ idxLeft j t X, i < X.length := fun i hi => by
  simpa using (List.mem_filter.1 hi).1

theorem idxRight_lt (j : Fin d) (t : ℝ) (X : List (Pt d)) : ∀ i ∈ idxRight j t X, i < X.length := fun i hi => by
  simpa using (List.mem_filter.1 hi).1

theorem split_scale (a b : ℝ) (D : Data d) (h : D.Paired) (j : Fin d) (t : ℝ) :
    splitData j t (D.scale a b) = ((splitData j t D).1.scale a b, (splitData j t D).2.scale a b) := by
  have h : D.X.length = D.y.length := h
  simp only [splitData, Data.scale]
  rw [gather_map _ _ _ fun i hi => h ▸ idxLeft_lt j t D.X i hi, gather_map _ _ _ fun i hi => h ▸ idxRight_lt j t D.X i hi]

theorem split_paired (D : Data d) (j : Fin d) (t : ℝ) : (splitData j t D).1.Paired ∧ (splitData j t D).2.Paired := by
  simp [splitData, Data.Paired, gather]

/-- A candidate with the outputs in other units. -/
def Cand.scale (a b : ℝ) (c : Cand d) : Cand d := ⟨c.j, c.t, c.left.scale a b, c.right.scale a b⟩

theorem candidates_scale (cfg : Config) (msl : ℕ) (a b : ℝ) (D : Data d) (h : D.Paired) :
    candidates cfg msl (D.scale a b) = (candidates cfg msl D).map (Cand.scale a b) := by
  unfold candidates
  rw [List.map_flatMap]
  congr 1
  funext j
  rw [show thresholds cfg (D.scale a b) j = thresholds cfg D j from rfl, List.map_filterMap]
  refine List.filterMap_congr fun t _ => ?_
  rw [split_scale a b D h]
  by_cases hc : (splitData j t D).1.X.length ≥ msl ∧ (splitData j t D).2.X.length ≥ msl
  · rw [if_pos hc]
    exact if_pos hc
  · rw [if_neg hc]
    exact if_neg hc

theorem cand_paired (cfg : Config) (msl : ℕ) (D : Data d) (c : Cand d) (hc : c ∈ candidates cfg msl D) :
    c.left.Paired ∧ c.right.Paired := by
  simp only [candidates, List.mem_flatMap, List.mem_filterMap] at hc
  obtain ⟨j, -, t, -, ht⟩ := hc
  split_ifs at ht
  rw [← Option.some.inj ht]
  exact split_paired D j t

theorem std_scale (a b : ℝ) (l : List ℝ) : std (l.map fun v => a * v + b) = |a| * std l := by
  cases l with
  | nil => simp [std]
  | cons x l =>
    set L := x :: l with hL
    have hn : (L.length : ℝ) ≠ 0 := by rw [hL]; simp; positivity
    have hsum : (L.map fun v => a * v + b).sum = a * L.sum + L.length * b := by
      clear hn hL
      induction L with
      | nil => simp
      | cons y L ih => simp only [List.map_cons, List.sum_cons, ih, List.length_cons]; push_cast; ring
    have hmean : (L.map fun v => a * v + b).sum / L.length = a * (L.sum / L.length) + b := by rw [hsum]; field_simp
    simp only [std, List.length_map, hmean, List.map_map]
    have : ((L.map ((fun z => (z - (a * (L.sum / L.length) + b)) ^ 2) ∘ fun v => a * v + b))).sum =
        a ^ 2 * (L.map fun z => (z - L.sum / L.length) ^ 2).sum := by
      rw [← List.sum_map_mul_left]
      congr 1
      refine List.map_congr_left fun v _ => ?_
      simp only [Function.comp_apply]
      ring
    rw [this, mul_div_assoc, Real.sqrt_mul (sq_nonneg a), Real.sqrt_sq_eq_abs]

/-- Multiplication of a loss. -/
noncomputable def times (c : ℝ) (l : WithTop ℝ) : WithTop ℝ := l.map fun v => c * v

theorem times_lt (c : ℝ) (hc : 0 < c) (u v : WithTop ℝ) : times c u < times c v ↔ u < v := by
  cases u with
  | top => simp [times]
  | coe u =>
    cases v with
    | top =>
      refine iff_of_true ?_ (WithTop.coe_lt_top u)
      exact WithTop.coe_lt_top (c * u)
    | coe v =>
      simp only [times, WithTop.map_coe, WithTop.coe_lt_coe]
      exact mul_lt_mul_iff_right₀ hc

/-- The factor of the losses. -/
noncomputable def factor (cfg : Config) (a : ℝ) : ℝ :=
  match cfg.criterion with
  | .modelAware => a ^ 2
  | .modelAgnostic => |a|

theorem factor_pos (cfg : Config) (a : ℝ) (ha : a ≠ 0) : 0 < factor cfg a := by
  unfold factor
  split
  · positivity
  · positivity

theorem loss_scale (cfg : Config) (G : Data d → Prop) (fit : Fit d) (a b : ℝ) (hf : Follows G fit a b) (D : Data d) (c : Cand d)
    (gl : G c.left) (gr : G c.right) (hl : c.left.Paired) (hr : c.right.Paired) :
    lossSplit cfg fit (D.scale a b) (c.scale a b) = times (factor cfg a) (lossSplit cfg fit D c) := by
  unfold lossSplit factor
  cases cfg.criterion with
  | modelAware =>
    simp only [Cand.scale, hf _ gl hl, hf _ gr hr]
    generalize (fit c.left).1 = u
    generalize (fit c.right).1 = v
    cases u with
    | top => rfl
    | coe u =>
      cases v with
      | top => rfl
      | coe v =>
        show (((_ : ℝ)) : WithTop ℝ) = ((_ : ℝ) : WithTop ℝ)
        simp only [Data.scale]
        congr 1
        ring
  | modelAgnostic =>
    simp only [Cand.scale, Data.scale, std_scale]
    split_ifs
    · rfl
    · simp only [times, WithTop.map_coe]
      congr 1
      ring

theorem scan_scale (loss loss' : Cand d → WithTop ℝ) (g : Cand d → Cand d) (c : ℝ) (hc : 0 < c) (cs : List (Cand d))
    (h : ∀ x ∈ cs, loss' (g x) = times c (loss x)) (best : WithTop ℝ × Option (Cand d)) :
    scan loss' (cs.map g) (times c best.1, best.2.map g) = (times c (scan loss cs best).1, (scan loss cs best).2.map g) := by
  induction cs generalizing best with
  | nil => rfl
  | cons x cs ih =>
    simp only [List.map_cons, scan, h x (by simp), times_lt c hc]
    split_ifs with hlt
    · exact ih (fun y hy => h y (by simp [hy])) (loss x, some x)
    · exact ih (fun y hy => h y (by simp [hy])) best

theorem splitter_scale (cfg : Config) (msl : ℕ) (G : Data d → Prop) (hG : Closed cfg msl G) (fit : Fit d) (a b : ℝ) (ha : a ≠ 0) (hf : Follows G fit a b)
    (D : Data d) (g : G D) (h : D.Paired) :
    splitter cfg msl fit (D.scale a b) = (splitter cfg msl fit D).map (Cand.scale a b) := by
  unfold splitter
  have key := scan_scale (lossSplit cfg fit D) (lossSplit cfg fit (D.scale a b)) (Cand.scale a b) (factor cfg a) (factor_pos cfg a ha)
    (candidates cfg msl D) fun c hc =>
    loss_scale cfg G fit a b hf D c (hG D g c hc).1 (hG D g c hc).2 (cand_paired cfg msl D c hc).1 (cand_paired cfg msl D c hc).2
  rw [candidates_scale cfg msl a b D h]
  cases hcr : cfg.criterion with
  | modelAware =>
    have := key ((fit D).1, none)
    simp only [factor, hcr] at this
    simp only [hf D g h]
    exact congrArg Prod.snd this
  | modelAgnostic =>
    have := key (⊤, none)
    exact congrArg Prod.snd this

/-- A polynomial in the new units. -/
def scalePoly (a b : ℝ) (p : Option (PolyFn d)) : Option (PolyFn d) := p.map fun p x => a * p x + b

/-- A tree in the new units. -/
def Node.scale (a b : ℝ) : Node d → Node d
  | .leaf p n D => .leaf (scalePoly a b p) n (D.scale a b)
  | .branch p n j t l r => .branch (scalePoly a b p) n j t (l.scale a b) (r.scale a b)

theorem splitter_cand (cfg : Config) (msl : ℕ) (fit : Fit d) (D : Data d) (c : Cand d) (hc : splitter cfg msl fit D = some c) :
    c ∈ candidates cfg msl D := by
  have key : ∀ (loss : Cand d → WithTop ℝ) (cs : List (Cand d)) (best : WithTop ℝ × Option (Cand d)) (c : Cand d),
      (scan loss cs best).2 = some c → best.2 = some c ∨ c ∈ cs := by
    intro loss cs
    induction cs with
    | nil => intro best c h; exact .inl h
    | cons x cs ih =>
      intro best c h
      simp only [scan] at h
      split_ifs at h
      · rcases ih _ c h with h | h
        · exact .inr (by simp [← Option.some.inj h])
        · exact .inr (by simp [h])
      · rcases ih _ c h with h | h
        · exact .inl h
        · exact .inr (by simp [h])
  rcases key _ _ _ c hc with h | h
  · exact absurd h (by simp)
  · exact h

theorem grow_scale (cfg : Config) (msl : ℕ) (G : Data d → Prop) (hG : Closed cfg msl G) (fit : Fit d) (a b : ℝ) (ha : a ≠ 0) (hf : Follows G fit a b) (k : ℕ) :
    ∀ (D : Data d) (depth : ℕ), G D → D.Paired → cfg.maxDepth - depth ≤ k →
    grow cfg msl fit (D.scale a b) depth = (grow cfg msl fit D depth).scale a b := by
  induction k with
  | zero =>
    intro D depth g h hk
    have : ¬ depth < cfg.maxDepth := by omega
    rw [grow, grow, if_neg this, if_neg this, hf D g h]
    rfl
  | succ k ih =>
    intro D depth g h hk
    rw [grow, grow]
    by_cases hd : depth < cfg.maxDepth
    · rw [if_pos hd, if_pos hd, splitter_scale cfg msl G hG fit a b ha hf D g h, hf D g h]
      cases hc : splitter cfg msl fit D with
      | none => rfl
      | some c =>
        obtain ⟨h1, h2⟩ := cand_paired cfg msl D c (splitter_cand cfg msl fit D c hc)
        obtain ⟨g1, g2⟩ := hG D g c (splitter_cand cfg msl fit D c hc)
        simp only [Option.map_some, Cand.scale]
        rw [ih c.left (depth + 1) g1 h1 (by omega), ih c.right (depth + 1) g2 h2 (by omega)]
        rfl
    · rw [if_neg hd, if_neg hd, hf D g h]
      rfl

theorem fitsEmpty_scale (cfg : Config) (msl : ℕ) (G : Data d → Prop) (hG : Closed cfg msl G) (fit : Fit d) (a b : ℝ) (ha : a ≠ 0) (hf : Follows G fit a b) (k : ℕ) :
    ∀ (D : Data d) (depth : ℕ), G D → D.Paired → cfg.maxDepth - depth ≤ k →
    (fitsEmpty cfg msl fit (D.scale a b) depth ↔ fitsEmpty cfg msl fit D depth) := by
  induction k with
  | zero =>
    intro D depth g h hk
    have : ¬ depth < cfg.maxDepth := by omega
    rw [fitsEmpty, fitsEmpty, if_neg this, if_neg this]
    rfl
  | succ k ih =>
    intro D depth g h hk
    rw [fitsEmpty, fitsEmpty]
    by_cases hd : depth < cfg.maxDepth
    · rw [if_pos hd, if_pos hd, splitter_scale cfg msl G hG fit a b ha hf D g h, candidates_scale cfg msl a b D h]
      refine or_congr Iff.rfl (or_congr (and_congr Iff.rfl ?_) ?_)
      · constructor
        · rintro ⟨c, hc, h⟩
          obtain ⟨c', hc', rfl⟩ := List.mem_map.1 hc
          exact ⟨c', hc', h⟩
        · rintro ⟨c, hc, h⟩
          exact ⟨c.scale a b, List.mem_map_of_mem hc, h⟩
      · cases hc : splitter cfg msl fit D with
        | none => rfl
        | some c =>
          obtain ⟨h1, h2⟩ := cand_paired cfg msl D c (splitter_cand cfg msl fit D c hc)
          obtain ⟨g1, g2⟩ := hG D g c (splitter_cand cfg msl fit D c hc)
          exact or_congr (ih c.left (depth + 1) g1 h1 (by omega)) (ih c.right (depth + 1) g2 h2 (by omega))
    · rw [if_neg hd, if_neg hd]
      rfl

/-- The object in the new units. -/
def State.scale (a b : ℝ) (s : State d) : State d := { s with tree := s.tree.map (Node.scale a b) }

theorem fit_scale (cfg : Config) (G : Data d → Prop) (fit : Fit d) (a b : ℝ) (ha : a ≠ 0) (hf : Follows G fit a b) (D : Data d) (g : G D) (h : D.Paired) (s : State d)
    (hG : Closed cfg (resolveMsl cfg.cardinality s.msl) G) :
    fitTree cfg fit (D.scale a b) s = (fitTree cfg fit D s).map (State.scale a b) := by
  simp only [fitTree]
  rw [candidates_scale cfg _ a b D h]
  simp only [ne_eq, List.map_eq_nil_iff,
    grow_scale cfg _ G hG fit a b ha hf _ D 0 g h le_rfl]
  by_cases h1 : cfg.logging = true ∧ cfg.criterion = .modelAgnostic ∧ ¬ candidates cfg (resolveMsl cfg.cardinality s.msl) D = []
  · rw [if_pos h1, if_pos h1]; rfl
  · rw [if_neg h1, if_neg h1]
    by_cases h2 : fitsEmpty cfg (resolveMsl cfg.cardinality s.msl) fit D 0
    · rw [if_pos h2, if_pos ((fitsEmpty_scale cfg _ G hG fit a b ha hf _ D 0 g h le_rfl).2 h2)]; rfl
    · rw [if_neg h2, if_neg fun h3 => h2 ((fitsEmpty_scale cfg _ G hG fit a b ha hf _ D 0 g h le_rfl).1 h3)]; rfl

theorem predictNode_scale (a b k : ℝ) (x : Pt d) (t : Node d) :
    predictNode k x (t.scale a b) = (predictNode k x t).map (Option.map fun v => a * v + b) := by
  induction t with
  | leaf p n D =>
    cases p with
    | none => rfl
    | some p => rfl
  | branch p n j t l r ihl ihr =>
    cases p with
    | none => rfl
    | some p =>
      have hb : ∀ e : Except Err (Option ℝ), (e.map (Option.map fun v => a * v + b)).map (blend k n (a * p x + b)) =
          (e.map (blend k n (p x))).map (Option.map fun v => a * v + b) := by
        intro e
        cases e with
        | error e => rfl
        | ok o =>
          cases o with
          | none => rfl
          | some v =>
            simp only [Except.map, Option.map_some, blend]
            split_ifs with h0
            · rfl
            · simp only [Option.map_some, Except.ok.injEq, Option.some.injEq]
              field_simp
              ring
      simp only [Node.scale, scalePoly, Option.map_some, predictNode, evalPoly, ihl, ihr]
      split_ifs
      · exact hb _
      · exact hb _

theorem mse_scale (a b : ℝ) (f : PolyFn d) (D : Data d) : mse (fun x => a * f x + b) (D.scale a b) = a ^ 2 * mse f D := by
  simp only [mse, Data.scale, List.zip_map_right, List.map_map]
  rw [← mul_div_assoc, ← List.sum_map_mul_left]
  congr 3
  funext r
  simp only [Function.comp_apply, Prod.map_snd, Prod.map_fst, id]
  ring

theorem samples_scale (a b : ℝ) (t : Node d) : (t.scale a b).samples = t.samples := by cases t <;> rfl

theorem pruner_scale (a b : ℝ) (ha : a ≠ 0) (t : Node d) : ∀ V : Data d, V.Paired →
    pruner (t.scale a b) (V.scale a b) = (pruner t V).map fun r => (r.1.scale a b, a ^ 2 * r.2) := by
  induction t with
  | leaf p n D =>
    intro V hV
    simp only [Node.scale, pruner, show (V.scale a b).X = V.X from rfl]
    split_ifs with h0
    · simp [Except.map, Node.scale]
    · cases p with
      | none => rfl
      | some p =>
        simp only [scalePoly, Option.map_some, mse_scale, Except.map, Node.scale]
  | branch p n j t l r ihl ihr =>
    intro V hV
    simp only [Node.scale, pruner, show (V.scale a b).X = V.X from rfl]
    split_ifs with h0
    · simp [Except.map, Node.scale]
    · cases p with
      | none => rfl
      | some p =>
        simp only [scalePoly, Option.map_some, split_scale a b V hV, mse_scale]
        rw [ihl _ (split_paired V j t).1, ihr _ (split_paired V j t).2]
        cases pruner l (splitData j t V).1 with
        | error e => rfl
        | ok L =>
          cases pruner r (splitData j t V).2 with
          | error e => rfl
          | ok R =>
            simp only [Except.map, samples_scale]
            have hiff : (L.1.samples + R.1.samples ≠ 0 ∧ a ^ 2 * mse p V <
                  (a ^ 2 * L.2 * L.1.samples + a ^ 2 * R.2 * R.1.samples) / (L.1.samples + R.1.samples)) ↔
                (L.1.samples + R.1.samples ≠ 0 ∧ mse p V < (L.2 * L.1.samples + R.2 * R.1.samples) / (L.1.samples + R.1.samples)) := by
              refine and_congr Iff.rfl ?_
              rw [show (a ^ 2 * L.2 * L.1.samples + a ^ 2 * R.2 * R.1.samples) / (L.1.samples + R.1.samples : ℝ) =
                a ^ 2 * ((L.2 * L.1.samples + R.2 * R.1.samples) / (L.1.samples + R.1.samples)) by ring]
              exact mul_lt_mul_iff_right₀ (by positivity)
            simp only [gt_iff_lt, hiff]
            split_ifs
            · rfl
            · rfl

theorem prune_scale (a b : ℝ) (ha : a ≠ 0) (s : State d) (V : Data d) (hV : V.Paired) :
    prune (s.scale a b) (V.scale a b) = (prune s V).map (State.scale a b) := by
  obtain ⟨m, k, t⟩ := s
  cases t with
  | none => rfl
  | some t =>
    cases t with
    | leaf p n D => rfl
    | branch p n j t l r =>
      simp only [prune, State.scale, Option.map_some, Node.scale, split_scale a b V hV]
      rw [pruner_scale a b ha l _ (split_paired V j t).1, pruner_scale a b ha r _ (split_paired V j t).2]
      cases pruner l (splitData j t V).1 with
      | error e => rfl
      | ok L =>
        cases pruner r (splitData j t V).2 with
        | error e => rfl
        | ok R => rfl

/-- `fit`, followed by any number of calls of `prune`. -/
noncomputable def fitAndPrune (cfg : Config) (fit : Fit d) (D : Data d) (Vs : List (Data d)) (s : State d) : Except Err (State d) :=
  match fitTree cfg fit D s with
  | .error e => .error e
  | .ok s => Vs.foldlM prune s

theorem prunes_scale (a b : ℝ) (ha : a ≠ 0) (Vs : List (Data d)) (hV : ∀ V ∈ Vs, V.Paired) (s : State d) :
    (Vs.map (Data.scale a b)).foldlM prune (s.scale a b) = (Vs.foldlM prune s).map (State.scale a b) := by
  induction Vs generalizing s with
  | nil => rfl
  | cons V Vs ih =>
    rw [List.map_cons, List.foldlM_cons, List.foldlM_cons, prune_scale a b ha s V (hV V (by simp))]
    cases prune s V with
    | error e => rfl
    | ok s => exact ih (fun W hW => hV W (by simp [hW])) s

theorem getSplits_scale (a b : ℝ) (t : Node d) (l : List (ℝ × Fin d)) : getSplits (t.scale a b) l = getSplits t l := by
  induction t generalizing l with
  | leaf => rfl
  | branch p n j t L R ihl ihr => simp only [Node.scale, getSplits, ihl, ihr]

/-- **C186, fitting and pruning.** Measuring the outputs in other units, `y ↦ a y + b` with `a ≠ 0` (a change of sign included), both
of the training data and of all data used for pruning, changes a tree only by the units: fitting and any number of prunings fail in
the same way, the splits are the same, and every prediction is transformed like the outputs. The way to fit polynomials follows the
units (see `c186_least_squares`, `c186_poly_tree`) for all data that nodes may hold. -/
theorem c186_tree (cfg : Config) (G : Data d → Prop) (fit : Fit d) (a b : ℝ) (ha : a ≠ 0) (hf : Follows G fit a b) (D : Data d) (g : G D) (hD : D.Paired)
    (Vs : List (Data d)) (hV : ∀ V ∈ Vs, V.Paired) (s : State d) (hG : Closed cfg (resolveMsl cfg.cardinality s.msl) G) :
    match fitAndPrune cfg fit D Vs s, fitAndPrune cfg fit (D.scale a b) (Vs.map (Data.scale a b)) s with
    | .error e, .error e' => e = e'
    | .ok t, .ok t' =>
      (∀ n, t.tree = some n → ∃ n', t'.tree = some n' ∧ getSplits n' [] = getSplits n []) ∧
      ∀ x, predict t' x = (predict t x).map (Option.map fun v => a * v + b)
    | _, _ => False := by
  have h : fitAndPrune cfg fit (D.scale a b) (Vs.map (Data.scale a b)) s = (fitAndPrune cfg fit D Vs s).map (State.scale a b) := by
    unfold fitAndPrune
    rw [fit_scale cfg G fit a b ha hf D g hD s hG]
    cases fitTree cfg fit D s with
    | error e => rfl
    | ok s => exact prunes_scale a b ha Vs hV s
  rw [h]
  cases fitAndPrune cfg fit D Vs s with
  | error e => exact rfl
  | ok t =>
    refine ⟨fun n hn => ⟨n.scale a b, by simp [State.scale, hn], getSplits_scale a b n []⟩, fun x => ?_⟩
    obtain ⟨m, k, t⟩ := t
    cases t with
    | none => rfl
    | some t => exact predictNode_scale a b k x t

/-- A weighted sum of squares; the weights belong to the points. -/
def weighted (w : ℕ → ℝ) (f : PolyFn d) (D : Data d) : ℝ := ((D.X.zip D.y).zipIdx.map fun r => w r.2 * (r.1.2 - f r.1.1) ^ 2).sum

/-- Weighted least squares in a space of functions; space and weights depend on the points only. Either the fit fails, again depending on the points
only, or the polynomial is the one of the space with the smallest weighted sum of squares, and its mean squared error is returned as well. -/
def LeastSquares (G : Data d → Prop) (space : List (Pt d) → Submodule ℝ (PolyFn d)) (wts : List (Pt d) → ℕ → ℝ) (fails : List (Pt d) → Prop) (fit : Fit d) : Prop :=
  ∀ D : Data d, G D → D.Paired → (fails D.X → fit D = (⊤, none)) ∧ (¬ fails D.X → ∃ p ∈ space D.X,
    fit D = (((mse p D : ℝ) : WithTop ℝ), some p) ∧ ∀ q ∈ space D.X, q ≠ p → weighted (wts D.X) p D < weighted (wts D.X) q D)

theorem weighted_scale (w : ℕ → ℝ) (a b : ℝ) (f : PolyFn d) (D : Data d) : weighted w (fun x => a * f x + b) (D.scale a b) = a ^ 2 * weighted w f D := by
  simp only [weighted, Data.scale, List.zip_map_right, List.zipIdx_map, List.map_map]
  rw [← List.sum_map_mul_left]
  congr 2
  funext r
  simp only [Function.comp_apply, Prod.map_snd, Prod.map_fst, id]
  ring

/-- **C186, least squares.** Fitting by weighted least squares follows the units of the outputs if the constants belong to the space, as they do
for every index set (C81), and the data determine the polynomial. -/
theorem c186_least_squares (G : Data d → Prop) (space : List (Pt d) → Submodule ℝ (PolyFn d)) (wts : List (Pt d) → ℕ → ℝ) (fails : List (Pt d) → Prop) (fit : Fit d)
    (hfit : LeastSquares G space wts fails fit) (hone : ∀ X, (fun _ => 1) ∈ space X) (a b : ℝ) (ha : a ≠ 0) (hG : ∀ D, G D → G (D.scale a b)) :
    Follows G fit a b := by
  intro D g hD
  have hD' : (D.scale a b).Paired := by simpa [Data.Paired, Data.scale] using hD
  by_cases hX : fails D.X
  · rw [(hfit D g hD).1 hX, (hfit _ (hG D g) hD').1 hX]
    rfl
  · obtain ⟨p, hp, h1, h2⟩ := (hfit D g hD).2 hX
    obtain ⟨p', hp', h1', h2'⟩ := (hfit _ (hG D g) hD').2 hX
    have hp' : p' ∈ space D.X := hp'
    have hmem : ∀ c e : ℝ, ∀ q ∈ space D.X, (fun x => c * q x + e) ∈ space D.X := by
      intro c e q hq
      have := (space D.X).add_mem ((space D.X).smul_mem c hq) ((space D.X).smul_mem e (hone D.X))
      convert this using 1
      funext x
      simp
    have hq := hmem a b p hp
    have : p' = fun x => a * p x + b := by
      by_contra hne
      have hlt : weighted (wts D.X) p' (D.scale a b) < weighted (wts D.X) (fun x => a * p x + b) (D.scale a b) := h2' _ hq (Ne.symm hne)
      rw [weighted_scale] at hlt
      have hback : p' = fun x => a * (fun x => a⁻¹ * p' x + -(b / a)) x + b := by
        funext x
        field_simp
        ring
      rw [hback, weighted_scale] at hlt
      have hlt := lt_of_mul_lt_mul_left hlt (sq_nonneg a)
      by_cases he : (fun x => a⁻¹ * p' x + -(b / a)) = p
      · rw [he] at hlt
        exact lt_irrefl _ hlt
      · exact lt_asymm hlt (h2 _ (hmem _ _ p' hp') he)
    rw [h1, h1', this, mse_scale]
    rfl

open Classical in
/-- Fitting constants by least squares. -/
noncomputable def meanFit : Fit 1 := fun D =>
  if D.X = [] then (⊤, none)
  else (((mse (fun _ => D.y.sum / D.y.length) D : ℝ) : WithTop ℝ), some fun _ => D.y.sum / D.y.length)

/-- Fitting constants is an instance. -/
example : LeastSquares (fun _ => True) (fun _ => Submodule.span ℝ {fun _ => (1 : ℝ)}) (fun _ _ => 1) (fun X => X = []) meanFit ∧
    ∀ X : List (Pt 1), (fun _ => (1 : ℝ)) ∈ (fun _ : List (Pt 1) => Submodule.span ℝ {fun _ : Pt 1 => (1 : ℝ)}) X := by
  have hmem : ∀ c : ℝ, (fun _ : Pt 1 => c) ∈ Submodule.span ℝ {fun _ : Pt 1 => (1 : ℝ)} := fun c =>
    Submodule.mem_span_singleton.2 ⟨c, by funext x; simp⟩
  refine ⟨fun D _ hD => ⟨fun h => by simp [meanFit, h], fun h => ⟨_, hmem _, by simp only [meanFit, if_neg h]; rfl, fun q hq hne => ?_⟩⟩,
    fun _ => hmem 1⟩
  obtain ⟨c, hc⟩ := Submodule.mem_span_singleton.1 hq
  obtain rfl : q = fun _ => c := by rw [← hc]; funext x; simp
  have hD : D.X.length = D.y.length := hD
  have hn : (D.y.length : ℝ) ≠ 0 := by
    rw [← hD]
    simpa using h
  have hn' : (0 : ℝ) < D.y.length := lt_of_le_of_ne (by positivity) (Ne.symm hn)
  have hz : ∀ c : ℝ, ((D.X.zip D.y).map fun r => (r.2 - c) ^ 2).sum = (D.y.map fun v => v ^ 2).sum - 2 * c * D.y.sum + D.y.length * c ^ 2 := by
    intro c
    have e : ((D.X.zip D.y).map fun r => (r.2 - c) ^ 2) = D.y.map fun v => (v - c) ^ 2 := by
      conv_rhs => rw [← List.map_snd_zip (l₁ := D.X) (l₂ := D.y) hD.ge, List.map_map]
      rfl
    rw [e]
    induction D.y with
    | nil => simp
    | cons v l ih => simp only [List.map_cons, List.sum_cons, ih, List.length_cons]; push_cast; ring
  have hw : ∀ c : ℝ, weighted (fun _ => 1) (fun _ => c) D = ((D.X.zip D.y).map fun r => (r.2 - c) ^ 2).sum := by
    intro c
    unfold weighted
    conv_rhs => rw [← List.zipIdx_map_fst 0 (D.X.zip D.y), List.map_map]
    congr 2
    funext r
    simp
  rw [hw, hw, hz, hz]
  have hne' : c - D.y.sum / D.y.length ≠ 0 := fun h0 => hne (by funext x; linarith)
  have : 0 < D.y.length * (c - D.y.sum / D.y.length) ^ 2 := by positivity
  have e : D.y.length * (c - D.y.sum / D.y.length) ^ 2 = D.y.length * c ^ 2 - 2 * c * D.y.sum + D.y.sum ^ 2 / D.y.length := by
    field_simp
    ring
  have e2 : -(2 * (D.y.sum / D.y.length) * D.y.sum) + D.y.length * (D.y.sum / D.y.length) ^ 2 = -(D.y.sum ^ 2 / D.y.length) := by
    field_simp
    ring
  linarith

end EQ.Tree
