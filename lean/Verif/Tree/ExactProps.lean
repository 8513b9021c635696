import Verif.Tree.OutputProps

/-!
# Trees and data that one polynomial explains (C233)
-/

namespace EQ.Tree
open EQ.Basis EQ.Param EQ.Sampling EQ.Poly EQ.Sub MvPolynomial

variable {d : ℕ}

/-- The outputs are the values of `f`. -/
def Data.Of (f : PolyFn d) (D : Data d) : Prop := D.y = D.X.map f

theorem of_paired {f : PolyFn d} {D : Data d} (h : D.Of f) : D.Paired := by
  unfold Data.Paired
  rw [show D.y = _ from h, List.length_map]

theorem weighted_of (w : ℕ → ℝ) {f : PolyFn d} {D : Data d} (h : D.Of f) : weighted w f D = 0 := by
  have : D.X.length = D.y.length := of_paired h
  obtain ⟨X, y⟩ := D
  obtain rfl : y = X.map f := h
  rw [weighted_sum _ _ _ _ this]
  exact Finset.sum_eq_zero fun i _ => by simp

theorem mse_of {f : PolyFn d} {D : Data d} (h : D.Of f) : mse f D = 0 := by
  obtain ⟨X, y⟩ := D
  obtain rfl : y = X.map f := h
  have : ((X.zip (X.map f)).map fun r => (r.2 - f r.1) ^ 2).sum = 0 := by
    induction X with
    | nil => rfl
    | cons x X ih =>
      rw [List.map_cons, List.zip_cons_cons, List.map_cons, List.sum_cons, ih]
      simp
  unfold mse
  rw [this, zero_div]

theorem mse_nonneg' (f : PolyFn d) (D : Data d) : 0 ≤ mse f D := by
  unfold mse
  refine div_nonneg (List.sum_nonneg fun v hv => ?_) (by positivity)
  obtain ⟨r, -, rfl⟩ := List.mem_map.1 hv
  positivity

theorem split_of {f : PolyFn d} {D : Data d} (h : D.Of f) (j : Fin d) (t : ℝ) : (splitData j t D).1.Of f ∧ (splitData j t D).2.Of f := by
  obtain ⟨X, y⟩ := D
  obtain rfl : y = X.map f := h
  exact ⟨gather_mapX f X _ fun i hi => by simpa using (List.mem_filter.1 hi).1, gather_mapX f X _ fun i hi => by simpa using (List.mem_filter.1 hi).1⟩

/-- Fitting samples of a polynomial of the degree, at points that determine it, returns that polynomial and the error zero. -/
theorem fitPoly_exact {lstsq : List (List ℝ) → List ℝ → ℕ → List ℝ} (hl : LstsqOK lstsq) (hd : 0 < d) (p : ℕ) (q : MvPolynomial (Fin d) ℝ) (hq : q.totalDegree ≤ p)
    (D : Data d) (hD : DetPts p D.X) (hy : D.Of fun x => eval x q) : fitPoly lstsq (fitElements d p) D = (((0 : ℝ) : WithTop ℝ), some fun x => eval x q) := by
  have hp := of_paired hy
  have h0 : mse (fun x => eval x q) D = 0 := mse_of hy
  have hw0 := fun w => weighted_of w hy
  obtain ⟨X, y⟩ := D
  have hX : X ≠ [] := by
    rintro rfl
    exact one_ne_zero (hD 1 (by simp) (by simp))
  obtain ⟨w, hw⟩ := node_opt (d := d) hl hd p X
  obtain ⟨hpos, -, hfit⟩ := hw hX
  obtain ⟨c, h1, h2, h3⟩ := hfit y hp
  have hval : valueAt ⟨orderBasis (nodeParams X) p, c⟩ = fun x : Pt d => eval x (nodePoly X p c) := funext fun x => valueAt_comb _ hd p c h2 x
  have hdeg : (nodePoly X p c).totalDegree ≤ p := comb_deg (nodeParams X) (nodeParam_pos X hX) hd p c
  have hr : q = nodePoly X p c := by
    by_contra hne
    have := strict_opt w X hpos y hp p hD _ hdeg h3 q hq hne
    rw [hw0, weighted_sum _ _ _ _ hp] at this
    refine absurd this (not_lt.2 (Finset.sum_nonneg fun i _ => mul_nonneg (hpos i i.2).le (sq_nonneg _)))
  unfold fitPoly
  simp only [h1, hval, ← hr, h0]

/-- A node all of whose polynomials are `f`. -/
def Node.All (f : PolyFn d) : Node d → Prop
  | .leaf p _ _ => p = some f
  | .branch p _ _ _ l r => p = some f ∧ l.All f ∧ r.All f

/-- Every node holds samples. -/
def Node.Held : Node d → Prop
  | .leaf _ n _ => 0 < n
  | .branch _ n _ _ l r => 0 < n ∧ l.Held ∧ r.Held

theorem cand_of (cfg : Config) (msl : ℕ) {D : Data d} {c : Cand d} (hc : c ∈ candidates cfg msl D) :
    (c.left.X.Sublist D.X ∧ msl ≤ c.left.X.length) ∧ (c.right.X.Sublist D.X ∧ msl ≤ c.right.X.length) ∧
      ∀ f : PolyFn d, D.Of f → c.left.Of f ∧ c.right.Of f := by
  unfold candidates at hc
  simp only [List.mem_flatMap, List.mem_filterMap] at hc
  obtain ⟨j, _, v, _, hc⟩ := hc
  split_ifs at hc with hlen
  obtain rfl := Option.some.inj hc
  exact ⟨⟨(split_sublist j v D).1, hlen.1⟩, ⟨(split_sublist j v D).2, hlen.2⟩, fun f hf => split_of hf j v⟩

theorem grow_all (cfg : Config) (msl : ℕ) (fit : Fit d) (f : PolyFn d) (X : List (Pt d))
    (hf : ∀ E : Data d, E.Of f → E.X.Sublist X → E.X = X ∨ msl ≤ E.X.length → 0 < E.X.length ∧ (fit E).2 = some f) :
    ∀ (k : ℕ) (D : Data d) (depth : ℕ), cfg.maxDepth - depth = k → D.Of f → D.X.Sublist X → D.X = X ∨ msl ≤ D.X.length →
      (grow cfg msl fit D depth).All f ∧ (grow cfg msl fit D depth).Held := by
  intro k
  induction k with
  | zero =>
    intro D depth hk hD hs hm
    unfold grow
    rw [if_neg (by omega)]
    exact ⟨(hf D hD hs hm).2, (hf D hD hs hm).1⟩
  | succ k ih =>
    intro D depth hk hD hs hm
    unfold grow
    rw [if_pos (by omega)]
    cases h : splitter cfg msl fit D with
    | none => exact ⟨(hf D hD hs hm).2, (hf D hD hs hm).1⟩
    | some c =>
      obtain ⟨⟨l1, l2⟩, ⟨r1, r2⟩, ho⟩ := cand_of cfg msl (splitter_mem h)
      have hl := ih c.left (depth + 1) (by omega) (ho f hD).1 (l1.trans hs) (Or.inr l2)
      have hr := ih c.right (depth + 1) (by omega) (ho f hD).2 (r1.trans hs) (Or.inr r2)
      exact ⟨⟨(hf D hD hs hm).2, hl.1, hr.1⟩, (hf D hD hs hm).1, hl.2, hr.2⟩

theorem predictNode_all (f : PolyFn d) (k : ℝ) (x : Pt d) (T : Node d) (h : T.All f) :
    (predictNode k x T = .ok (some (f x)) ∨ predictNode k x T = .ok none) ∧ (0 < k ∨ (0 ≤ k ∧ T.Held) → predictNode k x T = .ok (some (f x))) := by
  induction T with
  | leaf p n D =>
    obtain rfl : p = some f := h
    exact ⟨Or.inl rfl, fun _ => rfl⟩
  | branch p n j t l r ihl ihr =>
    obtain ⟨rfl, hl, hr⟩ := h
    have key : ∀ o : Except Err (Option ℝ), (o = .ok (some (f x)) ∨ o = .ok none) → (o.map (blend k n (f x)) = .ok (some (f x)) ∨ o.map (blend k n (f x)) = .ok none) ∧
        (k + n ≠ 0 → o = .ok (some (f x)) → o.map (blend k n (f x)) = .ok (some (f x))) := by
      intro o ho
      have e : k + n ≠ 0 → blend k n (f x) (some (f x)) = some (f x) := by
        intro h0
        unfold blend
        dsimp only
        rw [if_neg h0]
        congr 1
        rw [div_eq_iff h0]
        ring
      rcases ho with rfl | rfl
      · refine ⟨?_, fun h0 _ => by show Except.ok (blend k n (f x) (some (f x))) = _; rw [e h0]⟩
        by_cases h0 : k + n = 0
        · right
          show Except.ok (blend k n (f x) (some (f x))) = _
          unfold blend
          dsimp only
          rw [if_pos h0]
        · left
          show Except.ok (blend k n (f x) (some (f x))) = _
          rw [e h0]
      · exact ⟨Or.inr rfl, fun _ h => by cases h⟩
    have hn : 0 < k ∨ (0 ≤ k ∧ (Node.branch (some f) n j t l r).Held) → k + n ≠ 0 := by
      rintro (h | ⟨h, h', -⟩)
      · positivity
      · have : (0 : ℝ) < n := by exact_mod_cast h'
        positivity
    simp only [predictNode, evalPoly]
    split_ifs with hx
    · exact ⟨(key _ (ihl hl).1).1, fun h => (key _ (ihl hl).1).2 (hn h) ((ihl hl).2 (h.imp_right fun h => ⟨h.1, h.2.2.1⟩))⟩
    · exact ⟨(key _ (ihr hr).1).1, fun h => (key _ (ihr hr).1).2 (hn h) ((ihr hr).2 (h.imp_right fun h => ⟨h.1, h.2.2.2⟩))⟩

theorem pruner_all (f : PolyFn d) (T : Node d) : ∀ (V : Data d), T.All f → ∃ T' e, pruner T V = .ok (T', e) ∧ T'.All f := by
  induction T with
  | leaf p n D =>
    rintro V h
    obtain rfl : p = some f := h
    unfold pruner
    split_ifs
    · exact ⟨_, _, rfl, rfl⟩
    · exact ⟨_, _, rfl, rfl⟩
  | branch p n j t l r ihl ihr =>
    rintro V ⟨rfl, hl, hr⟩
    obtain ⟨l', el, h1, h2⟩ := ihl (splitData j t V).1 hl
    obtain ⟨r', er, h3, h4⟩ := ihr (splitData j t V).2 hr
    unfold pruner
    simp only [h1, h3]
    split_ifs
    · exact ⟨_, _, rfl, rfl, hl, hr⟩
    · exact ⟨_, _, rfl, rfl⟩
    · exact ⟨_, _, rfl, rfl, h2, h4⟩

theorem prunes_all (f : PolyFn d) (Vs : List (Data d)) : ∀ (s t : State d) (T : Node d), s.tree = some T → T.All f → Vs.foldlM prune s = .ok t →
    t.k = s.k ∧ ∃ T', t.tree = some T' ∧ T'.All f ∧ (Vs = [] → T' = T) := by
  induction Vs with
  | nil =>
    intro s t T hs hT h
    obtain rfl : s = t := by simpa [pure, Except.pure] using h
    exact ⟨rfl, T, hs, hT, fun _ => rfl⟩
  | cons V Vs ih =>
    intro s t T hs hT h
    rw [List.foldlM_cons] at h
    cases T with
    | leaf p n D =>
      unfold prune at h
      simp only [hs] at h
      cases h
    | branch p n j u l r =>
      obtain ⟨rfl, hl, hr⟩ := hT
      obtain ⟨l', el, h1, h2⟩ := pruner_all f l (splitData j u V).1 hl
      obtain ⟨r', er, h3, h4⟩ := pruner_all f r (splitData j u V).2 hr
      have e : prune s V = .ok { s with tree := some (.branch (some f) n j u l' r') } := by
        unfold prune
        simp only [hs, h1, h3]
      rw [e] at h
      obtain ⟨a, T', b, c, -⟩ := ih { s with tree := some (.branch (some f) n j u l' r') } t _ rfl ⟨rfl, h2, h4⟩ h
      exact ⟨a, T', b, c, fun h => by cases h⟩

theorem det_pos {p : ℕ} {X : List (Pt d)} (h : DetPts p X) : 0 < X.length := by
  refine List.length_pos_iff.2 ?_
  rintro rfl
  exact one_ne_zero (h 1 (by simp) (by simp))

/-- **C233.** A tree of polynomials of total degree `p` is trained on values of one polynomial `q` of degree at most `p`; every set of samples that a node may hold —
the whole training set, or at least `min_samples_leaf` of the samples — determines the polynomials of the degree; the smoothing constant is not negative. Then, however
the tree is split and whatever validation sets it is pruned with afterwards, every prediction is the value of `q`, also far away from the samples. The only exception
is `nan`, which needs the smoothing constant `0` and pruning. -/
theorem c233_tree (cfg : Config) {lstsq : List (List ℝ) → List ℝ → ℕ → List ℝ} (hl : LstsqOK lstsq) (hd : 0 < d) (p : ℕ) (q : MvPolynomial (Fin d) ℝ)
    (hq : q.totalDegree ≤ p) (D : Data d) (hD : D.y = D.X.map fun x => eval x q) (Vs : List (Data d)) (S t : State d) (hk : 0 ≤ S.k)
    (h : ∀ L : List (Pt d), L.Sublist D.X → L = D.X ∨ resolveMsl cfg.cardinality S.msl ≤ L.length → DetPts p L)
    (ht : fitAndPrune cfg (fitPoly lstsq (fitElements d p)) D Vs S = .ok t) (x : Pt d) :
    predict t x = .ok (some (eval x q)) ∨ S.k = 0 ∧ Vs ≠ [] ∧ predict t x = .ok none := by
  have hmsl : 0 < resolveMsl cfg.cardinality S.msl := by
    by_contra h0
    exact absurd (det_pos (h [] (List.nil_sublist _) (Or.inr (by simp only [List.length_nil]; omega)))) (lt_irrefl _)
  obtain ⟨hA, hH⟩ := grow_all cfg (resolveMsl cfg.cardinality S.msl) (fitPoly lstsq (fitElements d p)) (fun x => eval x q) D.X
    (fun E hE h1 h2 => ⟨det_pos (h _ h1 h2), by rw [fitPoly_exact hl hd p q hq E (h _ h1 h2) hE]⟩) _ D 0 rfl hD (List.Sublist.refl _) (Or.inl rfl)
  unfold fitAndPrune fitTree at ht
  dsimp only at ht
  split_ifs at ht
  dsimp only at ht
  obtain ⟨ek, T, eT, hT, hsame⟩ := prunes_all _ Vs _ t _ rfl hA ht
  have ek : t.k = S.k * resolveMsl cfg.cardinality S.msl := ek
  unfold predict
  rw [eT]
  obtain ⟨h1, h2⟩ := predictNode_all _ t.k x T hT
  have hm' : (0 : ℝ) < resolveMsl cfg.cardinality S.msl := by exact_mod_cast hmsl
  rcases hk.lt_or_eq with hk | hk
  · exact Or.inl (h2 (Or.inl (by rw [ek]; positivity)))
  · by_cases hV : Vs = []
    · exact Or.inl (h2 (Or.inr ⟨by rw [ek, ← hk, zero_mul], by rw [hsame hV]; exact hH⟩))
    · exact h1.imp id fun h => ⟨hk.symm, hV, h⟩

theorem scan_keep (loss : Cand d → WithTop ℝ) (cs : List (Cand d)) (a : WithTop ℝ) (h : ∀ c ∈ cs, a ≤ loss c) : scan loss cs (a, none) = (a, none) := by
  induction cs with
  | nil => rfl
  | cons c cs ih =>
    rw [scan, if_neg (not_lt.2 (h c (by simp))), ih fun c hc => h c (by simp [hc])]

/-- **C233, the model-aware criterion.** If the training samples are values of one polynomial of degree at most `p` and determine it, the model-aware tree is not split
at all, whatever its depth and search: `fit` succeeds, there are no splits, and every prediction is the value of the polynomial. -/
theorem c233_aware (cfg : Config) (hc : cfg.criterion = .modelAware) {lstsq : List (List ℝ) → List ℝ → ℕ → List ℝ} (hl : LstsqOK lstsq) (hd : 0 < d) (p : ℕ)
    (q : MvPolynomial (Fin d) ℝ) (hq : q.totalDegree ≤ p) (D : Data d) (hD : D.y = D.X.map fun x => eval x q) (hdet : DetPts p D.X) (S : State d)
    (hm : 0 < resolveMsl cfg.cardinality S.msl) :
    ∃ t T, fitTree cfg (fitPoly lstsq (fitElements d p)) D S = .ok t ∧ t.tree = some T ∧ getSplits T [] = [] ∧ ∀ x, predict t x = .ok (some (eval x q)) := by
  have hfit := fitPoly_exact hl hd p q hq D hdet hD
  have hs : splitter cfg (resolveMsl cfg.cardinality S.msl) (fitPoly lstsq (fitElements d p)) D = none := by
    unfold splitter
    rw [hc]
    dsimp only
    rw [scan_keep]
    intro c _
    rw [hfit]
    dsimp only
    have hn : ∀ E : Data d, ∀ a, (fitPoly lstsq (fitElements d p) E).1 = some a → 0 ≤ a := by
      intro E a h
      unfold fitPoly at h
      split at h
      · cases h
      · obtain rfl := WithTop.coe_injective h
        exact mse_nonneg' _ _
    unfold lossSplit
    rw [hc]
    dsimp only
    split
    · rename_i a b ha hb
      have := hn _ _ ha
      have := hn _ _ hb
      exact WithTop.coe_le_coe.2 (by positivity)
    · exact le_top
  have hg : grow cfg (resolveMsl cfg.cardinality S.msl) (fitPoly lstsq (fitElements d p)) D 0 = .leaf (some fun x => eval x q) D.X.length D := by
    unfold grow
    rw [hs, hfit]
    split_ifs <;> rfl
  have he : ¬ fitsEmpty cfg (resolveMsl cfg.cardinality S.msl) (fitPoly lstsq (fitElements d p)) D 0 := by
    unfold fitsEmpty
    rw [hs]
    rintro (h | h)
    · exact absurd h (det_pos hdet).ne'
    · split_ifs at h
      rcases h with ⟨-, c, hc, h⟩ | h
      · obtain ⟨⟨-, h1⟩, ⟨-, h2⟩, -⟩ := cand_of _ _ hc
        omega
      · exact h
  refine ⟨⟨some (resolveMsl cfg.cardinality S.msl), S.k * resolveMsl cfg.cardinality S.msl, some (.leaf (some fun x => eval x q) D.X.length D)⟩,
    .leaf (some fun x => eval x q) D.X.length D, ?_, rfl, rfl, fun x => rfl⟩
  unfold fitTree
  dsimp only
  rw [if_neg (by rw [hc]; simp), if_neg he, hg]

/-- A line through eight samples meets the hypotheses of both. -/
example (S : State 1) (hS : S.msl = some 3) (cfg : Config) (hc : cfg.cardinality = 2) :
    ∃ D : Data 1, (D.y = D.X.map fun x => eval x (2 * X 0 + 1 : MvPolynomial (Fin 1) ℝ)) ∧ DetPts 1 D.X ∧ 0 < resolveMsl cfg.cardinality S.msl ∧
      ∀ L : List (Pt 1), L.Sublist D.X → L = D.X ∨ resolveMsl cfg.cardinality S.msl ≤ L.length → DetPts 1 L := by
  have h := lines_det 6 (((List.range 8).map fun (i : ℕ) (_ : Fin 1) => (i : ℝ)).map fun x => eval x (2 * X 0 + 1 : MvPolynomial (Fin 1) ℝ)) S hS cfg hc _ rfl
  exact ⟨_, rfl, h _ (List.Sublist.refl _) (Or.inl rfl), by rw [hS, hc]; decide, h⟩

example : (2 * X 0 + 1 : MvPolynomial (Fin 1) ℝ).totalDegree ≤ 1 := by
  refine (totalDegree_add _ _).trans (max_le ((totalDegree_mul _ _).trans ?_) (by simp))
  rw [totalDegree_X, show (2 : MvPolynomial (Fin 1) ℝ) = C 2 from (map_ofNat C 2).symm, totalDegree_C]

end EQ.Tree
