import Verif.Tree.DepthProps

/-!
# How much smoothing changes a prediction (C225)
-/

namespace EQ.Tree
open EQ.Basis

variable {d : ℕ}

namespace Spec

/-- `v` is the mean of the values `l` with the weights `w`. -/
def Mean (v : ℝ) (w l : List ℝ) : Prop := w.length = l.length ∧ (∀ a ∈ w, 0 ≤ a) ∧ w.sum = 1 ∧
  v = ((w.zip l).map fun a => a.1 * a.2).sum

end Spec

/-- Every inner node has at least `m` samples. -/
def Node.AtLeast (m : ℕ) : Node d → Prop
  | .leaf _ _ _ => True
  | .branch _ n _ _ l r => m ≤ n ∧ l.AtLeast m ∧ r.AtLeast m

theorem Grown.atLeast {cfg : Config} {msl : ℕ} {fit : Fit d} {D : Data d} {depth : ℕ} {t : Node d}
    (h : Grown cfg msl fit D depth t) (hD : D.Paired) : t.AtLeast (2 * msl) := by
  induction h with
  | leaf => trivial
  | branch D depth c l r hd hs hl hr ihl ihr =>
    obtain ⟨-, h2, h3, h4, h5⟩ := mem_candidates.1 (splitter_mem hs)
    obtain ⟨p1, p2, q1, q2⟩ := cand_rows hD (splitter_mem hs)
    refine ⟨?_, ihl p1, ihr p2⟩
    have e : c.left.rows.length + c.right.rows.length = D.rows.length := by
      rw [q1, q2]
      have := List.length_eq_length_filter_add (l := D.rows) (fun r => decide (r.1 c.j ≤ c.t))
      rw [this]
      congr 2
      apply List.filter_congr
      intro r _
      by_cases hr : r.1 c.j ≤ c.t <;> simp [hr]
    rw [rows_length p1, rows_length p2, rows_length hD] at e
    omega

theorem mean_blend {v own K : ℝ} {n : ℕ} {w l : List ℝ} (h : Spec.Mean v w l) (hk : 0 ≤ K) (hn : 0 < n) :
    Spec.Mean ((v * n + own * K) / (K + n)) (K / (K + n) :: w.map (· * (n / (K + n)))) (own :: l) := by
  obtain ⟨h1, h2, h3, h4⟩ := h
  have hn' : (0 : ℝ) < n := by exact_mod_cast hn
  have hpos : 0 < K + n := by linarith
  refine ⟨by simp [h1], ?_, ?_, ?_⟩
  · intro a ha
    rcases List.mem_cons.1 ha with rfl | ha
    · positivity
    · obtain ⟨b, hb, rfl⟩ := List.mem_map.1 ha
      exact mul_nonneg (h2 b hb) (by positivity)
  · rw [List.sum_cons, List.sum_map_mul_right, List.map_id', h3]
    field_simp
  · have hz : ∀ (w l : List ℝ) (c : ℝ), (((w.map (· * c)).zip l).map fun a => a.1 * a.2).sum =
        ((w.zip l).map fun a => a.1 * a.2).sum * c := by
      intro w
      induction w with
      | nil => simp
      | cons a w ih =>
        intro l c
        cases l with
        | nil => simp
        | cons b l =>
          simp only [List.map_cons, List.zip_cons_cons, List.sum_cons, ih]
          ring
    simp only [List.zip_cons_cons, List.map_cons, List.sum_cons]
    rw [hz, ← h4]
    field_simp
    ring

/-- The weights of the smoothed prediction. -/
theorem predictNode_weights (k : ℝ) (m : ℕ) (hk : 0 ≤ k) (hm : 0 < m) (x : Pt d) : ∀ (t : Node d), t.AtLeast (2 * m) →
    ∀ vals, evalPath x (t.path x) = .ok vals → ∃ v w, predictNode (k * m) x t = .ok (some v) ∧ Spec.Mean v w vals ∧
      (∃ a, w.getLast? = some a ∧ (2 / (2 + k)) ^ (vals.length - 1) ≤ a) ∧
      (2 ≤ vals.length → w.head? = some (k * m / (k * m + t.samples)))
  | .leaf p n D, _, vals, hv => by
    cases p with
    | none => cases hv
    | some f =>
      have e : vals = [f x] := (Except.ok.inj hv).symm
      subst e
      exact ⟨f x, [1], rfl, ⟨rfl, by simp, by simp, by simp⟩, ⟨1, rfl, by simp⟩, fun h => by simp at h⟩
  | .branch p n j u l r, ht, vals, hv => by
    obtain ⟨hn, hl, hr⟩ := ht
    cases p with
    | none => cases hv
    | some f =>
      have hm' : (0 : ℝ) < m := by exact_mod_cast hm
      have hn2 : (2 : ℝ) * m ≤ n := by exact_mod_cast hn
      have hn0 : 0 < n := by omega
      have hpos : 0 < k * m + n := by nlinarith [mul_nonneg hk hm'.le]
      have key : ∀ (c : Node d), c.AtLeast (2 * m) → (∀ vals, evalPath x (c.path x) = .ok vals →
          ∃ v w, predictNode (k * m) x c = .ok (some v) ∧ Spec.Mean v w vals ∧
            (∃ a, w.getLast? = some a ∧ (2 / (2 + k)) ^ (vals.length - 1) ≤ a) ∧
            (2 ≤ vals.length → w.head? = some (k * m / (k * m + c.samples)))) →
          evalPath x (some f :: c.path x) = .ok vals →
          ∃ v w, (predictNode (k * m) x c).map (blend (k * m) n (f x)) = .ok (some v) ∧ Spec.Mean v w vals ∧
            (∃ a, w.getLast? = some a ∧ (2 / (2 + k)) ^ (vals.length - 1) ≤ a) ∧
            (2 ≤ vals.length → w.head? = some (k * m / (k * m + n))) := by
        intro c hc ih hv
        cases hp : evalPath x (c.path x) with
        | error e =>
          simp only [evalPath, evalPoly, hp, Except.map] at hv
          cases hv
        | ok vs =>
          simp only [evalPath, evalPoly, hp, Except.map] at hv
          have e := (Except.ok.inj hv).symm
          subst e
          obtain ⟨v, w, h1, h2, ⟨a, h3, h4⟩, -⟩ := ih vs hp
          refine ⟨_, _, ?_, mean_blend (own := f x) h2 (mul_nonneg hk hm'.le) hn0, ⟨a * (n / (k * m + n)), ?_, ?_⟩, fun _ => rfl⟩
          · rw [h1]
            simp [Except.map, EQ.Tree.blend, hpos.ne']
          · rw [List.getLast?_cons, List.getLast?_map, h3]
            rfl
          · have hne : vs ≠ [] := by
              rintro rfl
              have : w = [] := List.length_eq_zero_iff.1 h2.1
              subst this
              simp at h3
            have hlen : (f x :: vs).length - 1 = (vs.length - 1) + 1 := by
              have := List.length_pos_of_ne_nil hne
              simp only [List.length_cons]
              omega
            rw [hlen, pow_succ]
            have hq : 2 / (2 + k) ≤ (n : ℝ) / (k * m + n) := by
              rw [div_le_div_iff₀ (by linarith) hpos]
              nlinarith [mul_le_mul_of_nonneg_left hn2 hk]
            have h0 : 0 ≤ 2 / (2 + k) := by positivity
            exact mul_le_mul h4 hq h0 ((pow_nonneg h0 _).trans h4)
      unfold Node.path at hv
      unfold predictNode
      simp only [evalPoly, Node.samples]
      by_cases hle : x j ≤ u
      · simp only [hle, if_true] at hv ⊢
        exact key l hl (predictNode_weights k m hk hm x l hl) hv
      · simp only [hle, if_false] at hv ⊢
        exact key r hr (predictNode_weights k m hk hm x r hr) hv

theorem resolveMsl_pos {card : ℕ} {m : Option ℕ} (hm : m ≠ some 0) (hc : 0 < card) : 0 < resolveMsl card m := by
  unfold resolveMsl
  split
  · omega
  · split_ifs
    · omega
    · rename_i k hne
      rcases Nat.eq_zero_or_pos k with rfl | h
      · exact absurd rfl hm
      · exact h

theorem grow_samples (cfg : Config) (msl : ℕ) (fit : Fit d) (D : Data d) (depth : ℕ) :
    (grow cfg msl fit D depth).samples = D.X.length := by
  rw [grow]
  split_ifs
  · cases splitter cfg msl fit D <;> rfl
  · rfl

/-- C225. The prediction of a fitted tree is a mean of the values of the polynomials on the way from the root to the leaf of the
point. In it the leaf's polynomial has at least the weight `(2 / (2 + k)) ^ depth`, whatever the data and `min_samples_leaf`. The
polynomial of the root, if that is not the leaf, has the weight `k m / (k m + N)`, where `m` is `min_samples_leaf` and `N` the
number of samples. -/
theorem c225_weights (cfg : Config) (fit : Fit d) (D : Data d) (hD : D.Paired) (s s' : State d)
    (h : fitTree cfg fit D s = .ok s') (hk : 0 ≤ s.k) (hm : s.msl ≠ some 0) (hc : 0 < cfg.cardinality) :
    ∃ t m, s'.tree = some t ∧ s'.msl = some m ∧ ∀ x vals, evalPath x (t.path x) = .ok vals → ∃ v w,
      predict s' x = .ok (some v) ∧ Spec.Mean v w vals ∧
      (∃ a, w.getLast? = some a ∧ (2 / (2 + s.k)) ^ (vals.length - 1) ≤ a) ∧
      (2 ≤ vals.length → w.head? = some (s.k * m / (s.k * m + D.X.length))) := by
  unfold fitTree at h
  simp only at h
  split_ifs at h
  obtain rfl := Except.ok.inj h
  have hg := grow_grown cfg (resolveMsl cfg.cardinality s.msl) fit D 0
  refine ⟨_, _, rfl, rfl, fun x vals hv => ?_⟩
  have := predictNode_weights s.k _ hk (resolveMsl_pos hm hc) x _ (hg.atLeast hD) vals hv
  rwa [grow_samples] at this

theorem mean_head {v a b : ℝ} {w l : List ℝ} {B : ℝ} (h : Spec.Mean v w (a :: l)) (hw : w.head? = some b)
    (hB : ∀ z ∈ l, |z - a| ≤ B) : |v - a| ≤ (1 - b) * B := by
  obtain ⟨h1, h2, h3, h4⟩ := h
  cases w with
  | nil => simp at hw
  | cons c w =>
    simp only [List.head?_cons, Option.some.injEq] at hw
    subst hw
    have key : ∀ (w l : List ℝ), w.length = l.length → (∀ z ∈ w, 0 ≤ z) → (∀ z ∈ l, |z - a| ≤ B) →
        |((w.zip l).map fun z => z.1 * z.2).sum - w.sum * a| ≤ w.sum * B := by
      intro w
      induction w with
      | nil => simp
      | cons e w ih =>
        intro l hl hw hB
        cases l with
        | nil => simp at hl
        | cons f l =>
          have i := ih l (by simpa using hl) (fun z hz => hw z (List.mem_cons_of_mem _ hz))
            (fun z hz => hB z (List.mem_cons_of_mem _ hz))
          have j := hB f (List.mem_cons_self ..)
          have he := hw e (List.mem_cons_self ..)
          simp only [List.zip_cons_cons, List.map_cons, List.sum_cons]
          have e1 : e * f + ((w.zip l).map fun z => z.1 * z.2).sum - (e + w.sum) * a =
            e * (f - a) + (((w.zip l).map fun z => z.1 * z.2).sum - w.sum * a) := by ring
          rw [e1]
          refine (abs_add_le _ _).trans ?_
          rw [abs_mul, abs_of_nonneg he, add_mul]
          exact add_le_add (mul_le_mul_of_nonneg_left j he) i
    have := key w l (by simpa using h1) (fun z hz => h2 z (List.mem_cons_of_mem _ hz)) hB
    simp only [List.zip_cons_cons, List.map_cons, List.sum_cons] at h3 h4
    have hs : w.sum = 1 - c := by linarith
    rw [hs] at this
    rw [h4]
    have e : c * a + ((w.zip l).map fun z => z.1 * z.2).sum - a = ((w.zip l).map fun z => z.1 * z.2).sum - (1 - c) * a := by ring
    rwa [e]

theorem evalPath_ok (x : Pt d) : ∀ l : List (Option (PolyFn d)), (∀ p ∈ l, p ≠ none) → ∃ vals, evalPath x l = .ok vals ∧
    vals.length = l.length
  | [], _ => ⟨[], rfl, rfl⟩
  | none :: _, h => absurd rfl (h none (List.mem_cons_self ..))
  | some f :: l, h => by
    obtain ⟨vs, h1, h2⟩ := evalPath_ok x l fun p hp => h p (List.mem_cons_of_mem _ hp)
    exact ⟨f x :: vs, by simp [evalPath, evalPoly, h1, Except.map], by simp [h2]⟩

theorem grow_path (cfg : Config) (msl : ℕ) (fit : Fit d) (x : Pt d) (D : Data d) (depth : ℕ) :
    ∃ ps, (grow cfg msl fit D depth).path x = (fit D).2 :: ps := by
  rw [grow]
  split_ifs
  · cases splitter cfg msl fit D <;> exact ⟨_, rfl⟩
  · exact ⟨_, rfl⟩

theorem grow_polys (cfg : Config) (msl : ℕ) (fit : Fit d) (hf : ∀ D, (fit D).2 ≠ none) (x : Pt d) (D : Data d) (depth : ℕ) :
    ∀ p ∈ (grow cfg msl fit D depth).path x, p ≠ none := by
  have hg := grow_grown cfg msl fit D depth
  generalize grow cfg msl fit D depth = t at hg
  induction hg with
  | leaf D depth =>
    intro p hp
    simp only [Node.path, List.mem_singleton] at hp
    exact hp ▸ hf D
  | branch D depth c l r hd hs hl hr ihl ihr =>
    intro p hp
    simp only [Node.path, List.mem_cons] at hp
    rcases hp with rfl | hp
    · exact hf D
    · split_ifs at hp
      · exact ihl p hp
      · exact ihr p hp

/-- C225, strong smoothing: if all fits succeed, the predictions at a point tend to the value of the polynomial fitted to all
samples when `k` grows. -/
theorem c225_limit (cfg : Config) (fit : Fit d) (hf : ∀ D, (fit D).2 ≠ none) (D : Data d) (hD : D.Paired) (s : State d)
    (hm : s.msl ≠ some 0) (hc : 0 < cfg.cardinality) (x : Pt d) {f : PolyFn d} (hr : (fit D).2 = some f) {ε : ℝ} (hε : 0 < ε) :
    ∃ k₀, ∀ k, k₀ ≤ k → ∀ s', fitTree cfg fit D { s with k := k } = .ok s' → ∃ v, predict s' x = .ok (some v) ∧ |v - f x| < ε := by
  obtain ⟨m, hmd⟩ : ∃ m, m = resolveMsl cfg.cardinality s.msl := ⟨_, rfl⟩
  have hm0 : 0 < m := hmd ▸ resolveMsl_pos hm hc
  have hm0' : (0 : ℝ) < m := by exact_mod_cast hm0
  obtain ⟨vals, hv, -⟩ := evalPath_ok x _ (grow_polys cfg m fit hf x D 0)
  obtain ⟨ps, hps⟩ := grow_path cfg m fit x D 0
  have hv' := hv
  rw [hps, hr] at hv'
  obtain ⟨rest, rfl⟩ : ∃ rest, vals = f x :: rest := by
    cases hq : evalPath x ps with
    | error e => simp [evalPath, evalPoly, hq, Except.map] at hv'
    | ok vs =>
      simp only [evalPath, evalPoly, hq, Except.map] at hv'
      exact ⟨vs, (Except.ok.inj hv').symm⟩
  obtain ⟨B, hB0, hB⟩ : ∃ B : ℝ, 0 < B ∧ ∀ z ∈ rest, |z - f x| ≤ B := by
    refine ⟨1 + (rest.map fun z => |z - f x|).sum, ?_, fun z hz => ?_⟩
    · have : 0 ≤ (rest.map fun z => |z - f x|).sum := List.sum_nonneg (by simp)
      linarith
    · have := List.single_le_sum (l := rest.map fun z => |z - f x|) (by simp) _ (List.mem_map_of_mem hz)
      linarith
  refine ⟨D.X.length * B / (ε * m) + 1, fun k hk s' hs' => ?_⟩
  have hk0 : 0 < k := lt_of_lt_of_le (by positivity) hk
  unfold fitTree at hs'
  simp only at hs'
  split_ifs at hs'
  obtain rfl := Except.ok.inj hs'
  rw [← hmd]
  have hg := grow_grown cfg m fit D 0
  obtain ⟨v, w, h1, h2, -, h4⟩ := predictNode_weights k m hk0.le hm0 x _ (hg.atLeast hD) _ hv
  refine ⟨v, h1, ?_⟩
  rw [grow_samples] at h4
  cases rest with
  | nil =>
    obtain ⟨e1, e2, e3, e4⟩ := h2
    obtain ⟨a, rfl⟩ := List.length_eq_one_iff.1 e1
    simp only [List.sum_cons, List.sum_nil, add_zero] at e3
    subst e3
    simp only [List.zip_cons_cons, List.zip_nil_left, List.map_cons, List.map_nil, List.sum_cons, List.sum_nil, one_mul,
      add_zero] at e4
    rw [e4, sub_self, abs_zero]
    exact hε
  | cons z rest =>
    refine (mean_head h2 (h4 (by simp)) hB).trans_lt ?_
    have hpos : 0 < k * m + D.X.length := by positivity
    have e : 1 - k * m / (k * m + D.X.length) = D.X.length / (k * m + D.X.length) := by
      field_simp
      ring
    rw [e, div_mul_eq_mul_div, div_lt_iff₀ hpos]
    have hk1 : D.X.length * B / (ε * m) < k := by linarith
    rw [div_lt_iff₀ (by positivity)] at hk1
    have : 0 ≤ ε * (D.X.length : ℝ) := by positivity
    nlinarith

/-- The hypotheses of C225 are met by the four corners of a square, where the tree of depth two has the four corners as leaves. -/
example : ∃ s' t, fitTree (agnostic 2 3) (fun _ => (0, some fun _ => 1)) square ⟨some 1, 0, none⟩ = .ok s' ∧ s'.tree = some t ∧
    square.Paired ∧ (evalPath 0 (t.path 0)).toOption.map List.length = some 3 := by
  obtain ⟨sb, t, h, ht, -, -⟩ := c52_splits_violated (fun _ => (0, some fun _ => 1))
  have hg : t = grow (agnostic 2 3) 1 (fun _ => (0, some fun _ => 1)) square 0 := by
    unfold fitTree at h
    simp only at h
    split_ifs at h
    obtain rfl := Except.ok.inj h
    exact (Option.some.inj ht).symm
  obtain ⟨vals, hv, hl⟩ := evalPath_ok 0 _ (grow_polys (agnostic 2 3) 1 (fun _ => (0, some fun _ => 1)) (by simp) 0 square 0)
  refine ⟨sb, t, h, ht, rfl, ?_⟩
  rw [hg, hv]
  rw [grow_square] at hl
  simp only [Except.toOption, Option.map_some, hl]
  simp [Node.path]

end EQ.Tree
