import Verif.Opt.OmorfProps
import Verif.Opt.PoisedProps
import Verif.Opt.PivotProps

/-!
# The `omorf` method: budget violated (C119), directions (C121), arguments (C122), linear sample sets (C123)
-/

namespace EQ.Opt
open EQ.Basis

variable {n : ℕ}

/-! ## C121: the directions -/

/-- `Except`-valued maps that succeed. -/
theorem mapM_ok {α β : Type} (g : α → Except Err β) : ∀ (l : List α) (R : List β), l.mapM g = .ok R →
    R.length = l.length ∧ ∀ (i : ℕ) x, l[i]? = some x → ∃ y, g x = .ok y ∧ R[i]? = some y := by
  intro l
  induction l with
  | nil =>
    intro R h
    simp only [List.mapM_nil] at h
    cases h
    simp
  | cons a l ih =>
    intro R h
    rw [List.mapM_cons] at h
    rcases ha : g a with x | y
    · rw [ha] at h; exact absurd h (by simp [bind, Except.bind])
    · rcases hl : l.mapM g with x | L
      · rw [ha, hl] at h; exact absurd h (by simp [bind, Except.bind])
      · rw [ha, hl] at h
        simp only [bind, Except.bind, pure, Except.pure, Except.ok.injEq] at h
        subst h
        obtain ⟨h1, h2⟩ := ih L hl
        refine ⟨by simp [h1], fun i x hx => ?_⟩
        cases i with
        | zero => simp only [List.getElem?_cons_zero, Option.some.injEq] at hx; subst hx; exact ⟨y, ha, rfl⟩
        | succ i => simpa using h2 i x (by simpa using hx)

/-- What the loop over the directions promises: `m` more directions, taken from `U1`, each with the largest squared
correlation among those that remain. -/
theorem greedy_spec (e : OEnv n) (S : List (Pt n)) (f : List ℝ) : ∀ (m : ℕ) (U0 U1 U : Dirs n),
    greedy e S f m U0 U1 = .ok U →
    U.length = U0.length + m ∧ U.take U0.length = U0 ∧ (∃ rest, (U ++ rest).Perm (U0 ++ U1)) ∧
    ∀ i, U0.length ≤ i → i < U.length → ∀ c, (U.take i ++ [c]).Subperm (U0 ++ U1) →
      ∃ x y, e.r2 S f (U.take i ++ [c]) = .ok x ∧ e.r2 S f (U.take (i + 1)) = .ok y ∧ x ≤ y := by
  intro m
  induction m with
  | zero =>
    intro U0 U1 U h
    simp only [greedy, Except.ok.injEq] at h
    subst h
    exact ⟨rfl, by simp, ⟨U1, List.Perm.refl _⟩, fun i h1 h2 => absurd h2 (by omega)⟩
  | succ m ih =>
    intro U0 U1 U h
    unfold greedy at h
    rcases hR : U1.mapM (fun w => e.r2 S f (U0 ++ [w])) with x | R
    · rw [hR] at h; exact absurd h (by simp)
    rw [hR] at h
    simp only at h
    by_cases hne : R = []
    · rw [if_pos hne] at h; exact absurd h (by simp)
    rw [if_neg hne] at h
    obtain ⟨hl, hv⟩ := mapM_ok _ _ _ hR
    have hk : argmax R < U1.length := by rw [← hl]; exact argmax_lt R hne
    have hg : U1.getD (argmax R) 0 = U1[argmax R] := by
      rw [List.getD_eq_getElem?_getD, List.getElem?_eq_getElem hk]; rfl
    rw [hg] at h
    have hperm : (U0 ++ [U1[argmax R]] ++ U1.eraseIdx (argmax R)).Perm (U0 ++ U1) := by
      rw [List.append_assoc, List.perm_append_left_iff]
      exact List.getElem_cons_eraseIdx_perm hk
    obtain ⟨h1, h2, ⟨rest, h3⟩, h4⟩ := ih _ _ _ h
    rw [List.length_append, List.length_singleton] at h1 h2 h4
    refine ⟨by omega, ?_, ⟨rest, h3.trans hperm⟩, fun i hi1 hi2 c hc => ?_⟩
    · have := congrArg (List.take U0.length) h2
      rw [List.take_take, min_eq_left (by omega), List.take_left] at this
      exact this
    · by_cases hi : U0.length + 1 ≤ i
      · exact h4 i hi hi2 c (hc.trans hperm.symm.subperm)
      · have e0 : i = U0.length := by omega
        have hU : U.take U0.length = U0 := by
          have := congrArg (List.take U0.length) h2
          rw [List.take_take, min_eq_left (by omega), List.take_left] at this
          exact this
        subst e0
        rw [hU] at hc ⊢
        rw [h2]
        have hcm : c ∈ U1 := by
          have := (List.subperm_append_left _).1 hc
          exact List.singleton_subperm_iff.1 this
        obtain ⟨j, hj, rfl⟩ := List.mem_iff_getElem.1 hcm
        obtain ⟨x, hx1, hx2⟩ := hv j _ (List.getElem?_eq_getElem hj)
        obtain ⟨y, hy1, hy2⟩ := hv _ _ (List.getElem?_eq_getElem hk)
        refine ⟨x, y, hx1, hy1, ?_⟩
        have := argmax_spec R hne x (List.mem_of_getElem? hx2)
        rwa [List.getD_eq_getElem?_getD, hy2] at this

/-- C121. For every sample, every matrix of eigenvectors and every outcome of the fits: when `omorf` with the method
`active-subspaces` finds `d ≥ 1` directions, they are `d` different columns of the matrix of eigenvectors of the linear fit,
the first is its first column, and every further one has the largest squared correlation, together with those before it,
among the columns not taken before. If the columns are orthonormal, so are the directions. -/
theorem c121_directions (e : OEnv n) (d : ℕ) (hd : 1 ≤ d) (st : St n) (U0 : Option (Dirs n)) (S : List (Pt n)) (f : List ℝ)
    (W : Dirs n) (hW : e.active st S f = .ok W) (U : Option (Dirs n))
    (h : calculateSubspace e d .active st U0 S f = .ok U) :
    ∃ V, U = some V ∧ V.length = d ∧ V.head? = W.head? ∧ V.Subperm W ∧
    (∀ i, 1 ≤ i → i < d → ∀ c, (V.take i ++ [c]).Subperm W →
      ∃ x y, e.r2 S f (V.take i ++ [c]) = .ok x ∧ e.r2 S f (V.take (i + 1)) = .ok y ∧ x ≤ y) ∧
    ((∀ w ∈ W, ∑ i, w i ^ 2 = 1) → W.Pairwise (fun v w => ∑ i, v i * w i = 0) →
      (∀ w ∈ V, ∑ i, w i ^ 2 = 1) ∧ V.Pairwise fun v w => ∑ i, v i * w i = 0) := by
  unfold calculateSubspace at h
  rw [hW] at h
  rcases W with _ | ⟨w, ws⟩
  · exact absurd h (by simp)
  simp only at h
  rcases hg : greedy e S f (d - 1) [w] ws with x | V
  · rw [hg] at h; exact absurd h (by simp)
  rw [hg] at h
  simp only [Except.ok.injEq] at h
  obtain ⟨h1, h2, ⟨rest, h3⟩, h4⟩ := greedy_spec e S f _ _ _ _ hg
  rw [List.length_singleton] at h1 h2 h4
  have hsub : V.Subperm (w :: ws) :=
    (List.sublist_append_left V rest).subperm.trans h3.subperm
  refine ⟨V, h.symm, by omega, ?_, hsub, fun i hi1 hi2 c hc => h4 i hi1 (by omega) c hc, fun g1 g2 => ⟨fun v hv => g1 v (hsub.subset hv), ?_⟩⟩
  · rcases V with _ | ⟨v, vs⟩
    · simp only [List.length_nil] at h1; omega
    · simp only [List.take_succ_cons, List.take_zero, List.cons.injEq, and_true] at h2
      simp [h2]
  · obtain ⟨l, hl, hs⟩ := hsub
    exact (hl.pairwise_iff (fun {a b} hab => by rw [← hab]; exact Finset.sum_congr rfl fun _ _ => mul_comm _ _)).1
      (g2.sublist hs)

/-- Three variables, the coordinate directions in order, and correlations that prefer the third direction. -/
noncomputable def dirDemo : OEnv 3 where
  active := fun _ _ _ => .ok [![1, 0, 0], ![0, 1, 0], ![0, 0, 1]]
  r2 := fun _ _ U => .ok ((U.map fun w => w 2).sum)
  varproj := fun _ _ U => .ok U
  build := fun _ _ _ _ => none
  newFull := fun _ _ _ => none
  newRed := fun _ _ _ _ => none
  randDirs := fun _ _ _ _ => 0
  argsort := fun l => List.range l.length

example (st : St 3) (S : List (Pt 3)) (f : List ℝ) :
    calculateSubspace dirDemo 2 .active st none S f = .ok (some [![1, 0, 0], ![0, 0, 1]]) := by
  simp [calculateSubspace, dirDemo, greedy, bind, Except.bind, pure, Except.pure, argmax, argmin]
  norm_num

/-! ## C122: the arguments -/

theorem mapM_total {α β : Type} (g : α → β) : ∀ l : List α, l.mapM (fun a => (Except.ok (g a) : Except Err β)) = .ok (l.map g)
  | [] => rfl
  | a :: l => by rw [List.mapM_cons, mapM_total g l]; rfl

theorem greedy_total (e : OEnv n) (S : List (Pt n)) (f : List ℝ) (g : Dirs n → ℝ) (hr : ∀ U, e.r2 S f U = .ok (g U)) :
    ∀ (m : ℕ) (U0 U1 : Dirs n), (m ≤ U1.length → ∃ U, greedy e S f m U0 U1 = .ok U) ∧
      (U1.length < m → greedy e S f m U0 U1 = .error .valueError) := by
  intro m
  induction m with
  | zero => exact fun U0 U1 => ⟨fun _ => ⟨U0, rfl⟩, fun h => absurd h (by omega)⟩
  | succ m ih =>
    intro U0 U1
    unfold greedy
    have hm : U1.mapM (fun w => e.r2 S f (U0 ++ [w])) = .ok (U1.map fun w => g (U0 ++ [w])) := by
      simp only [hr]; exact mapM_total _ _
    rw [hm]
    simp only [List.map_eq_nil_iff]
    by_cases h0 : U1 = []
    · rw [if_pos h0, h0]; simp
    rw [if_neg h0]
    have hk : argmax (U1.map fun w => g (U0 ++ [w])) < U1.length := by
      have := argmax_lt (U1.map fun w => g (U0 ++ [w])) (by simpa using h0)
      simpa using this
    have hl : (U1.eraseIdx (argmax (U1.map fun w => g (U0 ++ [w])))).length = U1.length - 1 := by
      rw [List.length_eraseIdx, if_pos hk]
    have hp := List.length_pos_of_ne_nil h0
    refine ⟨fun h => (ih _ _).1 (by rw [hl]; omega), fun h => (ih _ _).2 (by rw [hl]; omega)⟩

/-- The fits and eigenvectors of a run succeed: as many directions as variables. -/
structure Succeeds (e : OEnv n) : Prop where
  active : ∀ st S f, ∃ W, e.active st S f = .ok W ∧ W.length = n
  r2 : ∀ S f, ∃ g : Dirs n → ℝ, ∀ U, e.r2 S f U = .ok (g U)
  varproj : ∀ S f U, ∃ W, e.varproj S f U = .ok W

/-- C122, the part that holds. If the outside calls succeed, the run is on a new object and the budget is not used up by the
first `n + 1` points: `omorf` returns exactly if `1 ≤ d ≤ n` and the name of the subspace method is one of the two documented
names; otherwise it raises (`ValueError` for the number of directions, `AttributeError` for the name).
Missing: objects that already ran (`c122_name_violated`). -/
theorem c122_arguments_partial (cfg : Cfg n) (e : OEnv n) (he : Succeeds e) (hn : 1 ≤ n) (d : ℕ) (sm : SubMethod)
    (obj : Pt n → ℝ) (s : St n) (h : Inv cfg obj s) (hb : s.evals + 1 + n < cfg.maxEvals) (x0 : Pt n) :
    ((∃ t, omorf cfg e d sm obj s none x0 = .ok t) ↔ 1 ≤ d ∧ d ≤ n ∧ sm ≠ .other) ∧
    (d = 0 ∨ n < d → omorf cfg e d sm obj s none x0 = .error .valueError) ∧
    (1 ≤ d → d ≤ n → sm = .other → omorf cfg e d sm obj s none x0 = .error .attributeError) := by
  obtain ⟨h1, h2, h3, h4, h5, -⟩ := start_spec h x0
  have hev1 : (start cfg obj s x0).evals ≤ s.evals + 1 := by
    rw [h1.evals, h5, h.evals]
    split_ifs
    · omega
    · simp
  have hini : (evalInitial cfg obj (generateSet cfg e.full (start cfg obj s x0) (n + 1)).tail
      ⟨start cfg obj s x0, [(start cfg obj s x0).sOld], [(start cfg obj s x0).fOld]⟩).2 = false := by
    refine ((evalInitial_ext _ _ h1).2 ?_).1
    have : (generateSet cfg e.full (start cfg obj s x0) (n + 1)).tail.length = n := by simp [generateSet]
    rw [this]
    simp only
    omega
  have hsub : ∀ st S f, (1 ≤ d → d ≤ n → ∃ U, calculateSubspace e d sm st none S f = .ok U ∧ (U = none ↔ sm = .other)) ∧
      (n < d → calculateSubspace e d sm st none S f = .error .valueError) := by
    intro st S f
    obtain ⟨W, hW, hl⟩ := he.active st S f
    obtain ⟨g, hg⟩ := he.r2 S f
    unfold calculateSubspace
    rw [hW]
    rcases W with _ | ⟨w, ws⟩
    · simp only [List.length_nil] at hl; omega
    simp only
    rw [List.length_cons] at hl
    obtain ⟨g1, g2⟩ := greedy_total e S f g hg (d - 1) [w] ws
    refine ⟨fun hd1 hd2 => ?_, fun hd => by rw [g2 (by omega)]⟩
    obtain ⟨U, hU⟩ := g1 (by omega)
    rw [hU]
    cases sm with
    | active => exact ⟨_, rfl, by simp⟩
    | varproj =>
      obtain ⟨V, hV⟩ := he.varproj S f U
      simp only [hV]
      exact ⟨_, rfl, by simp⟩
    | other => exact ⟨_, rfl, by simp⟩
  have hzero : d = 0 → omorf cfg e d sm obj s none x0 = .error .valueError := fun h0 => by
    unfold omorf; rw [if_pos h0]
  have hbig : d ≠ 0 → n < d → omorf cfg e d sm obj s none x0 = .error .valueError := fun h0 hd => by
    unfold omorf
    rw [if_neg h0]
    simp only
    revert hini
    rcases evalInitial cfg obj (generateSet cfg e.full (start cfg obj s x0) (n + 1)).tail
      ⟨start cfg obj s x0, [(start cfg obj s x0).sOld], [(start cfg obj s x0).fOld]⟩ with ⟨r, b⟩
    rintro rfl
    simp only
    rw [(hsub _ _ _).2 hd]
  have hname : 1 ≤ d → d ≤ n → sm = .other → omorf cfg e d sm obj s none x0 = .error .attributeError := fun hd1 hd2 hs => by
    unfold omorf
    rw [if_neg (by omega)]
    simp only
    revert hini
    rcases evalInitial cfg obj (generateSet cfg e.full (start cfg obj s x0) (n + 1)).tail
      ⟨start cfg obj s x0, [(start cfg obj s x0).sOld], [(start cfg obj s x0).fOld]⟩ with ⟨r, b⟩
    rintro rfl
    simp only
    obtain ⟨U, hU, hU'⟩ := (hsub r.st r.S r.f).1 hd1 hd2
    rw [hU, hU'.2 hs]
  have hok : 1 ≤ d → d ≤ n → sm ≠ .other → ∃ t, omorf cfg e d sm obj s none x0 = .ok t := fun hd1 hd2 hs => by
    unfold omorf
    rw [if_neg (by omega)]
    simp only
    revert hini
    rcases evalInitial cfg obj (generateSet cfg e.full (start cfg obj s x0) (n + 1)).tail
      ⟨start cfg obj s x0, [(start cfg obj s x0).sOld], [(start cfg obj s x0).fOld]⟩ with ⟨r, b⟩
    rintro rfl
    simp only
    obtain ⟨U, hU, hU'⟩ := (hsub r.st r.S r.f).1 hd1 hd2
    rw [hU]
    rcases U with _ | U
    · exact absurd (hU'.1 rfl) hs
    · exact ⟨_, rfl⟩
  refine ⟨⟨fun ⟨t, ht⟩ => ?_, fun ⟨a, b, c⟩ => hok a b c⟩, fun hd => ?_, hname⟩
  · by_contra hc
    by_cases h0 : d = 0
    · rw [hzero h0] at ht; exact absurd ht (by simp)
    by_cases hd : n < d
    · rw [hbig h0 hd] at ht; exact absurd ht (by simp)
    by_cases hs : sm = .other
    · rw [hname (by omega) (by omega) hs] at ht; exact absurd ht (by simp)
    · exact hc ⟨by omega, by omega, hs⟩
  · by_cases h0 : d = 0
    · exact hzero h0
    · exact hbig h0 (hd.resolve_left h0)

theorem oenvDemo_succeeds : Succeeds oenvDemo where
  active := fun _ _ _ => ⟨_, rfl, rfl⟩
  r2 := fun _ _ => ⟨fun _ => 1, fun _ => rfl⟩
  varproj := fun _ _ U => ⟨U, rfl⟩

example : omorf cfgDemo oenvDemo 2 .active (objective false fun x => x 0) (St.init 1) none (fun _ => 0) = .error .valueError :=
  (c122_arguments_partial cfgDemo oenvDemo oenvDemo_succeeds le_rfl 2 .active _ _ (inv_init _ _)
    (by norm_num [St.init, cfgDemo]) _).2.1 (.inr (by norm_num))

/-- C122 is violated on objects that already ran: with an unknown name of the subspace method the directions of the earlier
run are used silently, whatever they are, and the run returns. -/
theorem c122_name_violated (cfg : Cfg n) (e : OEnv n) (he : Succeeds e) (hn : 1 ≤ n) (d : ℕ) (hd1 : 1 ≤ d) (hd2 : d ≤ n)
    (obj : Pt n → ℝ) (s : St n) (U : Dirs n) (x0 : Pt n) :
    ∃ t, omorf cfg e d .other obj s (some U) x0 = .ok t := by
  unfold omorf
  rw [if_neg (by omega)]
  simp only
  rcases evalInitial cfg obj (generateSet cfg e.full (start cfg obj s x0) (n + 1)).tail
      ⟨start cfg obj s x0, [(start cfg obj s x0).sOld], [(start cfg obj s x0).fOld]⟩ with ⟨r, b⟩
  cases b with
  | true => exact ⟨_, rfl⟩
  | false =>
    simp only
    have : calculateSubspace e d .other r.st (some U) r.S r.f = .ok (some U) := by
      obtain ⟨W, hW, hl⟩ := he.active r.st r.S r.f
      obtain ⟨g, hg⟩ := he.r2 r.S r.f
      unfold calculateSubspace
      rw [hW]
      rcases W with _ | ⟨w, ws⟩
      · simp only [List.length_nil] at hl; omega
      simp only
      rw [List.length_cons] at hl
      obtain ⟨V, hV⟩ := (greedy_total e r.S r.f g hg (d - 1) [w] ws).1 (by omega)
      rw [hV]
    rw [this]
    exact ⟨_, rfl⟩

example : ∃ t, omorf cfgDemo oenvDemo 1 .other (objective false fun x => x 0) stDemo (some [fun _ => 0]) (fun _ => 0) = .ok t :=
  c122_name_violated cfgDemo oenvDemo oenvDemo_succeeds le_rfl 1 le_rfl le_rfl _ _ _ _

/-! ## C119 is violated -/

/-- Searches that propose points near the incumbent, a different one after every evaluation. -/
noncomputable def nearEnv : OEnv 1 where
  active := fun _ _ _ => .ok [fun _ => 1]
  r2 := fun _ _ _ => .ok 1
  varproj := fun _ _ U => .ok U
  build := fun _ _ _ _ => none
  newFull := fun _ _ _ => none
  newRed := fun _ st _ _ => some fun i => min (max (st.lo i) (st.sOld i + 1 / (10 + (st.evals : ℝ)))) (st.hi i)
  randDirs := fun _ _ _ _ => 0
  argsort := fun l => List.range l.length

theorem nearEnv_ok : OEnvOK nearEnv where
  full := ⟨fun s S f m _ hm => by simp [nearEnv, OEnv.full] at hm,
    fun s φ v x _ hv => by simp [nearEnv, OEnv.full] at hv⟩
  red := fun U => ⟨fun s S f m h hm i => by simp [nearEnv, OEnv.red] at hm,
    fun s φ v x h hv i => by
      simp only [nearEnv, OEnv.red, Option.some.injEq] at hv
      subst hv
      exact ⟨le_min (le_max_left _ _) ((h i).1.trans (h i).2), min_le_right _ _⟩⟩

theorem fresh_of_not_mem {S : List (Pt n)} (hS : S.Nodup) {x : Pt n} (hx : x ∉ S) : fresh S x = true := by
  unfold fresh
  rw [dedup_append_length hS, if_neg hx]
  simp

/-- A step of the pivoting without points at hand, with a search that proposes a new point. -/
theorem luStep_new (cfg : Cfg n) (env : Env n) (obj : Pt n → ℝ) (method : LUMethod) (psi2 : ℝ) (q : ℕ)
    (φ : Pt n → ℕ → ℝ) (a : LU n) (hF : a.hatF = []) (k : ℕ) (x : Pt n) (hx : env.newPoint a.st φ (luV a.U k) = some x)
    (hf : fresh a.S x = true) :
    (luStep cfg env obj method psi2 q φ a k).st = (blackbox cfg obj a.st x).1 ∧
    (luStep cfg env obj method psi2 q φ a k).S = a.S ++ [x] ∧ (luStep cfg env obj method psi2 q φ a k).hatF = [] := by
  have hc : choosePoint cfg env a.st q φ (luV a.U k) a.S = x := by
    unfold choosePoint; rw [hx]; simp only; rw [if_pos hf]
  unfold luStep
  simp only [hc]
  rw [if_neg (by simp [luFlag, hF]), if_neg (by simp [hF])]
  exact ⟨rfl, rfl, hF⟩

/-- C119 is violated: the points of the first quadratic set are evaluated without a look at the budget. With
`max_evals = 3`, one variable without bounds and any objective there are runs that call the function 4 times (three points
for the quadratic set, of which only the incumbent was evaluated before, and the point of the linear set). -/
theorem c119_budget_violated (cfg : Cfg 1) (hm : cfg.maxEvals = 3) (hb : cfg.bounds = none) (hr : cfg.random = false)
    (hd : cfg.delInit = none) (maximise : Bool) (f : Pt 1 → ℝ) (x0 : Pt 1) :
    ∃ t sol, optimiseOmorf cfg nearEnv 1 .active maximise f (St.init 1) none x0 = .ok (t, sol) ∧
      sol.nfev = 4 ∧ t.calls.length = 4 := by
  have h := inv_init cfg (objective maximise f)
  obtain ⟨h1, h2, h3, h4, h5, h6⟩ := start_spec h x0
  have hap : applyScaling cfg x0 = x0 := by unfold applyScaling; rw [hb]
  unfold optimiseOmorf omorf
  rw [if_neg one_ne_zero]
  simp only
  have hdel : 1 ≤ (start cfg (objective maximise f) (St.init 1) x0).del := by
    unfold start
    simp only [setDel, updateBounds_del, initRadius, hd, hb]
    exact le_max_right _ _
  have hlo : ∀ i, (start cfg (objective maximise f) (St.init 1) x0).hi i =
      (start cfg (objective maximise f) (St.init 1) x0).sOld i + (start cfg (objective maximise f) (St.init 1) x0).del ∧
      (start cfg (objective maximise f) (St.init 1) x0).lo i =
      (start cfg (objective maximise f) (St.init 1) x0).sOld i - (start cfg (objective maximise f) (St.init 1) x0).del := by
    intro i
    unfold start
    simp only [setDel, updateBounds, hb, and_self]
  generalize start cfg (objective maximise f) (St.init 1) x0 = s at h1 h2 h3 h4 h5 h6 hdel hlo ⊢
  have hS : s.S = [x0] := by rw [h5, hap]; simp [St.init]
  rw [hap] at h3
  have hgen : (generateSet cfg nearEnv.full s (1 + 1)).tail = [fun _ => x0 0 + s.del] := by
    unfold generateSet
    simp only [Nat.add_sub_cancel, List.tail_cons, List.range_one, List.map_cons, List.map_nil, hr]
    congr 1
    funext c
    have hc : c = 0 := Subsingleton.elim _ _
    subst hc
    have h8 := hlo 0
    rw [if_neg (by simp)]
    have e2 : coordDir s.del (fun c => s.lo c - s.sOld c) (fun c => s.hi c - s.sOld c) (0 + 1) 0 = s.del := by
      simp only [coordDir, step1]
      rw [if_pos (by omega), if_pos (by simp), if_neg (by push Not; rw [h8.1]; nlinarith)]
    rw [e2, h8.1, h8.2, h3]
    have e3 : x0 0 - s.del - x0 0 ≤ s.del := by linarith
    rw [max_eq_right e3, min_eq_left (by linarith)]
  rw [hgen]
  obtain ⟨b1, b2, -, b4, b5⟩ := blackbox_spec h1 (fun _ : Fin 1 => x0 0 + s.del)
  have ne1 : (fun _ : Fin 1 => x0 0 + s.del) ≠ x0 := fun hx => by
    have := congrFun hx 0
    linarith
  rw [hS, if_neg (by simpa using ne1)] at b5
  simp only [evalInitial]
  generalize (blackbox cfg (objective maximise f) s fun _ => x0 0 + s.del) = B at b1 b2 b4 b5 ⊢
  have hev : B.1.evals = 2 := by rw [b1.evals, b5]; rfl
  rw [if_neg (by rw [hev, hm]; norm_num)]
  simp only
  have hsub : calculateSubspace nearEnv 1 .active B.1 none ([s.sOld] ++ [fun _ => x0 0 + s.del]) ([s.fOld] ++ [B.2]) =
      .ok (some [fun _ => 1]) := by simp [calculateSubspace, nearEnv, greedy]
  rw [hsub]
  simp only
  set st := B.1 with hst
  have o1 : st.sOld = x0 := b2.sOld.trans h3
  have prop : ∀ (u : St 1), Ext st u → ∀ φ v, (nearEnv.red [fun _ => 1]).newPoint u φ v =
      some fun _ => x0 0 + 1 / (10 + (u.evals : ℝ)) := by
    intro u hu φ v
    simp only [nearEnv, OEnv.red, Option.some.injEq]
    funext i
    have hi : i = 0 := Subsingleton.elim _ _
    subst hi
    have ub : (1 : ℝ) / (10 + (u.evals : ℝ)) ≤ 1 := by
      rw [div_le_one (by positivity)]
      have : (0 : ℝ) ≤ u.evals := by positivity
      linarith
    have lb : (0 : ℝ) ≤ 1 / (10 + (u.evals : ℝ)) := by positivity
    rw [hu.lo, hu.hi, hu.sOld, b2.lo, b2.hi, (hlo 0).1, (hlo 0).2, o1, h3, max_eq_right (by linarith), min_eq_left (by linarith)]
  have hbegin : (oBegin cfg nearEnv 1 (objective maximise f) ⟨st, [s.sOld] ++ [fun _ => x0 0 + s.del], [s.fOld] ++ [B.2]⟩
      [fun _ => 1]).st.evals = 4 ∧ Inv cfg (objective maximise f) (oBegin cfg nearEnv 1 (objective maximise f)
        ⟨st, [s.sOld] ++ [fun _ => x0 0 + s.del], [s.fOld] ++ [B.2]⟩ [fun _ => 1]).st ∧
      Old cfg (objective maximise f) (oBegin cfg nearEnv 1 (objective maximise f)
        ⟨st, [s.sOld] ++ [fun _ => x0 0 + s.del], [s.fOld] ++ [B.2]⟩ [fun _ => 1]).st := by
    unfold oBegin oNew luPivot
    have er : List.range' 1 (redSize 1 - 1) = [1, 2] := rfl
    rw [er]
    simp only [List.foldl_cons, List.foldl_nil]
    generalize phiRed 1 [fun _ => 1] st [] = φ
    have x1ne : (fun _ : Fin 1 => x0 0 + 1 / (10 + (st.evals : ℝ))) ∉ [st.sOld] := by
      intro hmem
      rw [List.mem_singleton, o1] at hmem
      have := congrFun hmem 0
      simp only [hev] at this
      norm_num at this
    have x1ne' : (fun _ : Fin 1 => x0 0 + 1 / (10 + (st.evals : ℝ))) ∉ st.S := by
      rw [b5]
      intro hmem
      simp only [List.mem_append, List.mem_singleton] at hmem
      rcases hmem with hmem | hmem
      · have := congrFun hmem 0
        simp only [hev] at this
        norm_num at this
      · have := congrFun hmem 0
        simp only [hev] at this
        norm_num at this
        linarith
    obtain ⟨p1, p2, p3⟩ := luStep_new cfg (nearEnv.red [fun _ => 1]) (objective maximise f) .new (1/4) (redSize 1) φ
      ⟨st, [st.sOld], [st.fOld], [], [], [φ st.sOld]⟩ rfl 1 _ (prop st (Ext.refl st) _ _)
      (fresh_of_not_mem (List.nodup_singleton _) x1ne)
    generalize luStep cfg (nearEnv.red [fun _ => 1]) (objective maximise f) .new (1/4) (redSize 1) φ
      ⟨st, [st.sOld], [st.fOld], [], [], [φ st.sOld]⟩ 1 = a at p1 p2 p3 ⊢
    simp only at p1 p2
    obtain ⟨c1, c2, -, c4, c5⟩ := blackbox_spec b1 (fun _ : Fin 1 => x0 0 + 1 / (10 + (st.evals : ℝ)))
    rw [← p1] at c1 c2 c4 c5
    rw [if_neg x1ne', b5] at c5
    have aev : a.st.evals = 3 := by rw [c1.evals, c5]; rfl
    have x2ne : (fun _ : Fin 1 => x0 0 + 1 / (10 + (a.st.evals : ℝ))) ∉ a.S := by
      rw [p2, o1, aev]
      intro hmem
      simp only [List.mem_append, List.mem_singleton] at hmem
      rcases hmem with hmem | hmem
      · have := congrFun hmem 0
        norm_num at this
      · have := congrFun hmem 0
        simp only [hev] at this
        norm_num at this
    have x2ne' : (fun _ : Fin 1 => x0 0 + 1 / (10 + (a.st.evals : ℝ))) ∉ a.st.S := by
      rw [c5, aev]
      intro hmem
      simp only [List.mem_append, List.mem_singleton] at hmem
      rcases hmem with (hmem | hmem) | hmem
      · have := congrFun hmem 0
        norm_num at this
      · have := congrFun hmem 0
        norm_num at this
        linarith
      · have := congrFun hmem 0
        simp only [hev] at this
        norm_num at this
    have nd : a.S.Nodup := by
      rw [p2]
      refine List.nodup_append.2 ⟨List.nodup_singleton _, List.nodup_singleton _, ?_⟩
      intro y hy z hz hyz
      rw [List.mem_singleton] at hz
      rw [hyz, hz] at hy
      exact x1ne hy
    obtain ⟨q1, -, -⟩ := luStep_new cfg (nearEnv.red [fun _ => 1]) (objective maximise f) .new (1/4) (redSize 1) φ
      a p3 2 _ (prop a.st c2 _ _) (fresh_of_not_mem nd x2ne)
    rw [q1]
    obtain ⟨d1, d2, -, d4, d5⟩ := blackbox_spec c1 (fun _ : Fin 1 => x0 0 + 1 / (10 + (a.st.evals : ℝ)))
    rw [if_neg x2ne', c5] at d5
    exact ⟨by rw [d1.evals, d5]; rfl, d1, ((h2.ext b2).ext c2).ext d2⟩
  obtain ⟨g1, g2, g3⟩ := hbegin
  generalize oBegin cfg nearEnv 1 (objective maximise f) ⟨st, [s.sOld] ++ [fun _ => x0 0 + s.del], [s.fOld] ++ [B.2]⟩
    [fun _ => 1] = R at g1 g2 g3 ⊢
  have hloop : ∀ fuel, oLoop cfg nearEnv 1 .active (objective maximise f) fuel R = R := by
    intro fuel
    cases fuel with
    | zero => rfl
    | succ fuel =>
      have : oIter cfg nearEnv 1 .active (objective maximise f) R = (R, true) := by
        unfold oIter; rw [if_pos (.inl (by rw [g1, hm]; norm_num))]
      unfold oLoop
      rw [this]
  rw [hloop]
  obtain ⟨c1, -, -, c4, -⟩ := finish_fields cfg _ _ g2 g3
  refine ⟨_, _, rfl, ?_, ?_⟩
  · simp only
    rw [c4, ← g2.evals, g1]
  · rw [c1, List.length_map, ← g2.evals, g1]

example : ∃ t sol, optimiseOmorf { cfgDemo with maxEvals := 3, bounds := none, delInit := none } nearEnv 1 .active false
    (fun x => x 0 ^ 2) (St.init 1) none (fun _ => 0) = .ok (t, sol) ∧ sol.nfev = 4 ∧ t.calls.length = 4 :=
  c119_budget_violated _ rfl rfl rfl rfl _ _ _

end EQ.Opt
