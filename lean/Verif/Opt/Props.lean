import Verif.Opt.Lemmas

/-!
# The trust-region method: evaluations, incumbent, bounds, radii, budget (C57–C62, C91, C92)
-/

namespace EQ.Opt
open EQ.Basis

variable {n : ℕ}

/-! ## The whole run -/

theorem Inv.sOld {cfg : Cfg n} {obj : Pt n → ℝ} {s : St n} (h : Inv cfg obj s) (x : Pt n) :
    Inv cfg obj { s with sOld := x } := ⟨h.vals, h.nodup, h.evals, h.calls⟩

theorem start_spec {cfg : Cfg n} {obj : Pt n → ℝ} {s : St n} (h : Inv cfg obj s) (x0 : Pt n) :
    Inv cfg obj (start cfg obj s x0) ∧ Old cfg obj (start cfg obj s x0) ∧
    (start cfg obj s x0).sOld = applyScaling cfg x0 ∧ s.S <+: (start cfg obj s x0).S ∧
    (start cfg obj s x0).S = (if applyScaling cfg x0 ∈ s.S then s.S else s.S ++ [applyScaling cfg x0]) ∧
    (start cfg obj s x0).rho = (start cfg obj s x0).del := by
  obtain ⟨a1, a2, a3, a4, a5⟩ := blackbox_spec (h.sOld (applyScaling cfg x0)) (applyScaling cfg x0)
  unfold start
  simp only [setDel]
  refine ⟨⟨?_, ?_, ?_, ?_⟩, ⟨?_, ?_⟩, ?_, ?_, ?_, ?_⟩
  · simpa using a1.vals
  · simpa using a1.nodup
  · simpa using a1.evals
  · simpa using a1.calls
  · simp only [updateBounds_sOld, updateBounds_S]
    rw [a2.sOld]
    exact a4
  · simp only [updateBounds_sOld, updateBounds_fOld]
    rw [a2.sOld]
    exact a3
  · simp only [updateBounds_sOld]
    rw [a2.sOld]
  · simpa using a2.pre
  · simpa using a5
  · simp

theorem evalInitial_spec {cfg : Cfg n} {env : Env n} {obj : Pt n → ℝ} (st : St n) : ∀ (xs : List (Pt n)) (r : Run n)
    (k : ℕ), Prim cfg env obj k st r.st → Ext st r.st → Inv cfg obj r.st → Old cfg obj r.st →
    Paired cfg obj r.st r.S r.f → (∀ x ∈ xs, ∃ num, x ∈ generateSet cfg env st num) →
    ∃ m ≤ k + xs.length, Prim cfg env obj m st (evalInitial cfg obj xs r).1.st ∧
      (evalInitial cfg obj xs r).1.st.evals ≤ max (cfg.maxEvals) (r.st.evals + 1) ∧
      ((evalInitial cfg obj xs r).2 = false → Paired cfg obj (evalInitial cfg obj xs r).1.st
        (evalInitial cfg obj xs r).1.S (evalInitial cfg obj xs r).1.f ∧
        (evalInitial cfg obj xs r).1.S = r.S ++ xs) := by
  intro xs
  induction xs with
  | nil =>
    intro r k hp _ _ _ hs _
    refine ⟨k, by simp, hp, ?_, fun _ => ⟨hs, by simp [evalInitial]⟩⟩
    simp only [evalInitial]
    omega
  | cons x xs ih =>
    intro r k hp he hi ho hs hx
    obtain ⟨b1, b2, b3, b4, b5⟩ := blackbox_spec hi x
    obtain ⟨num, hnum⟩ := hx x (by simp)
    have hp' : Prim cfg env obj (k + 1) st (blackbox cfg obj r.st x).1 :=
      .eval x hp (.inr (.inr ⟨num, st, he, hnum⟩))
    have hev : (blackbox cfg obj r.st x).1.evals ≤ r.st.evals + 1 := by
      rw [b1.evals, b5, hi.evals]
      split_ifs
      · omega
      · simp
    unfold evalInitial
    simp only
    split_ifs with hc
    · exact ⟨k + 1, by simp, hp', by simp only; omega, fun h => by simp at h⟩
    · obtain ⟨m, hm, h1, h2, h3⟩ := ih ⟨(blackbox cfg obj r.st x).1, r.S ++ [x],
        r.f ++ [(blackbox cfg obj r.st x).2]⟩ (k + 1) hp' (he.trans b2) b1 (ho.ext b2)
        ⟨by simp [hs.vals, b3], fun y hy => by
          rcases List.mem_append.1 hy with hy | hy
          · exact b2.pre.subset (hs.mem y hy)
          · simp at hy; rw [hy]; exact b4⟩ (fun y hy => hx y (by simp [hy]))
      refine ⟨m, by simp only [List.length_cons]; omega, h1, ?_, fun hf => ?_⟩
      · refine h2.trans ?_
        simp only
        push Not at hc
        omega
      · obtain ⟨h4, h5⟩ := h3 hf
        exact ⟨h4, by rw [h5]; simp⟩

theorem loop_spec {cfg : Cfg n} {env : Env n} {obj : Pt n → ℝ} : ∀ (fuel : ℕ) (r : Run n), RunInv cfg obj r →
    (∃ k, Prim cfg env obj k r.st (loop cfg env obj fuel r).st) ∧ RunInv cfg obj (loop cfg env obj fuel r) ∧
    (loop cfg env obj fuel r).st.evals ≤ max r.st.evals (cfg.maxEvals + 2 * (setSize n - 1)) := by
  intro fuel
  induction fuel with
  | zero => intro r h; exact ⟨⟨0, .refl _⟩, h, le_max_left _ _⟩
  | succ fuel ih =>
    intro r h
    obtain ⟨⟨k, hk, hp⟩, hri⟩ := iter_spec (env := env) h
    have hev : (iter cfg env obj r).1.st.evals ≤ max r.st.evals (cfg.maxEvals + 2 * (setSize n - 1)) := by
      by_cases hlt : r.st.evals ≥ cfg.maxEvals
      · have : iter cfg env obj r = (r, true) := by unfold iter; rw [if_pos (.inl hlt)]
        rw [this]
        exact le_max_left _ _
      · have := (hp.inv h.inv h.old).2.2.2.1
        exact le_max_of_le_right (by omega)
    unfold loop
    split
    · rename_i r' heq
      rw [heq] at hp hri hev
      exact ⟨⟨k, hp⟩, hri, hev⟩
    · rename_i r' heq
      rw [heq] at hp hri hev
      obtain ⟨⟨k', hp'⟩, h1, h2⟩ := ih r' hri
      exact ⟨⟨k + k', hp.trans hp'⟩, h1, h2.trans (max_le hev (le_max_right _ _))⟩

theorem generateSet_cons (cfg : Cfg n) (env : Env n) (s : St n) (num : ℕ) :
    generateSet cfg env s num = s.sOld :: (generateSet cfg env s num).tail := rfl

/-- A run: elementary steps after `_start`, then `_finish`. -/
theorem trustRegion_spec (cfg : Cfg n) (env : Env n) (obj : Pt n → ℝ) (s : St n) (h : Inv cfg obj s) (x0 : Pt n) :
    ∃ st k, trustRegion cfg env obj s x0 = finish cfg st ∧ Prim cfg env obj k (start cfg obj s x0) st ∧
      st.evals ≤ max cfg.maxEvals (s.evals + 2) + 2 * (setSize n - 1) := by
  obtain ⟨h1, h2, h3, h4, h5, -⟩ := start_spec h x0
  have hev1 : (start cfg obj s x0).evals ≤ s.evals + 1 := by
    rw [h1.evals, h5, h.evals]
    split_ifs
    · omega
    · simp
  set s1 := start cfg obj s x0 with hs1
  obtain ⟨m, hm, hp, hev, hset⟩ := evalInitial_spec (env := env) s1 (generateSet cfg env s1 (setSize n)).tail
    ⟨s1, [s1.sOld], [s1.fOld]⟩ 0 (.refl _) (Ext.refl _) h1 h2 ⟨by simp [h2.value], by simpa using h2.mem⟩
    (fun x hx => ⟨_, List.mem_of_mem_tail hx⟩)
  have hlen : (generateSet cfg env s1 (setSize n)).tail.length = setSize n - 1 := by simp [generateSet]
  unfold trustRegion
  rw [← hs1]
  simp only
  split
  · rename_i r heq
    rw [heq] at hp hev
    refine ⟨r.st, m, rfl, hp, ?_⟩
    simp only at hev
    omega
  · rename_i r heq
    rw [heq] at hp hev hset
    obtain ⟨hs, hS⟩ := hset rfl
    obtain ⟨a1, a2, -, -, -⟩ := hp.inv h1 h2
    have hri : RunInv cfg obj r := ⟨a1, a2, hs, by
      simp only at hS
      rw [hS, List.length_append, hlen]
      have := setSize_pos n
      simp only [List.length_singleton]
      omega⟩
    obtain ⟨⟨k, hk⟩, -, h6⟩ := loop_spec (env := env) cfg.itermax r hri
    refine ⟨_, m + k, rfl, hp.trans hk, ?_⟩
    simp only at hev
    omega

theorem finish_fields (cfg : Cfg n) (obj : Pt n → ℝ) (s : St n) (h : Inv cfg obj s) (ho : Old cfg obj s) :
    (finish cfg s).calls = s.S.map (removeScaling cfg) ∧ (finish cfg s).S = s.S.map (removeScaling cfg) ∧
    (finish cfg s).f = (s.S.map (removeScaling cfg)).map obj ∧ (finish cfg s).evals = s.S.length ∧
    (finish cfg s).sOld ∈ s.S.map (removeScaling cfg) ∧ (finish cfg s).fOld = obj (finish cfg s).sOld ∧
    ∀ y ∈ s.S.map (removeScaling cfg), obj (finish cfg s).sOld ≤ obj y := by
  have hf : s.f = (s.S.map (removeScaling cfg)).map obj := by
    rw [h.vals, List.map_map]
    rfl
  set T := s.S.map (removeScaling cfg) with hT
  have hne : s.f ≠ [] := by
    rw [h.vals]
    have := List.ne_nil_of_mem ho.mem
    simpa using this
  obtain ⟨m1, m2⟩ := argmin_spec s.f hne
  have hlen : argmin s.f < T.length := by
    have : s.f.length = T.length := by rw [hf]; simp
    omega
  have e1 : (finish cfg s).sOld = T.getD (argmin s.f) s.sOld := by
    simp [finish, setIterate, hT]
  have e2 : (finish cfg s).fOld = s.f.getD (argmin s.f) s.fOld := by
    simp [finish, setIterate]
  have e3 : (finish cfg s).fOld = obj (finish cfg s).sOld := by
    rw [e1, e2]
    conv_lhs => rw [hf]
    rw [getD_map' obj T _ s.sOld s.fOld (by rw [← hf]; exact hlen), ← hf]
  have e4 : (finish cfg s).fOld = s.f.getD (argmin s.f) 0 := by
    rw [e2, List.getD_eq_getElem?_getD, List.getD_eq_getElem?_getD, List.getElem?_eq_getElem m1]
    rfl
  refine ⟨by simp [finish, setIterate, h.calls, hT], by simp [finish, setIterate, hT],
    by simpa [finish, setIterate] using hf, by simp [finish, setIterate, h.evals], ?_, e3, fun y hy => ?_⟩
  · rw [e1]
    exact getD_mem _ _ _ hlen
  · rw [← e3, e4]
    exact m2 _ (by rw [hf]; exact List.mem_map_of_mem hy)

/-! ## C57: evaluations -/

/-- Scaling is only used with bounds of positive width. -/
def Widths (cfg : Cfg n) : Prop := ∀ l u, cfg.bounds = some (l, u) → cfg.scale = true → ∀ i, l i < u i

/-- The default settings of `optimise` (optimisation.py:272-278, 815-816), in one variable, between the
bounds `-1` and `1`, with initial radius `1`, and one pass of the main loop. -/
noncomputable def cfgDemo : Cfg 1 where
  bounds := some (fun _ => -1, fun _ => 1)
  scale := false
  delInit := some 1
  rhoMin := 1/10^6
  eta1 := 1/10
  eta2 := 7/10
  gamDec := 1/2
  gamInc := 2
  gamIncBar := 5/2
  alpha1 := 1/10
  alpha2 := 1/2
  omegaS := 1/2
  maxEvals := 10000
  random := false
  itermax := 1
  eps1 := 2
  eps2 := 10
  basis := fun k _ => k

/-- Searches that propose the point `1/2`, or the nearest one between the bounds. -/
noncomputable def envDemo : Env 1 where
  build := fun s _ _ => some ⟨0, fun i => min (max (s.lo i) (1/2)) (s.hi i), -1⟩
  newPoint := fun _ _ _ => none
  randDirs := fun _ _ _ _ => 0
  argsort := fun l => List.range l.length

theorem envDemo_ok : EnvOK envDemo where
  build := by
    intro s S f m h hm i
    simp only [envDemo, Option.some.injEq] at hm
    subst hm
    exact ⟨le_min (le_max_left _ _) ((h i).1.trans (h i).2), min_le_right _ _⟩
  newPoint := by
    intro s φ v x h hv
    simp [envDemo] at hv

theorem cfgDemo_widths : Widths cfgDemo := fun l u _ hs => by simp [cfgDemo] at hs

/-- The object after the initial sample set of `x ↦ x²` from `0` with the settings above. -/
noncomputable def stDemo : St 1 where
  S := [fun _ => 0, fun _ => 1, fun _ => -1]
  f := [0, 1, 1]
  evals := 3
  sOld := fun _ => 0
  fOld := 0
  del := 1
  rho := 1
  count := 0
  ratio := 0
  lo := fun _ => -1
  hi := fun _ => 1
  calls := [fun _ => 0, fun _ => 1, fun _ => -1]

/-- The same with the sample set. -/
noncomputable def runDemo : Run 1 := ⟨stDemo, [fun _ => 0, fun _ => 1, fun _ => -1], [0, 1, 1]⟩

theorem runDemo_inv : RunInv cfgDemo (objective false fun x => x 0 ^ 2) runDemo := by
  have hrm : ∀ x, removeScaling cfgDemo x = x := fun x => by simp [removeScaling, cfgDemo]
  have hne : ∀ a b : ℝ, a ≠ b → (fun _ : Fin 1 => a) ≠ fun _ => b := fun a b h e => h (congrFun e 0)
  refine ⟨⟨?_, ?_, rfl, ?_⟩, ⟨by simp [runDemo, stDemo], ?_⟩, ⟨?_, ?_⟩, rfl⟩
  · simp [runDemo, stDemo, val, hrm, objective]
  · have h1 := hne 0 1 (by norm_num)
    have h2 := hne 0 (-1) (by norm_num)
    have h3 := hne 1 (-1) (by norm_num)
    simp [runDemo, stDemo, h1, h2, h3]
  · simp [runDemo, stDemo, hrm]
  · simp [runDemo, stDemo, val, hrm, objective]
  · simp [runDemo, val, hrm, objective]
  · simp [runDemo, stDemo]

theorem removeScaling_injective {cfg : Cfg n} (hw : Widths cfg) : Function.Injective (removeScaling cfg) := by
  intro x y h
  unfold removeScaling at h
  split at h
  · rename_i l u hb
    split_ifs at h with hs
    · funext i
      have h1 : l i + x i * (u i - l i) = l i + y i * (u i - l i) := congrFun h i
      have h2 := hw l u hb hs i
      have h3 : x i * (u i - l i) = y i * (u i - l i) := by linarith
      exact mul_right_cancel₀ (by linarith : u i - l i ≠ 0) h3
    · exact h
  · exact h

/-- C59, scaling: applying and removing the scaling are inverse to each other. -/
theorem c59_scaling (cfg : Cfg n) (hw : Widths cfg) (x : Pt n) :
    removeScaling cfg (applyScaling cfg x) = x ∧ applyScaling cfg (removeScaling cfg x) = x := by
  unfold removeScaling applyScaling
  rcases hb : cfg.bounds with _ | ⟨l, u⟩
  · exact ⟨rfl, rfl⟩
  · rcases hs : cfg.scale with _ | _
    · exact ⟨rfl, rfl⟩
    · constructor <;> funext i
      · have h2 := hw l u hb hs i
        have h3 : u i - l i ≠ 0 := by linarith
        simp only [if_true]
        rw [div_mul_cancel₀ _ h3]
        ring
      · have h2 := hw l u hb hs i
        have h3 : u i - l i ≠ 0 := by linarith
        simp only [if_true]
        rw [add_sub_cancel_left, mul_div_assoc, div_self h3, mul_one]

example : Widths cfgDemo ∧ Widths { cfgDemo with scale := true } :=
  ⟨cfgDemo_widths, fun l u h _ i => by simp [cfgDemo] at h; rw [← h.1, ← h.2]; norm_num⟩

theorem inv_init (cfg : Cfg n) (obj : Pt n → ℝ) : Inv cfg obj (St.init n) :=
  ⟨rfl, List.nodup_nil, rfl, rfl⟩

/-- C57. For every objective, every setting, every outcome of the outside searches, every starting point,
and from a new object (or one whose stored evaluations are in order, see `c91_repeat_partial`):
`optimise` calls the function at most once at every point; the stored points are exactly the points of
these calls in order; the stored values are the values there; the number reported is the number of
calls. -/
theorem c57_evaluations (cfg : Cfg n) (hw : Widths cfg) (env : Env n) (maximise : Bool) (f : Pt n → ℝ)
    (s : St n) (h : Inv cfg (objective maximise f) s) (x0 : Pt n) :
    (optimise cfg env maximise f s x0).1.calls.Nodup ∧
    (optimise cfg env maximise f s x0).1.S = (optimise cfg env maximise f s x0).1.calls ∧
    (optimise cfg env maximise f s x0).1.f =
      (optimise cfg env maximise f s x0).1.calls.map (objective maximise f) ∧
    (optimise cfg env maximise f s x0).2.nfev = (optimise cfg env maximise f s x0).1.calls.length ∧
    s.calls <+: (optimise cfg env maximise f s x0).1.calls ∧
    x0 ∈ (optimise cfg env maximise f s x0).1.calls := by
  obtain ⟨h1, h2, h3, h4, h5, -⟩ := start_spec h x0
  obtain ⟨st, k, he, hp, -⟩ := trustRegion_spec cfg env (objective maximise f) s h x0
  obtain ⟨a1, a2, a3, -, -⟩ := hp.inv h1 h2
  obtain ⟨b1, b2, b3, b4, -, -, -⟩ := finish_fields cfg _ st a1 a2
  unfold optimise
  simp only [he]
  refine ⟨?_, by rw [b1, b2], by rw [b1, b3], by rw [b1, b4]; simp, ?_, ?_⟩
  · rw [b1]
    exact a1.nodup.map (removeScaling_injective hw)
  · rw [b1, h.calls]
    exact (h4.trans a3).map _
  · rw [b1]
    refine List.mem_map.2 ⟨applyScaling cfg x0, a3.subset ?_, (c59_scaling cfg hw x0).1⟩
    rw [← h3]
    exact h2.mem

example : x ∈ (optimise cfgDemo envDemo false (fun x => x 0 ^ 2) (St.init 1) x).1.calls :=
  (c57_evaluations cfgDemo cfgDemo_widths envDemo false _ _ (inv_init _ _) x).2.2.2.2.2

/-! ## C58, C62: the result -/

/-- C58, C62. The point returned is one of the points of the calls, the value returned is the user's
function there (not its negative), and it is smallest (largest, if maximising) among all calls; in
particular it is at least as good as the starting point. -/
theorem c58_result (cfg : Cfg n) (hw : Widths cfg) (env : Env n) (maximise : Bool) (f : Pt n → ℝ)
    (s : St n) (h : Inv cfg (objective maximise f) s) (x0 : Pt n) :
    (optimise cfg env maximise f s x0).2.x ∈ (optimise cfg env maximise f s x0).1.calls ∧
    (optimise cfg env maximise f s x0).2.fn = f (optimise cfg env maximise f s x0).2.x ∧
    (maximise = false → ∀ y ∈ (optimise cfg env maximise f s x0).1.calls,
      (optimise cfg env maximise f s x0).2.fn ≤ f y) ∧
    (maximise = true → ∀ y ∈ (optimise cfg env maximise f s x0).1.calls,
      f y ≤ (optimise cfg env maximise f s x0).2.fn) ∧
    x0 ∈ (optimise cfg env maximise f s x0).1.calls := by
  refine ⟨?_, ?_, ?_, ?_, (c57_evaluations cfg hw env maximise f s h x0).2.2.2.2.2⟩ <;>
  obtain ⟨h1, h2, h3, h4, h5, -⟩ := start_spec h x0 <;>
  obtain ⟨st, k, he, hp, -⟩ := trustRegion_spec cfg env (objective maximise f) s h x0 <;>
  obtain ⟨a1, a2, a3, -, -⟩ := hp.inv h1 h2 <;>
  obtain ⟨b1, b2, b3, b4, b5, b6, b7⟩ := finish_fields cfg _ st a1 a2 <;>
  unfold optimise <;>
  simp only [he]
  · rw [b1]; exact b5
  · rw [b6]
    unfold objective
    cases maximise <;> simp
  · rintro rfl y hy
    rw [b1] at hy
    have := b7 y hy
    rw [b6]
    simpa [objective] using this
  · rintro rfl y hy
    rw [b1] at hy
    have := b7 y hy
    rw [b6]
    simpa [objective] using this

example : (optimise cfgDemo envDemo false (fun x => x 0 ^ 2) (St.init 1) fun _ => 1/3).2.fn =
    (optimise cfgDemo envDemo false (fun x => x 0 ^ 2) (St.init 1) fun _ => 1/3).2.x 0 ^ 2 :=
  (c58_result cfgDemo cfgDemo_widths envDemo false _ _ (inv_init _ _) _).2.1

/-- C58. The incumbent value never grows: neither in a pass of the main loop nor over the whole loop. -/
theorem c58_monotone (cfg : Cfg n) (env : Env n) (obj : Pt n → ℝ) (r : Run n) (h : RunInv cfg obj r) :
    (iter cfg env obj r).1.st.fOld ≤ r.st.fOld ∧
    ∀ fuel, (loop cfg env obj fuel r).st.fOld ≤ r.st.fOld := by
  obtain ⟨⟨k, hk, hp⟩, hri⟩ := iter_spec (env := env) h
  refine ⟨(hp.inv h.inv h.old).2.2.2.2, fun fuel => ?_⟩
  obtain ⟨⟨k', hp'⟩, -, -⟩ := loop_spec (env := env) fuel r h
  exact (hp'.inv h.inv h.old).2.2.2.2

example : (iter cfgDemo envDemo (objective false fun x => x 0 ^ 2) runDemo).1.st.fOld ≤ 0 :=
  (c58_monotone cfgDemo envDemo _ runDemo runDemo_inv).1

/-- C62. Maximising `f` is minimising `-f`: the same calls, the same points, the value negated. -/
theorem c62_maximise (cfg : Cfg n) (env : Env n) (f : Pt n → ℝ) (s : St n) (x0 : Pt n) :
    (optimise cfg env true f s x0).1 = (optimise cfg env false (fun x => -f x) s x0).1 ∧
    (optimise cfg env true f s x0).2.x = (optimise cfg env false (fun x => -f x) s x0).2.x ∧
    (optimise cfg env true f s x0).2.nfev = (optimise cfg env false (fun x => -f x) s x0).2.nfev ∧
    (optimise cfg env true f s x0).2.fn = -(optimise cfg env false (fun x => -f x) s x0).2.fn := by
  have : objective true f = objective false (fun x => -f x) := by
    funext x; simp [objective]
  unfold optimise
  simp [this]

/-! ## C59: bounds -/

/-- The points allowed, in the coordinates of the run. -/
def Box (cfg : Cfg n) (x : Pt n) : Prop :=
  match cfg.bounds with
  | none => True
  | some (l, u) => if cfg.scale then ∀ i, 0 ≤ x i ∧ x i ≤ 1 else ∀ i, l i ≤ x i ∧ x i ≤ u i

/-- Signs of the settings. -/
structure Signs (cfg : Cfg n) : Prop where
  alpha1 : 0 ≤ cfg.alpha1
  alpha2 : 0 ≤ cfg.alpha2
  gamIncBar : 0 ≤ cfg.gamIncBar
  rhoMin : 0 ≤ cfg.rhoMin
  del : ∀ v, cfg.delInit = some v → 0 ≤ v

theorem cfgDemo_signs : Signs cfgDemo where
  alpha1 := by simp [cfgDemo]
  alpha2 := by simp [cfgDemo]
  gamIncBar := by norm_num [cfgDemo]
  rhoMin := by simp [cfgDemo]
  del := by intro v hv; simp [cfgDemo] at hv; rw [← hv]; norm_num

/-- The state with respect to the bounds. -/
structure BoxInv (cfg : Cfg n) (s : St n) : Prop where
  pts : ∀ x ∈ s.S, Box cfg x
  sOld : Box cfg s.sOld
  within : Within s s.sOld
  box : ∀ x, Within s x → Box cfg x
  del : 0 ≤ s.del
  rho : 0 ≤ s.rho

theorem updateBounds_box {cfg : Cfg n} {s : St n} (h : Box cfg s.sOld) (hd : 0 ≤ s.del) :
    Within (updateBounds cfg s) s.sOld ∧ ∀ x, Within (updateBounds cfg s) x → Box cfg x := by
  unfold updateBounds Box Within
  unfold Box at h
  rcases hb : cfg.bounds with _ | ⟨l, u⟩
  · exact ⟨fun i => ⟨by simp only; linarith, by simp only; linarith⟩, fun x hx => trivial⟩
  · simp only [hb] at h ⊢
    rcases hs : cfg.scale with _ | _
    · simp only [hs, Bool.false_eq_true, if_false] at h ⊢
      refine ⟨fun i => ⟨max_le (h i).1 (by linarith), le_min (h i).2 (by linarith)⟩, fun x hx i => ?_⟩
      exact ⟨(le_max_left _ _).trans (hx i).1, (hx i).2.trans (min_le_left _ _)⟩
    · simp only [hs, if_true] at h ⊢
      refine ⟨fun i => ⟨max_le (h i).1 (by linarith), le_min (h i).2 (by linarith)⟩, fun x hx i => ?_⟩
      exact ⟨(le_max_left _ _).trans (hx i).1, (hx i).2.trans (min_le_left _ _)⟩

theorem Justified.box {cfg : Cfg n} {env : Env n} (ok : EnvOK env) {s : St n} (h : BoxInv cfg s) {x : Pt n}
    (hj : Justified cfg env s x) : Box cfg x := by
  apply h.box
  rcases hj with ⟨S, f, m, hm, rfl⟩ | ⟨φ, v, hv⟩ | ⟨num, s0, he, hx⟩
  · exact ok.build _ _ _ _ h.within hm
  · exact ok.newPoint _ _ _ _ h.within hv
  · have hw : Within s0 s0.sOld := by
      have := h.within
      unfold Within at this ⊢
      rw [he.lo, he.hi, he.sOld] at this
      exact this
    have := generateSet_within hw num x hx
    unfold Within at this ⊢
    rw [he.lo, he.hi]
    exact this

theorem reduceRho_nonneg {cfg : Cfg n} (sg : Signs cfg) {rho : ℝ} (h : 0 ≤ rho) : 0 ≤ reduceRho cfg rho := by
  unfold reduceRho
  split_ifs
  · exact mul_nonneg sg.alpha1 h
  · exact Real.sqrt_nonneg _
  · exact sg.rhoMin

theorem Prim.box {cfg : Cfg n} {env : Env n} {obj : Pt n → ℝ} (ok : EnvOK env) (sg : Signs cfg) {k : ℕ}
    {a b : St n} (h : Prim cfg env obj k a b) (hi : Inv cfg obj a) (ho : Old cfg obj a) (hb : BoxInv cfg a) :
    BoxInv cfg b := by
  induction h with
  | refl => exact hb
  | eval x hp hj ih =>
    have hb' := ih hi ho hb
    obtain ⟨h1, h2, -, -, -⟩ := hp.inv hi ho
    obtain ⟨-, a2, -, -, a5⟩ := blackbox_spec h1 x
    refine ⟨fun y hy => ?_, by rw [a2.sOld]; exact hb'.sOld, ?_, ?_, by rw [a2.del]; exact hb'.del,
      by rw [a2.rho]; exact hb'.rho⟩
    · rw [a5] at hy
      split_ifs at hy
      · exact hb'.pts y hy
      · rcases List.mem_append.1 hy with hy | hy
        · exact hb'.pts y hy
        · simp at hy; rw [hy]; exact hj.box ok hb'
    · have := hb'.within
      unfold Within at this ⊢
      rw [a2.lo, a2.hi, a2.sOld]; exact this
    · intro y hy
      apply hb'.box
      unfold Within at hy ⊢
      rw [a2.lo, a2.hi] at hy; exact hy
  | @del _ _ s' v hp hv ih =>
    have hb' := ih hi ho hb
    have hv0 : 0 ≤ v := by
      rcases hv with hv | rfl | ⟨d, hd, rfl⟩
      · exact hb'.rho.trans hv
      · exact mul_nonneg sg.alpha2 hb'.rho
      · exact le_max_of_le_right (mul_nonneg sg.gamIncBar hd)
    have := updateBounds_box (cfg := cfg) (s := { s' with del := v }) hb'.sOld hv0
    exact ⟨by simpa [setDel] using hb'.pts, by simpa [setDel] using hb'.sOld, by simpa [setDel] using this.1,
      this.2, by simpa [setDel] using hv0, by simpa [setDel] using hb'.rho⟩
  | @iterate k s s' hp ih =>
    have hb' := ih hi ho hb
    obtain ⟨h1, h2, -, -, -⟩ := hp.inv hi ho
    obtain ⟨h6, -⟩ := setIterate_old h1 (List.ne_nil_of_mem h2.mem)
    have hmem : (setIterate cfg s').sOld ∈ s'.S := by simpa [setIterate] using h6.mem
    have hbox := hb'.pts _ hmem
    have e : (setIterate cfg s').sOld = s'.S.getD (argmin s'.f) s'.sOld := by simp [setIterate]
    have := updateBounds_box (cfg := cfg) (s := { s' with
      sOld := s'.S.getD (argmin s'.f) s'.sOld
      fOld := s'.f.getD (argmin s'.f) s'.fOld }) (by rw [← e]; exact hbox) hb'.del
    exact ⟨by simpa [setIterate] using hb'.pts, hbox, by rw [e]; exact this.1, this.2,
      by simpa [setIterate] using hb'.del, by simpa [setIterate] using hb'.rho⟩
  | marks c r hp ih =>
    have hb' := ih hi ho hb
    exact ⟨hb'.pts, hb'.sOld, hb'.within, hb'.box, hb'.del, hb'.rho⟩
  | rho hp hr ih =>
    have hb' := ih hi ho hb
    exact ⟨hb'.pts, hb'.sOld, hb'.within, hb'.box, hb'.del, reduceRho_nonneg sg hb'.rho⟩

theorem initRadius_nonneg {cfg : Cfg n} (sg : Signs cfg) (x : Pt n) : 0 ≤ initRadius cfg x := by
  unfold initRadius
  split
  · rename_i v hv; exact sg.del v hv
  · split
    · exact le_max_of_le_right zero_le_one
    · split_ifs
      · norm_num
      · exact le_min (mul_nonneg (by norm_num) (normInf_nonneg _)) zero_le_one

theorem start_box {cfg : Cfg n} {obj : Pt n → ℝ} (sg : Signs cfg) {s : St n} (hi : Inv cfg obj s)
    (hs : ∀ x ∈ s.S, Box cfg x) {x0 : Pt n} (hx : Box cfg (applyScaling cfg x0)) :
    BoxInv cfg (start cfg obj s x0) := by
  obtain ⟨h1, h2, h3, h4, h5, h6⟩ := start_spec hi x0
  have hd : 0 ≤ (start cfg obj s x0).del := by
    unfold start
    simp only [setDel, updateBounds_del]
    exact initRadius_nonneg sg _
  have hpts : ∀ x ∈ (start cfg obj s x0).S, Box cfg x := by
    intro x hx'
    rw [h5] at hx'
    split_ifs at hx'
    · exact hs x hx'
    · rcases List.mem_append.1 hx' with h | h
      · exact hs x h
      · simp at h; rw [h]; exact hx
  have hw : Within (start cfg obj s x0) (start cfg obj s x0).sOld ∧
      ∀ x, Within (start cfg obj s x0) x → Box cfg x := by
    obtain ⟨a1, a2, a3, a4, a5⟩ := blackbox_spec (hi.sOld (applyScaling cfg x0)) (applyScaling cfg x0)
    obtain ⟨c1, c2⟩ := updateBounds_box (cfg := cfg)
      (s := { (blackbox cfg obj { s with sOld := applyScaling cfg x0 } (applyScaling cfg x0)).1 with
        fOld := (blackbox cfg obj { s with sOld := applyScaling cfg x0 } (applyScaling cfg x0)).2
        del := initRadius cfg (blackbox cfg obj { s with sOld := applyScaling cfg x0 }
          (applyScaling cfg x0)).1.sOld })
      (by simp only; rw [a2.sOld]; exact hx) (initRadius_nonneg sg _)
    unfold start
    simp only [setDel]
    refine ⟨?_, fun x hx' => c2 x hx'⟩
    rw [updateBounds_sOld]
    exact c1
  exact ⟨hpts, by rw [h3]; exact hx, hw.1, hw.2, hd, by rw [h6]; exact hd⟩

/-- C59. For every objective, every non-negative setting, every outcome of the outside searches that
respects the bounds they are given, every random direction and every starting point inside the bounds:
all the points at which the user's function is called, and the point returned, are inside the bounds. -/
theorem c59_bounds (cfg : Cfg n) (hw : Widths cfg) (sg : Signs cfg) (env : Env n) (ok : EnvOK env)
    (maximise : Bool) (f : Pt n → ℝ) (x0 l u : Pt n) (hb : cfg.bounds = some (l, u))
    (hx : ∀ i, l i ≤ x0 i ∧ x0 i ≤ u i) :
    (∀ y ∈ (optimise cfg env maximise f (St.init n) x0).1.calls, ∀ i, l i ≤ y i ∧ y i ≤ u i) ∧
    ∀ i, l i ≤ (optimise cfg env maximise f (St.init n) x0).2.x i ∧
      (optimise cfg env maximise f (St.init n) x0).2.x i ≤ u i := by
  have h := inv_init cfg (objective maximise f)
  have hx0 : Box cfg (applyScaling cfg x0) := by
    unfold Box applyScaling
    simp only [hb]
    split_ifs with hs
    · intro i
      have := hw l u hb hs i
      obtain ⟨a, b⟩ := hx i
      exact ⟨div_nonneg (by linarith) (by linarith), by rw [div_le_one (by linarith)]; linarith⟩
    · exact hx
  obtain ⟨h1, h2, -, -, -, -⟩ := start_spec h x0
  obtain ⟨st, k, he, hp, -⟩ := trustRegion_spec cfg env (objective maximise f) _ h x0
  have hbox := hp.box ok sg h1 h2 (start_box sg h (by simp [St.init]) hx0)
  obtain ⟨a1, a2, -, -, -⟩ := hp.inv h1 h2
  obtain ⟨b1, -, -, -, -, -, -⟩ := finish_fields cfg _ st a1 a2
  have hcalls : ∀ y ∈ (optimise cfg env maximise f (St.init n) x0).1.calls, ∀ i, l i ≤ y i ∧ y i ≤ u i := by
    intro y hy
    unfold optimise at hy
    simp only [he, b1] at hy
    obtain ⟨x, hx', rfl⟩ := List.mem_map.1 hy
    have hbx := hbox.pts x hx'
    unfold Box at hbx
    unfold removeScaling
    simp only [hb] at hbx ⊢
    split_ifs with hs
    · rw [if_pos hs] at hbx
      intro i
      have h3 := hw l u hb hs i
      obtain ⟨h4, h5⟩ := hbx i
      constructor
      · simp only
        nlinarith
      · simp only
        nlinarith
    · rw [if_neg hs] at hbx
      exact hbx
  exact ⟨hcalls, hcalls _ (c58_result cfg hw env maximise f _ h x0).1⟩

example : ∀ y ∈ (optimise cfgDemo envDemo true (fun x => x 0) (St.init 1) fun _ => 1/2).1.calls,
    ∀ i, -1 ≤ y i ∧ y i ≤ 1 :=
  (c59_bounds cfgDemo cfgDemo_widths cfgDemo_signs envDemo envDemo_ok true _ _ (fun _ => -1) (fun _ => 1) rfl
    (fun _ => ⟨by norm_num, by norm_num⟩)).1

/-- C59: the directions scaled by `_get_scale` stay between the limits, and the scale is at most the
radius, for every direction and every limits around zero. -/
theorem c59_get_scale (dirn lower upper : Pt n) (delta : ℝ) (hd : 0 ≤ delta)
    (hl : ∀ i, lower i ≤ 0 ∧ 0 ≤ upper i) :
    0 ≤ getScale dirn delta lower upper ∧ getScale dirn delta lower upper ≤ delta ∧
    (∀ i, lower i ≤ getScale dirn delta lower upper * dirn i ∧
      getScale dirn delta lower upper * dirn i ≤ upper i) ∧
    ∀ c, 0 ≤ c → c ≤ delta → (∀ i, lower i ≤ c * dirn i ∧ c * dirn i ≤ upper i) →
      c ≤ getScale dirn delta lower upper := by
  have key : ∀ (js : List (Fin n)) (d : ℝ), 0 ≤ d → d ≤ delta →
      (∀ c, 0 ≤ c → c ≤ delta → (∀ i, lower i ≤ c * dirn i ∧ c * dirn i ≤ upper i) → c ≤ d) →
      0 ≤ js.foldl (fun sc j => if dirn j < 0 then min sc (lower j / dirn j)
        else if dirn j > 0 then min sc (upper j / dirn j) else sc) d ∧
      js.foldl (fun sc j => if dirn j < 0 then min sc (lower j / dirn j)
        else if dirn j > 0 then min sc (upper j / dirn j) else sc) d ≤ d ∧
      (∀ i ∈ js, lower i ≤ js.foldl (fun sc j => if dirn j < 0 then min sc (lower j / dirn j)
        else if dirn j > 0 then min sc (upper j / dirn j) else sc) d * dirn i ∧
        js.foldl (fun sc j => if dirn j < 0 then min sc (lower j / dirn j)
        else if dirn j > 0 then min sc (upper j / dirn j) else sc) d * dirn i ≤ upper i) ∧
      ∀ c, 0 ≤ c → c ≤ delta → (∀ i, lower i ≤ c * dirn i ∧ c * dirn i ≤ upper i) →
        c ≤ js.foldl (fun sc j => if dirn j < 0 then min sc (lower j / dirn j)
        else if dirn j > 0 then min sc (upper j / dirn j) else sc) d := by
    intro js
    induction js with
    | nil => intro d h0 h1 h2; exact ⟨h0, le_refl _, by simp, h2⟩
    | cons j js ih =>
      intro d h0 h1 h2
      rw [List.foldl_cons]
      obtain ⟨hlj, huj⟩ := hl j
      set d' := (if dirn j < 0 then min d (lower j / dirn j)
        else if dirn j > 0 then min d (upper j / dirn j) else d) with hd'
      have hd0 : 0 ≤ d' := by
        rw [hd']
        split_ifs with a b
        · exact le_min h0 (div_nonneg_of_nonpos hlj a.le)
        · exact le_min h0 (div_nonneg huj b.le)
        · exact h0
      have hdd : d' ≤ d := by
        rw [hd']
        split_ifs <;> simp
      have hmax : ∀ c, 0 ≤ c → c ≤ delta → (∀ i, lower i ≤ c * dirn i ∧ c * dirn i ≤ upper i) → c ≤ d' := by
        intro c c0 c1 c2
        rw [hd']
        split_ifs with a b
        · exact le_min (h2 c c0 c1 c2) (by rw [le_div_iff_of_neg a]; exact (c2 j).1)
        · exact le_min (h2 c c0 c1 c2) (by rw [le_div_iff₀ b]; exact (c2 j).2)
        · exact h2 c c0 c1 c2
      obtain ⟨i1, i2, i3, i4⟩ := ih d' hd0 (hdd.trans h1) hmax
      refine ⟨i1, i2.trans hdd, fun i hi => ?_, i4⟩
      rcases List.mem_cons.1 hi with rfl | hi
      · have hle := i2
        rcases lt_trichotomy (dirn i) 0 with a | a | a
        · have h3 : d' ≤ lower i / dirn i := by rw [hd', if_pos a]; exact min_le_right _ _
          have h4 := i2.trans h3
          rw [le_div_iff_of_neg a] at h4
          exact ⟨h4, (mul_nonpos_of_nonneg_of_nonpos i1 a.le).trans huj⟩
        · rw [a]; simp [hlj, huj]
        · have h3 : d' ≤ upper i / dirn i := by
            rw [hd', if_neg (not_lt.2 a.le), if_pos a]; exact min_le_right _ _
          have h4 := i2.trans h3
          rw [le_div_iff₀ a] at h4
          exact ⟨hlj.trans (mul_nonneg i1 a.le), h4⟩
      · exact i3 i hi
  obtain ⟨k1, k2, k3, k4⟩ := key (List.finRange n) delta hd (le_refl _) (fun c _ h _ => h)
  exact ⟨k1, k2, fun i => k3 i (List.mem_finRange i), k4⟩

/-! ## C61: the budget -/

/-- C61, the part that holds: for every run from a new object the number of evaluations exceeds
`max_evals` (or 2, if that is more) by at most `(n + 1)(n + 2) - 2`.
Missing: that it does not exceed `max_evals` (`c61_budget_violated`). -/
theorem c61_budget_partial (cfg : Cfg n) (env : Env n) (maximise : Bool) (f : Pt n → ℝ)
    (x0 : Pt n) :
    (optimise cfg env maximise f (St.init n) x0).1.calls.length ≤
      max cfg.maxEvals 2 + 2 * ((n + 1) * (n + 2) / 2 - 1) := by
  have h := inv_init cfg (objective maximise f)
  obtain ⟨h1, h2, -, -, -, -⟩ := start_spec h x0
  obtain ⟨st, k, he, hp, hev⟩ := trustRegion_spec cfg env (objective maximise f) _ h x0
  obtain ⟨a1, a2, -, -, -⟩ := hp.inv h1 h2
  obtain ⟨b1, -, -, b4, -, -, -⟩ := finish_fields cfg _ st a1 a2
  unfold optimise
  simp only [he, b1, List.length_map]
  rw [a1.evals] at hev
  exact hev

/-! ## C92: sample sets -/

/-- C92. In every pass of the main loop the sample set from which the model is built has exactly
`(n + 1)(n + 2) / 2` points, all of them evaluated before, each paired with the value of the objective;
a set made by `replace` or `improve` starts with the incumbent. -/
theorem c92_sample_set (cfg : Cfg n) (env : Env n) (obj : Pt n → ℝ) (r : Run n) (h : RunInv cfg obj r) :
    (∀ fuel, (loop cfg env obj fuel r).S.length = (n + 1) * (n + 2) / 2 ∧
      (loop cfg env obj fuel r).f = (loop cfg env obj fuel r).S.map (fun x => obj (removeScaling cfg x)) ∧
      ∀ x ∈ (loop cfg env obj fuel r).S, x ∈ (loop cfg env obj fuel r).st.S) ∧
    (improveSet cfg env obj r).S.head? = some r.st.sOld ∧
    ∀ x ∈ r.st.S, (replaceSet cfg env obj r x (obj (removeScaling cfg x))).S.head? = some r.st.sOld := by
  refine ⟨fun fuel => ?_, (improveSet_spec h).2.2.1, fun x hx => (replaceSet_spec h hx rfl).2.2.1⟩
  obtain ⟨-, h1, -⟩ := loop_spec (env := env) fuel r h
  exact ⟨h1.len, h1.set.vals, h1.set.mem⟩

example : (loop cfgDemo envDemo (objective false fun x => x 0 ^ 2) 7 runDemo).S.length = 3 :=
  ((c92_sample_set cfgDemo envDemo _ runDemo runDemo_inv).1 7).1

end EQ.Opt
