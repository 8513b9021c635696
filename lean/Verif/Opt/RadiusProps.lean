import Verif.Opt.Props

/-!
# The trust-region method: radii (C60), budget (C61), repeated runs (C91)
-/

namespace EQ.Opt
open EQ.Basis

variable {n : ℕ}

/-! ## C60: the resolution -/

/-- Settings with the usual order (the defaults `alpha_1 = 0.1`, `alpha_2 = 0.5`, `gam_inc = 2`,
`rho_min = 1e-8` are an instance). -/
structure Sane (cfg : Cfg n) : Prop where
  rhoMin : 0 < cfg.rhoMin
  alpha1 : cfg.alpha1 < 1
  alpha1' : 1 ≤ 250 * cfg.alpha1
  alpha2 : 0 ≤ cfg.alpha2
  alpha2' : cfg.alpha2 ≤ 1
  gamInc : 1 ≤ cfg.gamInc

theorem cfgDemo_sane : Sane cfgDemo := by
  constructor <;> norm_num [cfgDemo]

theorem reduceRho_bounds {cfg : Cfg n} (h : Sane cfg) {rho : ℝ} (hr : cfg.rhoMin < rho) :
    cfg.rhoMin ≤ reduceRho cfg rho ∧ reduceRho cfg rho < rho := by
  have h0 := h.rhoMin
  have h1 := h.alpha1
  have h2 := h.alpha1'
  have hr0 : 0 < rho := h0.trans hr
  unfold reduceRho
  split_ifs with c1 c2
  · constructor
    · nlinarith
    · nlinarith
  · constructor
    · apply Real.le_sqrt_of_sq_le
      nlinarith
    · rw [Real.sqrt_lt' hr0]
      nlinarith
  · exact ⟨le_refl _, hr⟩

/-- The reduction halves (in logarithm) the distance to `16 rhoMin`, or multiplies by `alpha1`. -/
theorem reduceRho_cases {cfg : Cfg n} (h : Sane cfg) {rho : ℝ} (hr : cfg.rhoMin ≤ rho) :
    reduceRho cfg rho = cfg.rhoMin ∨ reduceRho cfg rho ≤ max cfg.alpha1 (1/4) * rho := by
  have h0 := h.rhoMin
  have hr0 : 0 < rho := h0.trans_le hr
  unfold reduceRho
  split_ifs with c1 c2
  · exact .inr (mul_le_mul_of_nonneg_right (le_max_left _ _) hr0.le)
  · right
    refine le_trans ?_ (mul_le_mul_of_nonneg_right (le_max_right _ _) hr0.le)
    rw [Real.sqrt_le_left (by positivity)]
    nlinarith [c2.1]
  · exact .inl rfl

theorem reduceRho_min {cfg : Cfg n} (h : Sane cfg) : reduceRho cfg cfg.rhoMin = cfg.rhoMin := by
  have h0 := h.rhoMin
  unfold reduceRho
  rw [if_neg (by push Not; linarith), if_neg (by push Not; intro; linarith)]

theorem reduceRho_ge {cfg : Cfg n} (h : Sane cfg) {rho : ℝ} (hr : cfg.rhoMin ≤ rho) :
    cfg.rhoMin ≤ reduceRho cfg rho := by
  rcases hr.lt_or_eq with h1 | h1
  · exact (reduceRho_bounds h h1).1
  · rw [← h1, reduceRho_min h]

theorem reduceRho_le {cfg : Cfg n} (h : Sane cfg) {rho : ℝ} (hr : cfg.rhoMin ≤ rho) :
    reduceRho cfg rho ≤ rho := by
  rcases hr.lt_or_eq with h1 | h1
  · exact (reduceRho_bounds h h1).2.le
  · rw [← h1, reduceRho_min h]

/-- C60: after finitely many reductions the resolution is `rho_min`, whatever it was. -/
theorem c60_reductions_finite (cfg : Cfg n) (h : Sane cfg) (rho : ℝ) (hr : cfg.rhoMin ≤ rho) :
    ∃ N, ∀ m ≥ N, (reduceRho cfg)^[m] rho = cfg.rhoMin := by
  have h0 := h.rhoMin
  set c := max cfg.alpha1 (1/4) with hc
  have c0 : 0 < c := lt_of_lt_of_le (by norm_num) (le_max_right _ _)
  have c1 : c < 1 := max_lt h.alpha1 (by norm_num)
  have key : ∀ m, cfg.rhoMin ≤ (reduceRho cfg)^[m] rho ∧
      ((reduceRho cfg)^[m] rho = cfg.rhoMin ∨ (reduceRho cfg)^[m] rho ≤ c ^ m * rho) := by
    intro m
    induction m with
    | zero => simpa using hr
    | succ m ih =>
      obtain ⟨i1, i2⟩ := ih
      rw [Function.iterate_succ_apply']
      refine ⟨reduceRho_ge h i1, ?_⟩
      rcases i2 with i2 | i2
      · left; rw [i2, reduceRho_min h]
      · rcases reduceRho_cases h i1 with h2 | h2
        · exact .inl h2
        · right
          refine h2.trans ?_
          rw [pow_succ]
          have := mul_le_mul_of_nonneg_left i2 c0.le
          nlinarith
  obtain ⟨N, hN⟩ := exists_pow_lt_of_lt_one (show 0 < cfg.rhoMin / rho from div_pos h0 (h0.trans_le hr)) c1
  refine ⟨N, fun m hm => ?_⟩
  obtain ⟨k1, k2⟩ := key m
  rcases k2 with k2 | k2
  · exact k2
  · exfalso
    have h3 : c ^ m ≤ c ^ N := pow_le_pow_of_le_one c0.le c1.le hm
    rw [lt_div_iff₀ (h0.trans_le hr)] at hN
    have h4 : c ^ m * rho ≤ c ^ N * rho := mul_le_mul_of_nonneg_right h3 (h0.trans_le hr).le
    linarith

example : ∃ N, ∀ m ≥ N, (reduceRho cfgDemo)^[m] 1 = 1/10^6 :=
  c60_reductions_finite cfgDemo cfgDemo_sane 1 (by norm_num [cfgDemo])

/-- The state with respect to the radii. -/
structure RadInv (cfg : Cfg n) (s : St n) : Prop where
  rho : cfg.rhoMin ≤ s.rho
  del : cfg.alpha2 * s.rho ≤ s.del

theorem Prim.rad {cfg : Cfg n} {env : Env n} {obj : Pt n → ℝ} (sn : Sane cfg) {k : ℕ}
    {a b : St n} (h : Prim cfg env obj k a b) (hi : Inv cfg obj a) (ho : Old cfg obj a) (hb : RadInv cfg a) :
    RadInv cfg b ∧ b.rho ≤ a.rho := by
  have h0 := sn.rhoMin
  have h2 := sn.alpha2
  have h3 := sn.alpha2'
  induction h with
  | refl => exact ⟨hb, le_refl _⟩
  | eval x hp hj ih =>
    obtain ⟨i1, i2⟩ := ih hi ho hb
    obtain ⟨h1, -, -, -, -⟩ := hp.inv hi ho
    obtain ⟨-, a2, -, -, -⟩ := blackbox_spec h1 x
    exact ⟨⟨by rw [a2.rho]; exact i1.rho, by rw [a2.rho, a2.del]; exact i1.del⟩, by rw [a2.rho]; exact i2⟩
  | @del _ _ s' v hp hv ih =>
    obtain ⟨i1, i2⟩ := ih hi ho hb
    have hr := i1.rho
    have hd := i1.del
    refine ⟨⟨by simpa [setDel] using i1.rho, ?_⟩, by simpa [setDel] using i2⟩
    simp only [setDel, updateBounds_rho, updateBounds_del]
    rcases hv with hv | rfl | ⟨d, hd', rfl⟩
    · nlinarith
    · exact le_refl _
    · refine le_max_of_le_left ?_
      have : 0 ≤ s'.del := le_trans (mul_nonneg h2 (h0.le.trans hr)) hd
      nlinarith [sn.gamInc]
  | iterate hp ih =>
    obtain ⟨i1, i2⟩ := ih hi ho hb
    exact ⟨⟨by simpa [setIterate] using i1.rho, by simpa [setIterate] using i1.del⟩, by simpa [setIterate] using i2⟩
  | marks c r hp ih =>
    obtain ⟨i1, i2⟩ := ih hi ho hb
    exact ⟨⟨i1.rho, i1.del⟩, i2⟩
  | rho hp hr ih =>
    obtain ⟨i1, i2⟩ := ih hi ho hb
    obtain ⟨b1, b2⟩ := reduceRho_bounds sn hr
    refine ⟨⟨b1, ?_⟩, b2.le.trans i2⟩
    simp only
    exact (mul_le_mul_of_nonneg_left b2.le h2).trans i1.del

/-- C60, the part that holds. For every objective, every history of the loop (every number of passes,
every outcome of the outside searches) and every sane setting: the resolution never grows, never falls
below `rho_min`, and the radius never falls below `alpha_2` times the resolution.
Missing: that the radius never falls below the resolution itself (`c60_radius_violated`); settings with
`alpha_1 < 1/250`, for which the resolution can fall below `rho_min`. -/
theorem c60_radii_partial (cfg : Cfg n) (sn : Sane cfg) (env : Env n) (obj : Pt n → ℝ) (r : Run n)
    (h : RunInv cfg obj r) (h1 : cfg.rhoMin ≤ r.st.rho) (h2 : cfg.alpha2 * r.st.rho ≤ r.st.del) (fuel : ℕ) :
    cfg.rhoMin ≤ (loop cfg env obj fuel r).st.rho ∧ (loop cfg env obj fuel r).st.rho ≤ r.st.rho ∧
    cfg.alpha2 * (loop cfg env obj fuel r).st.rho ≤ (loop cfg env obj fuel r).st.del := by
  obtain ⟨⟨k, hk⟩, -, -⟩ := loop_spec (env := env) fuel r h
  obtain ⟨a, b⟩ := hk.rad sn h.inv h.old ⟨h1, h2⟩
  exact ⟨a.rho, b, a.del⟩

example : 1/10^6 ≤ (loop cfgDemo envDemo (objective false fun x => x 0 ^ 2) 9 runDemo).st.rho :=
  (c60_radii_partial cfgDemo cfgDemo_sane envDemo _ runDemo runDemo_inv (by norm_num [cfgDemo, runDemo, stDemo])
    (by norm_num [cfgDemo, runDemo, stDemo]) 9).1

/-- C60, the same for whole runs: at the end of every run from a new object the resolution is between
`rho_min` and the initial radius. -/
theorem c60_run_partial (cfg : Cfg n) (sn : Sane cfg) (env : Env n) (maximise : Bool) (f : Pt n → ℝ) (x0 : Pt n)
    (hr : cfg.rhoMin ≤ initRadius cfg (applyScaling cfg x0)) :
    cfg.rhoMin ≤ (optimise cfg env maximise f (St.init n) x0).1.rho ∧
    (optimise cfg env maximise f (St.init n) x0).1.rho ≤ initRadius cfg (applyScaling cfg x0) ∧
    cfg.alpha2 * (optimise cfg env maximise f (St.init n) x0).1.rho ≤
      (optimise cfg env maximise f (St.init n) x0).1.del := by
  have h := inv_init cfg (objective maximise f)
  obtain ⟨h1, h2, h3, -, -, h6⟩ := start_spec h x0
  have hd : (start cfg (objective maximise f) (St.init n) x0).del = initRadius cfg (applyScaling cfg x0) := by
    obtain ⟨-, a2, -, -, -⟩ := blackbox_spec (h.sOld (applyScaling cfg x0)) (applyScaling cfg x0)
    unfold start
    simp only [setDel, updateBounds_del]
    rw [a2.sOld]
  obtain ⟨st, k, he, hp, -⟩ := trustRegion_spec cfg env (objective maximise f) _ h x0
  have h0 := sn.rhoMin
  obtain ⟨a, b⟩ := hp.rad sn h1 h2 ⟨by rw [h6, hd]; exact hr, by
    rw [h6, hd]; nlinarith [sn.alpha2, sn.alpha2']⟩
  have e1 : (finish cfg st).rho = st.rho := by simp [finish, setIterate]
  have e2 : (finish cfg st).del = st.del := by simp [finish, setIterate]
  unfold optimise
  simp only [he, e1, e2]
  rw [h6, hd] at b
  exact ⟨a.rho, b, a.del⟩

example : cfgDemo.rhoMin ≤ initRadius cfgDemo (applyScaling cfgDemo fun _ => 1/2) := by
  norm_num [cfgDemo, initRadius]

/-! ## C61 -/

theorem normInf_apply_lt {x : Pt n} {c : ℝ} (i : Fin n) (h : c < |x i|) : c < normInf x :=
  h.trans_le (abs_le_normInf x i)

/-- With `max_evals = 1` a run on an unbounded problem with the coordinate start ends after the second point, which is one
initial radius away from the starting point. -/
theorem one_eval_run (cfg : Cfg (n + 1)) (hm : cfg.maxEvals = 1) (hb : cfg.bounds = none)
    (hr : cfg.random = false) (hd : cfg.delInit = none) (env : Env (n + 1)) (obj : Pt (n + 1) → ℝ) (x0 : Pt (n + 1)) :
    ∃ x, x 0 = x0 0 + (start cfg obj (St.init (n + 1)) x0).del ∧ 1 ≤ (start cfg obj (St.init (n + 1)) x0).del ∧
      trustRegion cfg env obj (St.init (n + 1)) x0 =
        finish cfg (blackbox cfg obj (start cfg obj (St.init (n + 1)) x0) x).1 := by
  have h := inv_init cfg obj
  obtain ⟨h1, h2, h3, h4, h5, h6⟩ := start_spec h x0
  have hap : applyScaling cfg x0 = x0 := by unfold applyScaling; rw [hb]
  set s := start cfg obj (St.init (n + 1)) x0 with hs
  have hdel : 1 ≤ s.del := by
    rw [hs]
    unfold start
    simp only [setDel, updateBounds_del, initRadius, hd, hb]
    exact le_max_right _ _
  have hlo : ∀ i, s.hi i = s.sOld i + s.del ∧ s.lo i = s.sOld i - s.del := by
    intro i
    rw [hs]
    unfold start
    simp only [setDel, updateBounds, hb, and_self]
  have hsz : ∃ m, setSize (n + 1) - 1 = m + 1 := by
    refine ⟨setSize (n + 1) - 2, ?_⟩
    have : 3 ≤ setSize (n + 1) := by
      unfold setSize
      have : 6 ≤ (n + 1 + 1) * (n + 1 + 2) := by nlinarith
      omega
    omega
  obtain ⟨m, hm'⟩ := hsz
  have hgen : ∃ x xs, (generateSet cfg env s (setSize (n + 1))).tail = x :: xs ∧ x 0 = x0 0 + s.del := by
    unfold generateSet
    rw [hm', List.tail_cons, List.range_succ_eq_map, List.map_cons]
    refine ⟨_, _, rfl, ?_⟩
    simp only [hr]
    have h8 := hlo 0
    rw [if_neg (by simp)]
    have e2 : coordDir s.del (fun c => s.lo c - s.sOld c) (fun c => s.hi c - s.sOld c) (0 + 1) 0 = s.del := by
      simp only [coordDir, step1]
      rw [if_pos (by omega), if_pos (by simp), if_neg (by push Not; rw [h8.1]; nlinarith)]
    rw [e2, h8.1, h8.2, h3, hap]
    have e3 : x0 0 - s.del - x0 0 ≤ s.del := by linarith
    rw [max_eq_right e3, min_eq_left (by linarith)]
  obtain ⟨x, xs, hx, hne⟩ := hgen
  have hev : (evalInitial cfg obj (x :: xs) ⟨s, [s.sOld], [s.fOld]⟩) =
      (⟨(blackbox cfg obj s x).1, [s.sOld] ++ [x], [s.fOld] ++ [(blackbox cfg obj s x).2]⟩, true) := by
    unfold evalInitial
    simp only
    rw [if_pos]
    obtain ⟨b1, b2, -, b4, b5⟩ := blackbox_spec h1 x
    rw [b1.evals, hm]
    exact List.length_pos_of_mem b4
  refine ⟨x, hne, hdel, ?_⟩
  unfold trustRegion
  rw [← hs]
  simp only
  rw [hx, hev]

/-- C61 is violated: with `max_evals = 1` every run on an unbounded problem with at least one variable
and the coordinate start calls the function twice. -/
theorem c61_budget_violated (cfg : Cfg (n + 1)) (hm : cfg.maxEvals = 1) (hb : cfg.bounds = none)
    (hr : cfg.random = false) (hd : cfg.delInit = none) (env : Env (n + 1)) (maximise : Bool)
    (f : Pt (n + 1) → ℝ) (x0 : Pt (n + 1)) :
    (optimise cfg env maximise f (St.init (n + 1)) x0).2.nfev = 2 ∧
    (optimise cfg env maximise f (St.init (n + 1)) x0).1.calls.length = 2 := by
  have h := inv_init cfg (objective maximise f)
  obtain ⟨h1, h2, h3, h4, h5, h6⟩ := start_spec h x0
  have hap : applyScaling cfg x0 = x0 := by unfold applyScaling; rw [hb]
  obtain ⟨x, hx, hdel, hres⟩ := one_eval_run cfg hm hb hr hd env (objective maximise f) x0
  set s := start cfg (objective maximise f) (St.init (n + 1)) x0 with hs
  have hS : s.S = [x0] := by rw [h5, hap]; simp [St.init]
  have hne : x ≠ x0 := by rintro rfl; linarith
  obtain ⟨b1, b2, -, b4, b5⟩ := blackbox_spec h1 x
  obtain ⟨c1, -, -, c4, -⟩ := finish_fields cfg _ _ b1 (h2.ext b2)
  have hl : (blackbox cfg (objective maximise f) s x).1.S.length = 2 := by
    rw [b5, hS]
    simp [hne]
  unfold optimise
  simp only [hres, c1, c4, List.length_map, hl, and_self]

example : (optimise { cfgDemo with maxEvals := 1, bounds := none, delInit := none } envDemo false (fun x => x 0)
    (St.init 1) fun _ => 0).2.nfev = 2 := (c61_budget_violated (n := 0) _ rfl rfl rfl rfl _ _ _ _).1

/-! ## C60 is violated -/

theorem evalInitial_ext {cfg : Cfg n} {obj : Pt n → ℝ} : ∀ (xs : List (Pt n)) (r : Run n), Inv cfg obj r.st →
    Ext r.st (evalInitial cfg obj xs r).1.st ∧
    (r.st.evals + xs.length < cfg.maxEvals → (evalInitial cfg obj xs r).2 = false ∧
      (evalInitial cfg obj xs r).1.st.evals ≤ r.st.evals + xs.length) := by
  intro xs
  induction xs with
  | nil => intro r _; exact ⟨Ext.refl _, fun _ => ⟨rfl, le_refl _⟩⟩
  | cons x xs ih =>
    intro r hi
    obtain ⟨b1, b2, b3, b4, b5⟩ := blackbox_spec hi x
    have hev : (blackbox cfg obj r.st x).1.evals ≤ r.st.evals + 1 := by
      rw [b1.evals, b5, hi.evals]
      split_ifs
      · omega
      · simp
    unfold evalInitial
    simp only
    split_ifs with hc
    · exact ⟨b2, fun h => by simp only [List.length_cons] at h; omega⟩
    · obtain ⟨i1, i2⟩ := ih ⟨(blackbox cfg obj r.st x).1, r.S ++ [x],
        r.f ++ [(blackbox cfg obj r.st x).2]⟩ b1
      refine ⟨b2.trans i1, fun h => ?_⟩
      simp only [List.length_cons] at h ⊢
      obtain ⟨j1, j2⟩ := i2 (by simp only; omega)
      exact ⟨j1, j2.trans (by simp only; omega)⟩

theorem normInf_one (x : Pt 1) : normInf x = |x 0| := by
  simp [normInf]

/-- A rejected step while the radius is not far above the resolution and the sample set is not too wide: the
radius becomes `alpha_2` times the resolution, which does not change unless the step was the third
failure in a row with a negative ratio. -/
theorem settle_reject (cfg : Cfg n) (env : Env n) (obj : Pt n → ℝ) (r : Run n) (fNew delM stepDist : ℝ)
    (hgam : cfg.gamDec * r.st.del ≤ r.st.rho)
    (h1 : ratioOf (r.st.fOld - fNew) delM < cfg.eta1) (h2 : cfg.eta1 ≤ cfg.eta2)
    (hc : r.st.count + 1 < 3)
    (hs : ∀ x ∈ r.S, normInf (fun i => x i - (setIterate cfg r.st).sOld i) ≤ cfg.eps2 * r.st.rho)
    (hz : 0 ≤ cfg.eps2 * r.st.rho) :
    (settle cfg env obj r fNew delM stepDist).st.del = cfg.alpha2 * r.st.rho ∧
    (settle cfg env obj r fNew delM stepDist).st.rho = r.st.rho := by
  have e1 : (setIterate cfg { r.st with ratio := ratioOf (r.st.fOld - fNew) delM }).ratio =
      ratioOf (r.st.fOld - fNew) delM := by simp [setIterate]
  have e2 : (setIterate cfg { r.st with ratio := ratioOf (r.st.fOld - fNew) delM }).del = r.st.del := by
    simp [setIterate]
  have e3 : (setIterate cfg { r.st with ratio := ratioOf (r.st.fOld - fNew) delM }).rho = r.st.rho := by
    simp [setIterate]
  have e4 : (setIterate cfg { r.st with ratio := ratioOf (r.st.fOld - fNew) delM }).count = r.st.count := by
    simp [setIterate]
  have e5 : (setIterate cfg { r.st with ratio := ratioOf (r.st.fOld - fNew) delM }).sOld =
      (setIterate cfg r.st).sOld := by simp [setIterate]
  unfold settle
  simp only
  generalize setIterate cfg { r.st with ratio := ratioOf (r.st.fOld - fNew) delM } = st at *
  rw [if_neg (by rw [e1]; push Not; linarith), if_neg (by rw [e1]; push Not; exact h1)]
  have e6 : max (min (cfg.gamDec * st.del) stepDist) st.rho = r.st.rho := by
    rw [e2, e3]
    exact max_eq_right ((min_le_left _ _).trans hgam)
  rw [e6]
  unfold updateGeometry
  have hsp : ¬ spread (setDel cfg r.st.rho { st with count := st.count + 1 }) r.S >
      limit cfg (setDel cfg r.st.rho { st with count := st.count + 1 }) := by
    push Not
    unfold limit spread maxList
    refine le_max_of_le_right ?_
    simp only [setDel, updateBounds_rho, updateBounds_sOld]
    rw [e3]
    have : ∀ l : List ℝ, (∀ a ∈ l, a ≤ cfg.eps2 * r.st.rho) → l.foldr max 0 ≤ cfg.eps2 * r.st.rho := by
      intro l
      induction l with
      | nil => intro _; simpa using hz
      | cons a l ih =>
        intro hl
        exact max_le (hl a (by simp)) (ih fun b hb => hl b (by simp [hb]))
    apply this
    intro a ha
    obtain ⟨x, hx, rfl⟩ := List.mem_map.1 ha
    rw [e5]
    exact hs x hx
  simp only
  rw [if_neg hsp, if_pos (by simp [setDel, e3]), if_neg (by
    rintro ⟨h3, -⟩
    simp [setDel, e4] at h3
    omega)]
  simp [setDel, e3]

/-- C60 is violated: a run on `x ↦ x²` from `0` with the default settings, in which the first step
proposed is `1/2`, ends its first pass with radius `1/2` and resolution `1`. -/
theorem c60_radius_violated :
    (optimise cfgDemo envDemo false (fun x => x 0 ^ 2) (St.init 1) (fun _ => 0)).1.del = 1/2 ∧
    (optimise cfgDemo envDemo false (fun x => x 0 ^ 2) (St.init 1) (fun _ => 0)).1.rho = 1 := by
  set f : Pt 1 → ℝ := fun x => x 0 ^ 2 with hf
  have h := inv_init cfgDemo (objective false f)
  have hap : ∀ x, applyScaling cfgDemo x = x := fun x => by simp [applyScaling, cfgDemo]
  have hrm : ∀ x, removeScaling cfgDemo x = x := fun x => by simp [removeScaling, cfgDemo]
  obtain ⟨h1, h2, h3, h4, h5, h6⟩ := start_spec h (fun _ => 0)
  have hbox := start_box cfgDemo_signs h (by simp [St.init]) (x0 := fun _ => 0) (by
    rw [hap]; simp [Box, cfgDemo])
  have hdel : (start cfgDemo (objective false f) (St.init 1) fun _ => 0).del = 1 := by
    unfold start
    simp only [setDel, updateBounds_del, initRadius]
    rfl
  have hcount : (start cfgDemo (objective false f) (St.init 1) fun _ => 0).count = 0 := rfl
  rw [hap] at h3
  have hlo : ∀ i, (start cfgDemo (objective false f) (St.init 1) fun _ => 0).lo i = -1 ∧
      (start cfgDemo (objective false f) (St.init 1) fun _ => 0).hi i = 1 := by
    intro i
    have e1 := h3
    have e2 := hdel
    revert e1 e2
    unfold start
    simp only [setDel, updateBounds_del, updateBounds_sOld]
    intro e1 e2
    simp only [updateBounds, cfgDemo]
    simp only [cfgDemo] at e1
    rw [e1]
    simp [initRadius]
  have hev : (start cfgDemo (objective false f) (St.init 1) fun _ => 0).evals = 1 := by
    rw [h1.evals, h5]; simp [St.init]
  have hfo : (start cfgDemo (objective false f) (St.init 1) fun _ => 0).fOld = 0 := by
    rw [h2.value, h3]; simp [val, hrm, objective, hf]
  unfold optimise trustRegion
  set s := start cfgDemo (objective false f) (St.init 1) (fun _ => 0) with hs
  have hlen : (generateSet cfgDemo envDemo s (setSize 1)).tail.length = 2 := by simp [generateSet, setSize]
  obtain ⟨g1, g2⟩ := evalInitial_ext (cfg := cfgDemo) (obj := objective false f)
    (generateSet cfgDemo envDemo s (setSize 1)).tail ⟨s, [s.sOld], [s.fOld]⟩ h1
  obtain ⟨g3, g4⟩ := g2 (by rw [hlen, hev]; norm_num [cfgDemo])
  obtain ⟨m, hm, hp, -, hset⟩ := evalInitial_spec (env := envDemo) (cfg := cfgDemo) (obj := objective false f) s
    (generateSet cfgDemo envDemo s (setSize 1)).tail
    ⟨s, [s.sOld], [s.fOld]⟩ 0 (.refl _) (Ext.refl _) h1 h2 ⟨by simp [h2.value], by simpa using h2.mem⟩
    (fun x hx => ⟨_, List.mem_of_mem_tail hx⟩)
  simp only
  generalize evalInitial cfgDemo (objective false f) (generateSet cfgDemo envDemo s (setSize 1)).tail
    ⟨s, [s.sOld], [s.fOld]⟩ = res at *
  obtain ⟨r, fl⟩ := res
  simp only at g1 g3 g4 hp hset
  subst g3
  obtain ⟨hset1, hset2⟩ := hset rfl
  obtain ⟨i1, i2, -, -, -⟩ := hp.inv h1 h2
  have hri : RunInv cfgDemo (objective false f) r := ⟨i1, i2, hset1, by
    rw [hset2, List.length_append, hlen]; simp [setSize]⟩
  have hb1 := hp.box envDemo_ok cfgDemo_signs h1 h2 hbox
  have f1 : (finish cfgDemo (loop cfgDemo envDemo (objective false f) cfgDemo.itermax r).st).del =
      (iter cfgDemo envDemo (objective false f) r).1.st.del ∧
      (finish cfgDemo (loop cfgDemo envDemo (objective false f) cfgDemo.itermax r).st).rho =
      (iter cfgDemo envDemo (objective false f) r).1.st.rho := by
    have : (loop cfgDemo envDemo (objective false f) cfgDemo.itermax r) =
        (iter cfgDemo envDemo (objective false f) r).1 := by
      show loop cfgDemo envDemo (objective false f) 1 r = _
      unfold loop
      split
      · rename_i heq; rw [heq]
      · rename_i heq; rw [heq]; rfl
    rw [this]
    simp [finish, setIterate]
  simp only [f1.1, f1.2]
  have hrho : r.st.rho = 1 := by rw [g1.rho, h6, hdel]
  have hrdel : r.st.del = 1 := by rw [g1.del, hdel]
  have hev3 : r.st.evals ≤ 3 := by
    rw [hlen, hev] at g4
    exact g4
  unfold iter
  rw [if_neg (by
    push Not
    rw [hrho]
    exact ⟨lt_of_le_of_lt hev3 (by norm_num [cfgDemo]), by norm_num [cfgDemo]⟩)]
  have hstep : (fun i => min (max (r.st.lo i) (1/2)) (r.st.hi i)) = (fun _ : Fin 1 => (1/2 : ℝ)) := by
    funext i
    rw [g1.lo, g1.hi, (hlo i).1, (hlo i).2]
    norm_num
  have hbuild : envDemo.build r.st r.S r.f = some ⟨0, fun _ => 1/2, -1⟩ := by
    simp only [envDemo]
    rw [hstep]
  rw [hbuild]
  simp only
  have hso : r.st.sOld = fun _ => 0 := by rw [g1.sOld, h3]
  have hdist : (normInf fun i => (1/2 : ℝ) - r.st.sOld i) = 1/2 := by
    rw [normInf_one, hso]; norm_num
  rw [hdist]
  rw [if_neg (by rw [hrho]; norm_num [cfgDemo])]
  obtain ⟨b1, b2, b3, b4, b5⟩ := blackbox_spec i1 (fun _ => (1/2 : ℝ))
  have p1 : Prim cfgDemo envDemo (objective false f) 1 r.st
      (blackbox cfgDemo (objective false f) r.st (fun _ => (1/2 : ℝ))).1 :=
    .eval _ (.refl _) (.inl ⟨_, _, _, hbuild, rfl⟩)
  have hev4 : (blackbox cfgDemo (objective false f) r.st (fun _ => (1/2 : ℝ))).1.evals ≤ 4 := by
    have := (p1.inv i1 i2).2.2.2.1
    omega
  rw [if_neg (by
    push Not
    rw [b2.rho, hrho]
    exact ⟨lt_of_le_of_lt hev4 (by norm_num [cfgDemo]), by norm_num [cfgDemo]⟩)]
  simp only
  obtain ⟨⟨k, hk, hp2⟩, hri2, -, hex⟩ := replaceSet_spec (env := envDemo) (hri.prim p1) (x := fun _ => 1/2) b4 b3
  simp only at hp2 hex
  generalize hr2 : replaceSet cfgDemo envDemo (objective false f)
    { r with st := (blackbox cfgDemo (objective false f) r.st (fun _ => (1/2 : ℝ))).1 } (fun _ => 1/2)
    (blackbox cfgDemo (objective false f) r.st (fun _ => (1/2 : ℝ))).2 = r2 at *
  have hb2 := (p1.trans hp2).box envDemo_ok cfgDemo_signs i1 i2 hb1
  have hrho2 : r2.st.rho = 1 := by rw [hex.rho, b2.rho, hrho]
  have hdel2 : r2.st.del = 1 := by rw [hex.del, b2.del, hrdel]
  have hfo2 : r2.st.fOld = 0 := by rw [hex.fOld, b2.fOld, g1.fOld, hfo]
  have hc2 : r2.st.count = 0 := by rw [hex.count, b2.count, g1.count, hcount]
  have hval : (blackbox cfgDemo (objective false f) r.st (fun _ => (1/2 : ℝ))).2 = 1/4 := by
    rw [b3]
    simp only [val, hrm, objective, hf]
    norm_num
  have hb3 := (Prim.iterate (.refl r2.st) : Prim cfgDemo envDemo (objective false f) 0 r2.st _).box envDemo_ok
    cfgDemo_signs hri2.inv hri2.old hb2
  obtain ⟨q1, q2⟩ := settle_reject cfgDemo envDemo (objective false f) r2
    (blackbox cfgDemo (objective false f) r.st (fun _ => (1/2 : ℝ))).2 (0 - -1) (1/2)
    (by rw [hrho2, hdel2]; norm_num [cfgDemo]) (by
      rw [hfo2, hval]
      unfold ratioOf
      rw [if_neg (by norm_num)]
      norm_num [cfgDemo]) (by norm_num [cfgDemo]) (by rw [hc2]; norm_num) (by
      intro x hx
      rw [normInf_one, hrho2]
      have c1 := hb2.pts x (hri2.set.mem x hx)
      have c2 := hb3.sOld
      simp only [Box, cfgDemo] at c1 c2
      simp only [Bool.false_eq_true, if_false] at c1 c2
      have c3 := c1 0
      have c4 := c2 0
      simp only [cfgDemo]
      rw [abs_le]
      constructor <;> linarith) (by rw [hrho2]; norm_num [cfgDemo])
  rw [q1, q2, hrho2]
  norm_num [cfgDemo]

/-! ## C91: repeated runs on the same object -/

/-- One call of `optimise`: the settings, the searches, the starting point. -/
structure Call (n : ℕ) where
  cfg : Cfg n
  env : Env n
  x0 : Pt n

/-- A history of calls of `optimise` on the same object with the same objective. -/
noncomputable def history (maximise : Bool) (f : Pt n → ℝ) : List (Call n) → St n → St n
  | [], s => s
  | c :: cs, s => history maximise f cs (optimise c.cfg c.env maximise f s c.x0).1

theorem removeScaling_plain {cfg : Cfg n} (h : cfg.scale = false) (x : Pt n) : removeScaling cfg x = x := by
  unfold removeScaling
  split
  · rw [h]; rfl
  · rfl

/-- The stored evaluations in the user's coordinates. -/
structure Plain (obj : Pt n → ℝ) (s : St n) : Prop where
  vals : s.f = s.S.map obj
  nodup : s.S.Nodup
  evals : s.evals = s.S.length
  calls : s.calls = s.S

theorem Plain.inv {obj : Pt n → ℝ} {s : St n} (h : Plain obj s) {cfg : Cfg n} (hc : cfg.scale = false) :
    Inv cfg obj s := by
  have e : removeScaling cfg = id := by funext x; exact removeScaling_plain hc x
  refine ⟨?_, h.nodup, h.evals, ?_⟩
  · rw [h.vals]; simp [val, e]
  · rw [h.calls, e]; simp

theorem Plain.optimise {maximise : Bool} {f : Pt n → ℝ} {s : St n} (h : Plain (objective maximise f) s)
    {cfg : Cfg n} (hc : cfg.scale = false) (env : Env n) (x0 : Pt n) :
    Plain (objective maximise f) (optimise cfg env maximise f s x0).1 := by
  have hw : Widths cfg := fun l u _ hs => by rw [hc] at hs; simp at hs
  obtain ⟨h1, h2, h3, h4, -, -⟩ := c57_evaluations cfg hw env maximise f s (h.inv hc) x0
  refine ⟨by rw [h3, h2], by rw [h2]; exact h1, ?_, h2.symm⟩
  rw [h2, ← h4]
  rfl

/-- C91, the part that holds. After every history of calls of `optimise` with the same objective and
without `scale_bounds` (the starting points, bounds, budgets, radii, searches may change from call to
call) and one more call: over the whole history the function has been called at most once at each point,
the number reported is the number of all these calls, and the result is the best of all of them.
Missing: histories with `scale_bounds` or with a change of objective (`c91_scaled_violated`,
`c91_objective_violated`). -/
theorem c91_repeat_partial (maximise : Bool) (f : Pt n → ℝ) (cs : List (Call n))
    (hcs : ∀ c ∈ cs, c.cfg.scale = false) (c : Call n) (hc : c.cfg.scale = false) (s : St n)
    (hs : s = history maximise f cs (St.init n)) :
    (optimise c.cfg c.env maximise f s c.x0).1.calls.Nodup ∧
    (optimise c.cfg c.env maximise f s c.x0).2.nfev = (optimise c.cfg c.env maximise f s c.x0).1.calls.length ∧
    s.calls <+: (optimise c.cfg c.env maximise f s c.x0).1.calls ∧
    (optimise c.cfg c.env maximise f s c.x0).2.fn = f (optimise c.cfg c.env maximise f s c.x0).2.x ∧
    (optimise c.cfg c.env maximise f s c.x0).2.x ∈ (optimise c.cfg c.env maximise f s c.x0).1.calls ∧
    ∀ y ∈ (optimise c.cfg c.env maximise f s c.x0).1.calls,
      if maximise then f y ≤ (optimise c.cfg c.env maximise f s c.x0).2.fn
      else (optimise c.cfg c.env maximise f s c.x0).2.fn ≤ f y := by
  have key : ∀ (cs : List (Call n)), (∀ c ∈ cs, c.cfg.scale = false) → ∀ s : St n,
      Plain (objective maximise f) s → Plain (objective maximise f) (history maximise f cs s) := by
    intro cs
    induction cs with
    | nil => intro _ s h; exact h
    | cons c cs ih =>
      intro hcs s h
      exact ih (fun d hd => hcs d (by simp [hd])) _ (h.optimise (hcs c (by simp)) _ _)
  have hp := key cs hcs (St.init n) ⟨rfl, List.nodup_nil, rfl, rfl⟩
  rw [← hs] at hp
  have hw : Widths c.cfg := fun l u _ h => by rw [hc] at h; simp at h
  obtain ⟨h1, -, -, h4, h5, -⟩ := c57_evaluations c.cfg hw c.env maximise f s (hp.inv hc) c.x0
  obtain ⟨k1, k2, k3, k4, -⟩ := c58_result c.cfg hw c.env maximise f s (hp.inv hc) c.x0
  refine ⟨h1, h4, h5, k2, k1, fun y hy => ?_⟩
  cases hm : maximise
  · subst hm; simpa using k3 rfl y hy
  · subst hm; simpa using k4 rfl y hy

example : ∀ c ∈ [(⟨cfgDemo, envDemo, fun _ => 1/2⟩ : Call 1), ⟨cfgDemo, envDemo, fun _ => 0⟩], c.cfg.scale = false := by
  simp [cfgDemo]

end EQ.Opt
