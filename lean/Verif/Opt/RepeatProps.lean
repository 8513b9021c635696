import Verif.Opt.RadiusProps

/-!
# The trust-region method: repeated runs that go wrong (C91)
-/

namespace EQ.Opt
open EQ.Basis

variable {n : ℕ}

theorem blackbox_mem {cfg : Cfg n} {obj : Pt n → ℝ} {s : St n} (h : Inv cfg obj s) {x : Pt n} (hx : x ∈ s.S)
    (g : Pt n → ℝ) : blackbox cfg g s x = (s, val cfg obj x) := by
  have h1 : (blackbox cfg obj s x).2 = val cfg obj x := (blackbox_spec h x).2.2.1
  revert h1
  unfold blackbox
  rw [dedup_append_length h.nodup, if_pos hx]
  have hlen : s.S.length > 0 := List.length_pos_of_mem hx
  rw [if_pos ⟨hlen, rfl⟩, if_pos ⟨hlen, rfl⟩]
  intro h1
  simp only at h1
  rw [h1]

theorem blackbox_new {cfg : Cfg n} (obj : Pt n → ℝ) {s : St n} (h : s.S.Nodup) {x : Pt n} (hx : x ∉ s.S) :
    blackbox cfg obj s x = ({ s with
      S := s.S ++ [x]
      f := s.f ++ [obj (removeScaling cfg x)]
      evals := s.evals + 1
      calls := s.calls ++ [removeScaling cfg x] }, obj (removeScaling cfg x)) := by
  unfold blackbox
  rw [dedup_append_length h, if_neg hx, if_neg (by rintro ⟨-, h2⟩; omega)]

theorem generateSet_congr {cfg : Cfg n} {env : Env n} {s s' : St n} (hr : cfg.random = false)
    (h1 : s.sOld = s'.sOld) (h2 : s.lo = s'.lo) (h3 : s.hi = s'.hi) (h4 : s.del = s'.del) (num : ℕ) :
    generateSet cfg env s num = generateSet cfg env s' num := by
  unfold generateSet
  rw [h1, h2, h3, h4, hr]
  rfl

theorem start_fields (cfg : Cfg n) (obj : Pt n → ℝ) {s : St n} (h : Inv cfg obj s) (x0 : Pt n) :
    (start cfg obj s x0).sOld = applyScaling cfg x0 ∧
    (start cfg obj s x0).del = initRadius cfg (applyScaling cfg x0) ∧
    (start cfg obj s x0).lo = (updateBounds cfg { St.init n with
      sOld := applyScaling cfg x0, del := initRadius cfg (applyScaling cfg x0) }).lo ∧
    (start cfg obj s x0).hi = (updateBounds cfg { St.init n with
      sOld := applyScaling cfg x0, del := initRadius cfg (applyScaling cfg x0) }).hi := by
  obtain ⟨-, a2, -, -, -⟩ := blackbox_spec (h.sOld (applyScaling cfg x0)) (applyScaling cfg x0)
  have e := a2.sOld
  simp only at e
  unfold start
  simp only [setDel, updateBounds_sOld, updateBounds_del, e, true_and]
  constructor <;>
  · unfold updateBounds
    split <;> [split_ifs; skip] <;> simp only [e]

/-- C91 is violated by a change of the objective: evaluations of the first objective are taken for
evaluations of the second. For all objectives `f` and `g`, with `max_evals = 1`: after a run with `f`, a
run with `g` from the same point is the same as a run with `f` — `g` is not called at all, and the value
returned is that of `f` at the point returned. -/
theorem c91_objective_violated (cfg : Cfg (n + 1)) (hm : cfg.maxEvals = 1) (hb : cfg.bounds = none)
    (hr : cfg.random = false) (hd : cfg.delInit = none) (env : Env (n + 1)) (f g : Pt (n + 1) → ℝ)
    (x0 : Pt (n + 1)) (s : St (n + 1)) (hs : s = (optimise cfg env false f (St.init (n + 1)) x0).1) :
    (optimise cfg env false g s x0).2.fn = f (optimise cfg env false g s x0).2.x ∧
    (optimise cfg env false g s x0).1.calls = s.calls := by
  have hw : Widths cfg := fun l u hl => by rw [hb] at hl; simp at hl
  have hrm : ∀ x, removeScaling cfg x = x := fun x => by unfold removeScaling; rw [hb]
  have hap : ∀ x, applyScaling cfg x = x := fun x => by unfold applyScaling; rw [hb]
  have h0 := inv_init cfg (objective false f)
  -- the state after the first run
  obtain ⟨c1, c2, c3, c4, -, c6⟩ := c57_evaluations cfg hw env false f _ h0 x0
  have hlen := (c61_budget_violated cfg hm hb hr hd env false f x0).2
  rw [← hs] at c1 c2 c3 c6 hlen
  have c4' : s.evals = s.calls.length := by rw [hs]; exact c4
  have hinv : Inv cfg (objective false f) s := ⟨by
    rw [c3, c2]
    simp [val, hrm], by rw [c2]; exact c1, by rw [c4', c2], by rw [c2, (funext hrm : removeScaling cfg = id), List.map_id]⟩
  -- the second point of the first run
  obtain ⟨t1, t2, t3, t4⟩ := start_fields cfg (objective false f) h0 x0
  obtain ⟨u1, u2, u3, u4⟩ := start_fields cfg (objective false f) hinv x0
  have hx0 : applyScaling cfg x0 ∈ s.S := by rw [hap, c2]; exact c6
  have hstart : start cfg (objective false g) s x0 = start cfg (objective false f) s x0 := by
    unfold start
    have hinv' := hinv.sOld (applyScaling cfg x0)
    simp only
    rw [blackbox_mem hinv' hx0, blackbox_mem hinv' hx0]
  obtain ⟨v1, v2, v3, v4, v5, v6⟩ := start_spec hinv x0
  have hS : (start cfg (objective false f) s x0).S = s.S := by rw [v5, if_pos hx0]
  have hgen := generateSet_congr (env := env) hr (u1.trans t1.symm) (u3.trans t3.symm) (u4.trans t4.symm)
    (u2.trans t2.symm) (setSize (n + 1))
  -- all the points of the first pass are stored
  have hsz : ∃ m, setSize (n + 1) - 1 = m + 1 := by
    refine ⟨setSize (n + 1) - 2, ?_⟩
    have : 3 ≤ setSize (n + 1) := by
      unfold setSize
      have : 6 ≤ (n + 1 + 1) * (n + 1 + 2) := by nlinarith
      omega
    omega
  obtain ⟨m, hm'⟩ := hsz
  have hcons : ∃ x xs, (generateSet cfg env (start cfg (objective false f) (St.init (n + 1)) x0)
      (setSize (n + 1))).tail = x :: xs := by
    unfold generateSet
    rw [hm', List.tail_cons, List.range_succ_eq_map, List.map_cons]
    exact ⟨_, _, rfl⟩
  obtain ⟨x, xs, hx⟩ := hcons
  obtain ⟨w1, w2, -, -, -, -⟩ := start_spec h0 x0
  have htr : ∀ (g' : Pt (n + 1) → ℝ) (st : St (n + 1)), st.evals ≥ 1 →
      (∀ y, (blackbox cfg g' st y).1.evals ≥ 1) →
      (evalInitial cfg g' (x :: xs) ⟨st, [st.sOld], [st.fOld]⟩).1.st = (blackbox cfg g' st x).1 ∧
      (evalInitial cfg g' (x :: xs) ⟨st, [st.sOld], [st.fOld]⟩).2 = true := by
    intro g' st _ hst
    unfold evalInitial
    simp only
    rw [if_pos (by rw [hm]; exact hst x)]
    exact ⟨rfl, rfl⟩
  have hbb : ∀ (g' : Pt (n + 1) → ℝ) (st : St (n + 1)), st.evals ≥ 1 → ∀ y, (blackbox cfg g' st y).1.evals ≥ 1 := by
    intro g' st hst y
    unfold blackbox
    split_ifs
    · exact hst
    · simp
  have hfin : ∀ (g' : Pt (n + 1) → ℝ) (st : St (n + 1)) (st0 : St (n + 1)), st = start cfg g' st0 x0 → st.evals ≥ 1 →
      (generateSet cfg env st (setSize (n + 1))).tail = x :: xs →
      trustRegion cfg env g' st0 x0 = finish cfg (blackbox cfg g' st x).1 := by
    intro g' st st0 hst hev hg
    unfold trustRegion
    rw [← hst]
    simp only
    rw [hg]
    obtain ⟨e1, e2⟩ := htr g' st hev (hbb g' st hev)
    generalize evalInitial cfg g' (x :: xs) ⟨st, [st.sOld], [st.fOld]⟩ = res at e1 e2
    obtain ⟨r, fl⟩ := res
    simp only at e1 e2
    subst e2
    simp only
    rw [e1]
  have hev1 : (start cfg (objective false f) (St.init (n + 1)) x0).evals ≥ 1 := by
    rw [w1.evals]; exact List.length_pos_of_mem w2.mem
  have hfirst := hfin (objective false f) _ _ rfl hev1 hx
  have hxs : x ∈ s.S := by
    rw [hs]
    unfold optimise
    simp only
    rw [hfirst]
    obtain ⟨b1, b2, -, b4, -⟩ := blackbox_spec w1 x
    obtain ⟨-, d2, -, -, -, -, -⟩ := finish_fields cfg _ _ b1 (w2.ext b2)
    rw [d2]
    exact List.mem_map.2 ⟨x, b4, hrm x⟩
  have hxs' : x ∈ (start cfg (objective false f) s x0).S := by rw [hS]; exact hxs
  have hev2 : (start cfg (objective false f) s x0).evals ≥ 1 := by
    rw [v1.evals]; exact List.length_pos_of_mem v2.mem
  have e1 := hfin (objective false g) _ s hstart.symm hev2 (by rw [hgen]; exact hx)
  have e2 := hfin (objective false f) _ s rfl hev2 (by rw [hgen]; exact hx)
  rw [blackbox_mem v1 hxs'] at e1 e2
  have heq : optimise cfg env false g s x0 = optimise cfg env false f s x0 := by
    unfold optimise
    rw [e1, e2]
  rw [heq]
  refine ⟨(c58_result cfg hw env false f s hinv x0).2.1, ?_⟩
  unfold optimise
  simp only
  rw [e2]
  obtain ⟨d1, -, -, -, -, -, -⟩ := finish_fields cfg _ _ v1 v2
  rw [d1, hS, c2, (funext hrm : removeScaling cfg = id), List.map_id]

/-- Settings for which this applies. -/
noncomputable def cfgOne : Cfg 1 := { cfgDemo with maxEvals := 1, bounds := none, delInit := none }

/-- In particular the value reported for `f + 1` is not that of `f + 1`. -/
example : (optimise cfgOne envDemo false (fun x => x 0 + 1)
      (optimise cfgOne envDemo false (fun x => x 0) (St.init 1) fun _ => 0).1 fun _ => 0).2.fn ≠
    (optimise cfgOne envDemo false (fun x => x 0 + 1)
      (optimise cfgOne envDemo false (fun x => x 0) (St.init 1) fun _ => 0).1 fun _ => 0).2.x 0 + 1 := by
  rw [(c91_objective_violated (n := 0) cfgOne rfl rfl rfl rfl
    envDemo (fun x => x 0) (fun x => x 0 + 1) (fun _ => 0) _ rfl).1]
  simp

/-! ### Scaling -/

/-- Default settings, one variable between `2` and `4`, scaled, two evaluations. -/
noncomputable def cfgScaled : Cfg 1 := { cfgDemo with
  bounds := some (fun _ => 2, fun _ => 4), scale := true, delInit := none, maxEvals := 2 }

theorem argmin_head (a : ℝ) (l : List ℝ) (h : ∀ b ∈ l, a ≤ b) : argmin (a :: l) = 0 := by
  unfold argmin
  cases l with
  | nil => rfl
  | cons b l =>
    simp only
    rw [if_pos]
    exact h _ (getD_mem _ _ _ (argmin_spec (b :: l) (by simp)).1)

theorem setSize_one : setSize 1 = 3 := rfl

theorem scaled_trustRegion (obj : Pt 1 → ℝ) (s : St 1) (env : Env 1) (h1 : s.S.Nodup)
    (h2 : (fun _ => 0) ∉ s.S) (h3 : (fun _ => 1/10) ∉ s.S) :
    trustRegion cfgScaled env obj s (fun _ => 2) = finish cfgScaled
      { s with S := s.S ++ [fun _ => 0] ++ [fun _ => 1/10]
               f := s.f ++ [obj fun _ => 2] ++ [obj fun _ => 11/5]
               evals := s.evals + 1 + 1
               calls := s.calls ++ [fun _ => 2] ++ [fun _ => 11/5]
               sOld := fun _ => 0, fOld := obj fun _ => 2, del := 1/10, rho := 1/10, count := 0
               lo := fun _ => 0, hi := fun _ => 1/10 } := by
  have hap : applyScaling cfgScaled (fun _ => 2) = fun _ => 0 := by
    funext i; simp [applyScaling, cfgScaled]
  have hrm0 : removeScaling cfgScaled (fun _ => 0) = fun _ => 2 := by
    funext i; simp [removeScaling, cfgScaled]
  have hrm1 : removeScaling cfgScaled (fun _ => 1/10) = fun _ => 11/5 := by
    funext i; simp [removeScaling, cfgScaled]; norm_num
  have hst : start cfgScaled obj s (fun _ => 2) =
      { s with S := s.S ++ [fun _ => 0]
               f := s.f ++ [obj fun _ => 2]
               evals := s.evals + 1
               calls := s.calls ++ [fun _ => 2]
               sOld := fun _ => 0, fOld := obj fun _ => 2, del := 1/10, rho := 1/10, count := 0
               lo := fun _ => 0, hi := fun _ => 1/10 } := by
    unfold start
    rw [hap]
    simp only
    rw [blackbox_new (cfg := cfgScaled) obj (s := { s with sOld := fun _ => 0 }) h1 h2, hrm0]
    simp only [setDel, initRadius, updateBounds, cfgScaled]
    norm_num
  unfold trustRegion
  rw [hst]
  simp only
  have hgen : (generateSet cfgScaled env
      { s with S := s.S ++ [fun _ => 0]
               f := s.f ++ [obj fun _ => 2]
               evals := s.evals + 1
               calls := s.calls ++ [fun _ => 2]
               sOld := fun _ => 0, fOld := obj fun _ => 2, del := 1/10, rho := 1/10, count := 0
               lo := fun _ => 0, hi := fun _ => 1/10 } (setSize 1)).tail =
      [fun _ => 1/10, fun _ => 1/10] := by
    unfold generateSet
    rw [setSize_one]
    simp only [cfgScaled, cfgDemo]
    norm_num [List.range_succ, coordDir, step1, step2]
    constructor <;> (funext c; simp [Subsingleton.elim c 0]; right; norm_num [coordDir, step1, step2])
  rw [hgen]
  have hnd : (s.S ++ [fun _ => 0]).Nodup := by
    rw [List.nodup_append]
    exact ⟨h1, by simp, by rintro a ha b hb; simp at hb; rw [hb]; exact fun e => h2 (e ▸ ha)⟩
  have hni : (fun _ => 1/10) ∉ s.S ++ [fun _ : Fin 1 => (0 : ℝ)] := by
    rw [List.mem_append]
    rintro (h | h)
    · exact h3 h
    · simp at h
      have := congrFun h 0
      norm_num at this
  unfold evalInitial
  simp only
  rw [blackbox_new (cfg := cfgScaled) obj (s :=
      { s with S := s.S ++ [fun _ => 0]
               f := s.f ++ [obj fun _ => 2]
               evals := s.evals + 1
               calls := s.calls ++ [fun _ => 2]
               sOld := fun _ => 0, fOld := obj fun _ => 2, del := 1/10, rho := 1/10, count := 0
               lo := fun _ => 0, hi := fun _ => 1/10 }) hnd hni, hrm1]
  rw [if_pos (by simp [cfgScaled])]

/-- C91 is violated by scaling: two runs on `x ↦ x` between the bounds 2 and 4 with `scale_bounds`, from
`2`, each with a budget of two evaluations. The first returns `2`; the second returns the point `6`,
outside the bounds, with the value `2`. -/
theorem c91_scaled_violated (env : Env 1) :
    (optimise cfgScaled env false (fun x => x 0) (St.init 1) (fun _ => 2)).2.x = (fun _ => 2) ∧
    (optimise cfgScaled env false (fun x => x 0)
      (optimise cfgScaled env false (fun x => x 0) (St.init 1) (fun _ => 2)).1 (fun _ => 2)).2.x = (fun _ => 6) ∧
    (optimise cfgScaled env false (fun x => x 0)
      (optimise cfgScaled env false (fun x => x 0) (St.init 1) (fun _ => 2)).1 (fun _ => 2)).2.fn = 2 := by
  have hrm : ∀ c : ℝ, removeScaling cfgScaled (fun _ => c) = fun _ => 2 + c * 2 := by
    intro c; funext i; simp [removeScaling, cfgScaled]; left; norm_num
  have e1 := scaled_trustRegion (objective false fun x => x 0) (St.init 1) env (by simp [St.init]) (by simp [St.init])
    (by simp [St.init])
  have f1 : (optimise cfgScaled env false (fun x => x 0) (St.init 1) (fun _ => 2)).1.S =
      [fun _ => 2, fun _ => 11/5] ∧
      (optimise cfgScaled env false (fun x => x 0) (St.init 1) (fun _ => 2)).1.f = [2, 11/5] ∧
      (optimise cfgScaled env false (fun x => x 0) (St.init 1) (fun _ => 2)).1.sOld = fun _ => 2 := by
    unfold optimise
    simp only
    rw [e1]
    simp only [finish, setIterate, updateBounds_S, updateBounds_f, updateBounds_sOld, St.init, objective,
      List.map_append, List.map_cons, List.map_nil, hrm]
    norm_num
    rw [argmin_head _ _ (by norm_num)]
    simp
  obtain ⟨g1, g2, g3⟩ := f1
  refine ⟨g3, ?_⟩
  generalize (optimise cfgScaled env false (fun x => x 0) (St.init 1) (fun _ => 2)).1 = o at *
  have e2 := scaled_trustRegion (objective false fun x => x 0) o env (by
    rw [g1]
    simp only [List.nodup_cons, List.mem_singleton, List.not_mem_nil, not_false_eq_true, List.nodup_nil, and_true]
    intro h
    have := congrFun h 0
    norm_num at this) (by
    rw [g1]
    simp only [List.mem_cons, List.not_mem_nil, or_false, not_or]
    constructor <;> (intro h; have := congrFun h 0; norm_num at this)) (by
    rw [g1]
    simp only [List.mem_cons, List.not_mem_nil, or_false, not_or]
    constructor <;> (intro h; have := congrFun h 0; norm_num at this))
  unfold optimise
  simp only
  rw [e2]
  simp only [finish, setIterate, updateBounds_S, updateBounds_f, updateBounds_sOld, updateBounds_fOld, objective,
    List.map_append, List.map_cons, List.map_nil, hrm, g1, g2]
  norm_num
  rw [argmin_head _ _ (by norm_num)]
  norm_num

end EQ.Opt
