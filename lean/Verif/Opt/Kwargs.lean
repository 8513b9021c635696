import Verif.Opt.OmorfProps

/-!
# The keyword arguments of `optimise` for the methods `trust-region` and `omorf` (C124)
-/

namespace EQ.Opt
open EQ.Basis

variable {n : ℕ}

/-- The keyword arguments of a call, by kind of value. -/
structure Kwargs where
  num : String → Option ℝ
  nat : String → Option ℕ
  flag : String → Option Bool

/-- No keyword arguments. -/
def Kwargs.none : Kwargs := ⟨fun _ => .none, fun _ => .none, fun _ => .none⟩

/-- A number given in addition. -/
def Kwargs.set (kw : Kwargs) (name : String) (v : ℝ) : Kwargs := { kw with num := Function.update kw.num name (some v) }

/-- Row `k` of the multi-indices of total order 2, columns in reverse order (optimisation.py:823-824, 830-831). -/
def orderTwo (d k : ℕ) (i : Fin d) : ℕ :=
  match totalOrderBasis (List.replicate d 2) with
  | .ok L => ((L.getD k []).reverse).getD i 0
  | .error _ => 0

/-- optimisation.py:271-278 with 815-816 and 823-824: the settings of the method `trust-region`. -/
noncomputable def trSettings (bounds : Option (Pt n × Pt n)) (kw : Kwargs) : Cfg n where
  bounds := bounds
  scale := (kw.flag "scale_bounds").getD false
  delInit := kw.num "del_k"
  rhoMin := (kw.num "rho_min").getD (1/10^6)
  eta1 := (kw.num "eta_1").getD (1/10)
  eta2 := (kw.num "eta_2").getD (7/10)
  gamDec := (kw.num "gam_dec").getD (1/2)
  gamInc := (kw.num "gam_inc").getD 2
  gamIncBar := (kw.num "gam_inc_overline").getD (5/2)
  alpha1 := (kw.num "alpha_1").getD (1/10)
  alpha2 := (kw.num "alpha_2").getD (1/2)
  omegaS := (kw.num "omega_s").getD (1/2)
  maxEvals := (kw.nat "max_evals").getD 10000
  random := (kw.flag "random_initial").getD false
  itermax := 10000
  eps1 := 2
  eps2 := 10
  basis := orderTwo n

/-- optimisation.py:280-287 with 815-816: the settings of the method `omorf` (besides `d` and `subspace_method`). -/
noncomputable def omorfSettings (bounds : Option (Pt n × Pt n)) (kw : Kwargs) : Cfg n where
  bounds := bounds
  scale := (kw.flag "scale_bounds").getD false
  delInit := kw.num "del_k"
  rhoMin := (kw.num "rho_min").getD (1/10^8)
  eta1 := (kw.num "eta_1").getD (1/10)
  eta2 := (kw.num "eta_2").getD (7/10)
  gamDec := (kw.num "gam_dec").getD (98/100)
  gamInc := (kw.num "gam_inc").getD 2
  gamIncBar := (kw.num "gam_inc_overline").getD (5/2)
  alpha1 := (kw.num "alpha_1").getD (9/10)
  alpha2 := (kw.num "alpha_2").getD (95/100)
  omegaS := (kw.num "omega_s").getD (1/2)
  maxEvals := (kw.nat "max_evals").getD 1000
  random := (kw.flag "random_initial").getD false
  itermax := 10000
  eps1 := 2
  eps2 := 10
  basis := orderTwo n

/-- C124, the part that holds. The documented keyword `del_k` is the radius with which a run starts; without keyword
arguments the settings of both methods satisfy what the theorems on bounds and radii ask for (C59, C60, C116, C118).
Missing: the documented limits on the radius (`c124_limits_violated`). -/
theorem c124_keywords_partial (bounds : Option (Pt n × Pt n)) (kw : Kwargs) (obj : Pt n → ℝ) (s : St n) (x0 : Pt n) (v : ℝ)
    (hv : kw.num "del_k" = some v) :
    (start (trSettings bounds kw) obj s x0).del = v ∧ (start (omorfSettings bounds kw) obj s x0).del = v ∧
    Sane (trSettings bounds Kwargs.none) ∧ Signs (trSettings bounds Kwargs.none) ∧
    Sane (omorfSettings bounds Kwargs.none) ∧ Signs (omorfSettings bounds Kwargs.none) := by
  refine ⟨?_, ?_, ?_, ?_, ?_, ?_⟩
  · simp only [start, setDel, updateBounds_del, initRadius, trSettings, hv]
  · simp only [start, setDel, updateBounds_del, initRadius, omorfSettings, hv]
  · constructor <;> norm_num [trSettings, Kwargs.none]
  · refine ⟨?_, ?_, ?_, ?_, fun v h => by cases h⟩ <;> norm_num [trSettings, Kwargs.none]
  · constructor <;> norm_num [omorfSettings, Kwargs.none]
  · refine ⟨?_, ?_, ?_, ?_, fun v h => by cases h⟩ <;> norm_num [omorfSettings, Kwargs.none]

example : (Kwargs.none.set "del_k" (1/2)).num "del_k" = some (1/2) := by simp [Kwargs.set]

/-- C124. A keyword that is given has effect under its own name, in both methods: a number given for a setting of the radius
rules is the one used, and `max_evals` limits the evaluations of every run up to the excess of C61 and C119; without it the
limits are 10000 and 1000. -/
theorem c124_given (bounds : Option (Pt n × Pt n)) (kw : Kwargs) (v : ℝ) :
    (kw.num "rho_min" = some v → (trSettings bounds kw).rhoMin = v ∧ (omorfSettings bounds kw).rhoMin = v) ∧
    (kw.num "eta_1" = some v → (trSettings bounds kw).eta1 = v ∧ (omorfSettings bounds kw).eta1 = v) ∧
    (kw.num "eta_2" = some v → (trSettings bounds kw).eta2 = v ∧ (omorfSettings bounds kw).eta2 = v) ∧
    (kw.num "gam_dec" = some v → (trSettings bounds kw).gamDec = v ∧ (omorfSettings bounds kw).gamDec = v) ∧
    (kw.num "gam_inc" = some v → (trSettings bounds kw).gamInc = v ∧ (omorfSettings bounds kw).gamInc = v) ∧
    (kw.num "gam_inc_overline" = some v → (trSettings bounds kw).gamIncBar = v ∧ (omorfSettings bounds kw).gamIncBar = v) ∧
    (kw.num "alpha_1" = some v → (trSettings bounds kw).alpha1 = v ∧ (omorfSettings bounds kw).alpha1 = v) ∧
    (kw.num "alpha_2" = some v → (trSettings bounds kw).alpha2 = v ∧ (omorfSettings bounds kw).alpha2 = v) ∧
    (kw.num "omega_s" = some v → (trSettings bounds kw).omegaS = v ∧ (omorfSettings bounds kw).omegaS = v) ∧
    (∀ b, kw.flag "scale_bounds" = some b → (trSettings bounds kw).scale = b ∧ (omorfSettings bounds kw).scale = b) ∧
    (∀ b, kw.flag "random_initial" = some b → (trSettings bounds kw).random = b ∧ (omorfSettings bounds kw).random = b) ∧
    (∀ (env : Env n) (maximise : Bool) (f : Pt n → ℝ) (x0 : Pt n) (N : ℕ), N = (kw.nat "max_evals").getD 10000 →
      (optimise (trSettings bounds kw) env maximise f (St.init n) x0).1.calls.length ≤
        max N 2 + 2 * ((n + 1) * (n + 2) / 2 - 1)) ∧
    (∀ (e : OEnv n) (d : ℕ) (sm : SubMethod) (maximise : Bool) (f : Pt n → ℝ) (U : Option (Dirs n)) (x0 : Pt n) (N : ℕ)
      (t : St n) (sol : Sol n), N = (kw.nat "max_evals").getD 1000 →
      optimiseOmorf (omorfSettings bounds kw) e d sm maximise f (St.init n) U x0 = .ok (t, sol) →
      t.calls.length ≤ max N 2 + (((d + 1) * (d + 2) / 2 - 1) + n + max n ((d + 1) * (d + 2) / 2 - 1))) := by
  refine ⟨?_, ?_, ?_, ?_, ?_, ?_, ?_, ?_, ?_, ?_, ?_, ?_, ?_⟩
  iterate 9 exact fun h => by simp [trSettings, omorfSettings, h]
  iterate 2 exact fun b h => by simp [trSettings, omorfSettings, h]
  · rintro env maximise f x0 N rfl
    exact c61_budget_partial (trSettings bounds kw) env maximise f x0
  · rintro e d sm maximise f U x0 N t sol rfl h
    exact c119_budget_partial (omorfSettings bounds kw) e d sm maximise f U x0 t sol h

example (bounds : Option (Pt n × Pt n)) (env : Env n) (f : Pt n → ℝ) (x0 : Pt n) :
    (optimise (trSettings bounds { Kwargs.none with nat := fun s => if s = "max_evals" then some 50 else .none }) env false f
      (St.init n) x0).1.calls.length ≤ max 50 2 + 2 * ((n + 1) * (n + 2) / 2 - 1) :=
  (c124_given bounds { Kwargs.none with nat := fun s => if s = "max_evals" then some 50 else .none } 0).2.2.2.2.2.2.2.2.2.2.2.1
    env false f x0 50 (by simp)

/-- C124 is violated: the documented limits `delmin` and `delmax` are never read. For every value given to them the settings
of both methods are the same as without; and for every `delmax < 1` every run of the trust-region method on an unbounded
problem with `max_evals = 1` evaluates the objective at a point further than `delmax` from the starting point (it returns
with a radius of at least 1). -/
theorem c124_limits_violated (kw : Kwargs) (delmin delmax : ℝ) :
    (∀ bounds : Option (Pt n × Pt n),
      trSettings bounds ((kw.set "delmin" delmin).set "delmax" delmax) = trSettings bounds kw ∧
      omorfSettings bounds ((kw.set "delmin" delmin).set "delmax" delmax) = omorfSettings bounds kw) ∧
    (delmax < 1 → kw.num "del_k" = none → kw.nat "max_evals" = some 1 → kw.flag "random_initial" = none →
      ∀ (env : Env (n + 1)) (maximise : Bool) (f : Pt (n + 1) → ℝ) (x0 : Pt (n + 1)),
      let r := optimise (trSettings .none ((kw.set "delmin" delmin).set "delmax" delmax)) env maximise f (St.init (n + 1)) x0
      (∃ y ∈ r.1.calls, delmax < |y 0 - x0 0|) ∧ delmax < r.1.del) := by
  have key : ∀ name, name ≠ "delmin" → name ≠ "delmax" →
      ((kw.set "delmin" delmin).set "delmax" delmax).num name = kw.num name := by
    intro name h1 h2
    simp only [Kwargs.set]
    rw [Function.update_of_ne h2, Function.update_of_ne h1]
  have same : ∀ {m : ℕ} (bounds : Option (Pt m × Pt m)),
      trSettings bounds ((kw.set "delmin" delmin).set "delmax" delmax) = trSettings bounds kw ∧
      omorfSettings bounds ((kw.set "delmin" delmin).set "delmax" delmax) = omorfSettings bounds kw := by
    intro m bounds
    unfold trSettings omorfSettings
    rw [key "del_k" (by decide) (by decide), key "rho_min" (by decide) (by decide), key "eta_1" (by decide) (by decide),
      key "eta_2" (by decide) (by decide), key "gam_dec" (by decide) (by decide), key "gam_inc" (by decide) (by decide),
      key "gam_inc_overline" (by decide) (by decide), key "alpha_1" (by decide) (by decide),
      key "alpha_2" (by decide) (by decide), key "omega_s" (by decide) (by decide)]
    exact ⟨rfl, rfl⟩
  refine ⟨same, fun hlt hd hm hr env maximise f x0 => ?_⟩
  simp only
  rw [(same _).1]
  have hw : Widths (trSettings (n := n + 1) .none kw) := fun l u hl => by simp [trSettings] at hl
  have hrm : ∀ x, removeScaling (trSettings (n := n + 1) .none kw) x = x := fun x => by
    unfold removeScaling; rfl
  obtain ⟨x, hx, hdel, hres⟩ := one_eval_run (trSettings (n := n + 1) .none kw) (by simp [trSettings, hm]) rfl
    (by simp [trSettings, hr]) (by simp [trSettings, hd]) env (objective maximise f) x0
  have h := inv_init (trSettings (n := n + 1) .none kw) (objective maximise f)
  obtain ⟨h1, h2, -, -, -, -⟩ := start_spec h x0
  obtain ⟨b1, b2, -, b4, -⟩ := blackbox_spec h1 x
  obtain ⟨c1, -, -, -, -⟩ := finish_fields (trSettings (n := n + 1) .none kw) _ _ b1 (h2.ext b2)
  unfold optimise
  simp only [hres, c1]
  refine ⟨⟨x, List.mem_map.2 ⟨x, b4, hrm x⟩, ?_⟩, ?_⟩
  · rw [hx, add_sub_cancel_left, abs_of_nonneg (by linarith)]
    linarith
  · have : (finish (trSettings (n := n + 1) .none kw) (blackbox (trSettings (n := n + 1) .none kw) (objective maximise f)
        (start (trSettings (n := n + 1) .none kw) (objective maximise f) (St.init (n + 1)) x0) x).1).del =
        (start (trSettings (n := n + 1) .none kw) (objective maximise f) (St.init (n + 1)) x0).del := by
      simp only [finish, setIterate, updateBounds_del]
      rw [b2.del]
    rw [this]
    linarith

example (env : Env 1) :
    1/4 < (optimise (trSettings .none (({ Kwargs.none with nat := fun s => if s = "max_evals" then some 1 else .none }.set
      "delmin" (1/100)).set "delmax" (1/4))) env false (fun x => x 0) (St.init 1) fun _ => 0).1.del :=
  ((c124_limits_violated (n := 0) _ (1/100) (1/4)).2 (by norm_num) rfl (by simp) rfl env false _ _).2

end EQ.Opt
