import Verif.Opt.RadiusProps

/-!
# When the trust region grows and when it shrinks (C217)
-/

namespace EQ.Opt

open EQ.Basis

variable {n : ℕ}

/-- Specification: a pass that tries a step. The budget is not used up, the model has been built and proposes `m`, the step is not too short, and the budget is not used up by evaluating
the new point. -/
structure Tries (cfg : Cfg n) (env : Env n) (obj : Pt n → ℝ) (r : Run n) (m : Step n) : Prop where
  evals : r.st.evals < cfg.maxEvals
  rho : cfg.rhoMin < r.st.rho
  build : env.build r.st r.S r.f = some m
  long : cfg.omegaS * r.st.rho ≤ normInf fun i => m.sNew i - r.st.sOld i
  after : (blackbox cfg obj r.st m.sNew).1.evals < cfg.maxEvals

/-- Specification: the length of the step. -/
noncomputable def stepLen (r : Run n) (m : Step n) : ℝ := normInf fun i => m.sNew i - r.st.sOld i

/-- Specification: the decrease of the function by the step, with the value at the incumbent as known to the run. -/
noncomputable def gain (cfg : Cfg n) (obj : Pt n → ℝ) (r : Run n) (m : Step n) : ℝ := r.st.fOld - obj (removeScaling cfg m.sNew)

/-- Specification: the decrease the model has predicted. -/
def predicted (m : Step n) : ℝ := m.atOld - m.mNew

theorem settle_accept (cfg : Cfg n) (env : Env n) (obj : Pt n → ℝ) (r : Run n) (fNew delM stepDist : ℝ) (h : cfg.eta2 ≤ ratioOf (r.st.fOld - fNew) delM) :
    (settle cfg env obj r fNew delM stepDist).st.del = max (cfg.gamInc * r.st.del) (cfg.gamIncBar * stepDist) ∧
    (settle cfg env obj r fNew delM stepDist).st.rho = r.st.rho := by
  unfold settle
  simp only
  rw [if_pos (by simpa [setIterate] using h)]
  constructor <;> simp [setIterate, setDel]

theorem settle_weak (cfg : Cfg n) (env : Env n) (obj : Pt n → ℝ) (r : Run n) (fNew delM stepDist : ℝ) (h2 : ratioOf (r.st.fOld - fNew) delM < cfg.eta2)
    (h1 : cfg.eta1 ≤ ratioOf (r.st.fOld - fNew) delM) :
    (settle cfg env obj r fNew delM stepDist).st.del = max (max (cfg.gamDec * r.st.del) stepDist) r.st.rho ∧
    (settle cfg env obj r fNew delM stepDist).st.rho = r.st.rho := by
  unfold settle
  simp only
  rw [if_neg (by simpa [setIterate] using h2), if_pos (by simpa [setIterate] using h1)]
  constructor <;> simp [setIterate, setDel]

theorem geometry_del {cfg : Cfg n} {env : Env n} {obj : Pt n → ℝ} {r : Run n} (h : RunInv cfg obj r) :
    (updateGeometry cfg env obj r).st.del = r.st.del ∨
    (r.st.del = r.st.rho ∧ (updateGeometry cfg env obj r).st.del = cfg.alpha2 * r.st.rho) := by
  unfold updateGeometry
  split_ifs with h1 h2
  · obtain ⟨-, -, -, h3⟩ := improveSet_spec (env := env) h
    exact .inl h3.del
  · refine .inr ⟨h2, ?_⟩
    simp only
    split_ifs <;> simp [setDel]
  · exact .inl rfl

theorem settle_fail {cfg : Cfg n} {env : Env n} {obj : Pt n → ℝ} {r : Run n} (hr : RunInv cfg obj r) (fNew delM stepDist : ℝ)
    (h2 : ratioOf (r.st.fOld - fNew) delM < cfg.eta2) (h1 : ratioOf (r.st.fOld - fNew) delM < cfg.eta1) :
    (settle cfg env obj r fNew delM stepDist).st.del = max (min (cfg.gamDec * r.st.del) stepDist) r.st.rho ∨
    (max (min (cfg.gamDec * r.st.del) stepDist) r.st.rho = r.st.rho ∧ (settle cfg env obj r fNew delM stepDist).st.del = cfg.alpha2 * r.st.rho) := by
  have p1 : Prim cfg env obj 0 r.st (setIterate cfg { r.st with ratio := ratioOf (r.st.fOld - fNew) delM }) := .iterate (.marks r.st.count _ (.refl _))
  have e1 : (setIterate cfg { r.st with ratio := ratioOf (r.st.fOld - fNew) delM }).ratio = ratioOf (r.st.fOld - fNew) delM := by simp [setIterate]
  have e2 : (setIterate cfg { r.st with ratio := ratioOf (r.st.fOld - fNew) delM }).del = r.st.del := by simp [setIterate]
  have e3 : (setIterate cfg { r.st with ratio := ratioOf (r.st.fOld - fNew) delM }).rho = r.st.rho := by simp [setIterate]
  unfold settle
  simp only
  generalize setIterate cfg { r.st with ratio := ratioOf (r.st.fOld - fNew) delM } = st at *
  rw [if_neg (by rw [e1]; push Not; exact h2), if_neg (by rw [e1]; push Not; exact h1)]
  have p2 : Prim cfg env obj 0 r.st (setDel cfg (max (min (cfg.gamDec * st.del) stepDist) st.rho)
      { st with count := st.count + 1 }) := .del _ (.marks _ st.ratio p1) (.inl (le_max_right _ _))
  rcases geometry_del (env := env) (hr.prim p2) with h | ⟨h, h'⟩
  · left; rw [h]; simp [setDel, e2, e3]
  · right
    simp only [setDel, updateBounds_del, updateBounds_rho, e2, e3] at h h' ⊢
    exact ⟨h, h'⟩

/-- The state in which the pass is settled. -/
theorem iter_tries {cfg : Cfg n} {env : Env n} {obj : Pt n → ℝ} {r : Run n} (h : RunInv cfg obj r) {m : Step n} (ht : Tries cfg env obj r m) :
    ∃ r2, RunInv cfg obj r2 ∧ r2.st.fOld = r.st.fOld ∧ r2.st.del = r.st.del ∧ r2.st.rho = r.st.rho ∧
      iter cfg env obj r = (settle cfg env obj r2 (obj (removeScaling cfg m.sNew)) (predicted m) (stepLen r m), false) := by
  have p1 : Prim cfg env obj 1 r.st (blackbox cfg obj r.st m.sNew).1 := .eval _ (.refl _) (.inl ⟨_, _, _, ht.build, rfl⟩)
  obtain ⟨-, b2, b3, b4, -⟩ := blackbox_spec h.inv m.sNew
  obtain ⟨-, hri, -, hex⟩ := replaceSet_spec (env := env) (h.prim p1) (x := m.sNew) b4 b3
  refine ⟨_, hri, hex.fOld.trans b2.fOld, hex.del.trans b2.del, hex.rho.trans b2.rho, ?_⟩
  unfold iter
  have h1 := ht.evals
  have h2 := ht.rho
  have h3 := ht.long
  have h4 := ht.after
  rw [if_neg (by push Not; exact ⟨h1, h2⟩), ht.build]
  simp only
  rw [if_neg (by push Not; exact h3), if_neg (by push Not; exact ⟨h4, by rw [b2.rho]; exact h2⟩), b3]
  rfl

/-- **C217 (partial).** The trust region follows the quality of the prediction: in every pass of every run that tries a step whose predicted decrease is at least `100 ε`, comparing the
decrease of the function with the prediction,

* if it is at least `eta_2` times the prediction the radius becomes the larger of `gam_inc` times the radius and `gam_inc_overline` times the length of the step;
* if it is at least `eta_1` times but less than `eta_2` times the prediction, the largest of `gam_dec` times the radius, the length of the step and the resolution;
* if it is less than both, `gam_dec` times the radius or the length of the step, whichever is smaller, but at least the resolution; or `alpha_2` times the resolution, and the latter only
  if the radius would have been the resolution.

In the first two cases the resolution is kept. -/
theorem c217_radius_partial (cfg : Cfg n) (env : Env n) (obj : Pt n → ℝ) (r : Run n) (h : RunInv cfg obj r) (m : Step n) (ht : Tries cfg env obj r m)
    (hp : 100 / 2 ^ 52 ≤ predicted m) :
    let r' := (iter cfg env obj r).1
    (cfg.eta2 * predicted m ≤ gain cfg obj r m → r'.st.del = max (cfg.gamInc * r.st.del) (cfg.gamIncBar * stepLen r m) ∧ r'.st.rho = r.st.rho) ∧
    (cfg.eta1 * predicted m ≤ gain cfg obj r m → gain cfg obj r m < cfg.eta2 * predicted m →
      r'.st.del = max (max (cfg.gamDec * r.st.del) (stepLen r m)) r.st.rho ∧ r'.st.rho = r.st.rho) ∧
    (gain cfg obj r m < cfg.eta1 * predicted m → gain cfg obj r m < cfg.eta2 * predicted m →
      r'.st.del = max (min (cfg.gamDec * r.st.del) (stepLen r m)) r.st.rho ∨
      (max (min (cfg.gamDec * r.st.del) (stepLen r m)) r.st.rho = r.st.rho ∧ r'.st.del = cfg.alpha2 * r.st.rho)) := by
  intro r'
  obtain ⟨r2, hr2, e1, e2, e3, e4⟩ := iter_tries h ht
  have hp0 : 0 < predicted m := lt_of_lt_of_le (by positivity) hp
  have er : ratioOf (r2.st.fOld - obj (removeScaling cfg m.sNew)) (predicted m) = gain cfg obj r m / predicted m := by
    unfold ratioOf
    rw [if_neg (by rw [abs_of_pos hp0]; push Not; exact hp), e1]
    rfl
  have ei : r' = settle cfg env obj r2 (obj (removeScaling cfg m.sNew)) (predicted m) (stepLen r m) := by
    show (iter cfg env obj r).1 = _
    rw [e4]
  rw [ei]
  refine ⟨fun g => ?_, fun g1 g2 => ?_, fun g1 g2 => ?_⟩
  · have := settle_accept cfg env obj r2 (obj (removeScaling cfg m.sNew)) (predicted m) (stepLen r m) (by rw [er, le_div_iff₀ hp0]; exact g)
    rw [this.1, this.2, e2, e3]
    exact ⟨rfl, rfl⟩
  · have := settle_weak cfg env obj r2 (obj (removeScaling cfg m.sNew)) (predicted m) (stepLen r m) (by rw [er, div_lt_iff₀ hp0]; exact g2)
      (by rw [er, le_div_iff₀ hp0]; exact g1)
    rw [this.1, this.2, e2, e3]
    exact ⟨rfl, rfl⟩
  · have := settle_fail (env := env) hr2 (obj (removeScaling cfg m.sNew)) (predicted m) (stepLen r m) (by rw [er, div_lt_iff₀ hp0]; exact g2)
      (by rw [er, div_lt_iff₀ hp0]; exact g1)
    rw [e2, e3] at this
    exact this

/-- **C217, the code.** A prediction smaller than `100 ε` counts as fulfilled, whatever the function does: the radius then grows even if the step has raised the function. The bound is
absolute, so for a function with values of the order of `10⁻¹⁴` this is every step. -/
theorem c217_tiny_violated (cfg : Cfg n) (h1 : cfg.eta2 ≤ 1) (env : Env n) (obj : Pt n → ℝ) (r : Run n) (h : RunInv cfg obj r) (m : Step n) (ht : Tries cfg env obj r m)
    (hp : |predicted m| < 100 / 2 ^ 52) :
    (iter cfg env obj r).1.st.del = max (cfg.gamInc * r.st.del) (cfg.gamIncBar * stepLen r m) := by
  obtain ⟨r2, hr2, e1, e2, e3, e4⟩ := iter_tries h ht
  rw [e4, (settle_accept cfg env obj r2 (obj (removeScaling cfg m.sNew)) (predicted m) (stepLen r m) (by
    unfold ratioOf; rw [if_pos hp]; exact h1)).1, e2]

theorem blackbox_evals (cfg : Cfg n) (obj : Pt n → ℝ) (s : St n) (x : Pt n) : (blackbox cfg obj s x).1.evals ≤ s.evals + 1 := by
  unfold blackbox
  split_ifs <;> simp

/-- The step to `1/2` proposed by a model that is `-p` lower there. -/
noncomputable def stepTo (p : ℝ) : Step 1 := ⟨0, fun _ => 1/2, -p⟩

/-- The library functions of the example with this step. -/
noncomputable def stepEnv (p : ℝ) : Env 1 := { envDemo with build := fun _ _ _ => some (stepTo p) }

theorem stepLen_demo (p : ℝ) : stepLen runDemo (stepTo p) = 1/2 := by
  norm_num [stepLen, normInf, runDemo, stDemo, stepTo, maxList]

theorem tries_demo (p : ℝ) (obj : Pt 1 → ℝ) : Tries cfgDemo (stepEnv p) obj runDemo (stepTo p) where
  evals := by norm_num [runDemo, stDemo, cfgDemo]
  rho := by norm_num [runDemo, stDemo, cfgDemo]
  build := rfl
  long := by
    have := stepLen_demo p
    unfold stepLen at this
    rw [this]
    norm_num [runDemo, stDemo, cfgDemo]
  after := lt_of_le_of_lt (blackbox_evals _ _ _ _) (by norm_num [runDemo, stDemo, cfgDemo])

theorem gain_demo (p : ℝ) : gain cfgDemo (objective false fun x => x 0 ^ 2) runDemo (stepTo p) = -(1/4) := by
  norm_num [gain, runDemo, stDemo, stepTo, removeScaling, cfgDemo, objective]

/-- **C217, the code**, a run: the function `x²` rises by `1/4` with the step from 0 to `1/2`. If the model had promised 1, the radius would not grow (see the example below); as it promised nothing the
radius is doubled. -/
theorem c217_rise_violated :
    gain cfgDemo (objective false fun x => x 0 ^ 2) runDemo (stepTo 0) = -(1/4) ∧ runDemo.st.del = 1 ∧
    (iter cfgDemo (stepEnv 0) (objective false fun x => x 0 ^ 2) runDemo).1.st.del = 2 := by
  refine ⟨gain_demo 0, rfl, ?_⟩
  rw [c217_tiny_violated cfgDemo (by norm_num [cfgDemo]) (stepEnv 0) _ runDemo runDemo_inv (stepTo 0) (tries_demo 0 _) (by norm_num [predicted, stepTo]), stepLen_demo]
  norm_num [cfgDemo, runDemo, stDemo]

/-- With the promise 1 the third case of `c217_radius_partial` holds. -/
example : (iter cfgDemo (stepEnv 1) (objective false fun x => x 0 ^ 2) runDemo).1.st.del ≤ 1 := by
  have h := (c217_radius_partial cfgDemo (stepEnv 1) _ runDemo runDemo_inv (stepTo 1) (tries_demo 1 _) (by norm_num [predicted, stepTo])).2.2
    (by rw [gain_demo]; norm_num [cfgDemo, predicted, stepTo]) (by rw [gain_demo]; norm_num [cfgDemo, predicted, stepTo])
  rw [stepLen_demo] at h
  rcases h with h | ⟨-, h⟩ <;> rw [h] <;> norm_num [cfgDemo, runDemo, stDemo]

end EQ.Opt
