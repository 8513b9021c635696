import Verif.Opt.GainProps
import Verif.Opt.Kwargs

/-!
# The radius in runs of `omorf` (C217) and passes with too short a step (C218)
-/

namespace EQ.Opt

open EQ.Basis

variable {n : ℕ}

/-! ## C217 for `omorf` -/

/-- Specification: a pass of `omorf` that tries a step. -/
structure OTries (cfg : Cfg n) (e : OEnv n) (obj : Pt n → ℝ) (r : ORun n) (m : Step n) : Prop where
  evals : r.st.evals < cfg.maxEvals
  rho : cfg.rhoMin < r.st.rho
  build : e.build r.U r.st r.SR r.fR = some m
  long : cfg.omegaS * r.st.rho ≤ normInf fun i => m.sNew i - r.st.sOld i
  after : (blackbox cfg obj r.st m.sNew).1.evals < cfg.maxEvals

/-- Specification: the length of the step. -/
noncomputable def oStepLen (r : ORun n) (m : Step n) : ℝ := normInf fun i => m.sNew i - r.st.sOld i

/-- Specification: the decrease of the function by the step. -/
noncomputable def oGain (cfg : Cfg n) (obj : Pt n → ℝ) (r : ORun n) (m : Step n) : ℝ := r.st.fOld - obj (removeScaling cfg m.sNew)

theorem oGeometry_del {cfg : Cfg n} {e : OEnv n} {d : ℕ} {sm : SubMethod} {obj : Pt n → ℝ} {r : ORun n} (h : ORunInv cfg obj d r) :
    (oGeometry cfg e d sm obj r).st.del = r.st.del ∨
    (r.st.del = r.st.rho ∧ (oGeometry cfg e d sm obj r).st.del = cfg.alpha2 * r.st.rho) := by
  unfold oGeometry
  split_ifs with h1 h2 h3
  · obtain ⟨-, -, -, hex⟩ := oImprove_spec (cfg := cfg) (env := e.full) (psi2 := 1) (q := n + 1) (by omega)
      (φ := phiFull) (r := ⟨r.st, r.SF, r.fF⟩) h.inv h.old h.full
    exact .inl hex.del
  · obtain ⟨-, -, -, hex⟩ := oImprove_spec (cfg := cfg) (env := e.red r.U) (psi2 := 1/4) (redSize_pos d)
      (φ := phiRed d r.U) (r := ⟨r.st, r.SR, r.fR⟩) h.inv h.old h.red
    exact .inl hex.del
  · refine .inr ⟨h3, ?_⟩
    simp only
    split_ifs <;> simp [setDel]
  · exact .inl rfl

/-- The state in which the radius of the pass is set. -/
theorem oIter_tries {cfg : Cfg n} {e : OEnv n} {d : ℕ} {sm : SubMethod} {obj : Pt n → ℝ} {r : ORun n} (h : ORunInv cfg obj d r) {m : Step n} (ht : OTries cfg e obj r m) :
    ∃ r2, ORunInv cfg obj d r2 ∧ r2.st.ratio = ratioOf (oGain cfg obj r m) (predicted m) ∧ r2.st.del = r.st.del ∧ r2.st.rho = r.st.rho ∧
      oIter cfg e d sm obj r = (oRadius cfg e d sm obj r2 (oStepLen r m), false) := by
  have p1 : Prim cfg (e.red r.U) obj 1 r.st (blackbox cfg obj r.st m.sNew).1 := .eval _ (.refl _) (.inl ⟨_, _, _, ht.build, rfl⟩)
  obtain ⟨-, b2, b3, b4, -⟩ := blackbox_spec h.inv m.sNew
  have p2 : Prim cfg (e.red r.U) obj 1 r.st (setIterate cfg { (blackbox cfg obj r.st m.sNew).1 with
      ratio := ratioOf ((blackbox cfg obj r.st m.sNew).1.fOld - (blackbox cfg obj r.st m.sNew).2) (m.atOld - m.mNew) }) :=
    .iterate (.marks (blackbox cfg obj r.st m.sNew).1.count _ p1)
  have hmem : m.sNew ∈ (setIterate cfg { (blackbox cfg obj r.st m.sNew).1 with
      ratio := ratioOf ((blackbox cfg obj r.st m.sNew).1.fOld - (blackbox cfg obj r.st m.sNew).2) (m.atOld - m.mNew) }).S := by simpa [setIterate] using b4
  have hrat : (setIterate cfg { (blackbox cfg obj r.st m.sNew).1 with
      ratio := ratioOf ((blackbox cfg obj r.st m.sNew).1.fOld - (blackbox cfg obj r.st m.sNew).2) (m.atOld - m.mNew) }).ratio = ratioOf (oGain cfg obj r m) (predicted m) := by
    simp only [setIterate, updateBounds_ratio, b3, b2.fOld]; rfl
  have hdel : (setIterate cfg { (blackbox cfg obj r.st m.sNew).1 with
      ratio := ratioOf ((blackbox cfg obj r.st m.sNew).1.fOld - (blackbox cfg obj r.st m.sNew).2) (m.atOld - m.mNew) }).del = r.st.del := by
    simp [setIterate, b2.del]
  have hrho : (setIterate cfg { (blackbox cfg obj r.st m.sNew).1 with
      ratio := ratioOf ((blackbox cfg obj r.st m.sNew).1.fOld - (blackbox cfg obj r.st m.sNew).2) (m.atOld - m.mNew) }).rho = r.st.rho := by
    simp [setIterate, b2.rho]
  have hI := h.steps (Steps.of (calls_red e _) p2)
  obtain ⟨-, hs, -, hex⟩ := oReplace_spec (cfg := cfg) (env := e.red r.U) (psi2 := 1/4) (redSize_pos d)
    (φ := phiRed d r.U) (r := ⟨_, r.SR, r.fR⟩) hI.inv hI.old hI.red (x := m.sNew) hmem b3
  obtain ⟨-, hs', -, hex'⟩ := oReplace_spec (cfg := cfg) (env := e.full) (psi2 := 1) (q := n + 1)
    (by omega) (φ := phiFull) (r := ⟨_, r.SF, r.fF⟩) hs.inv hs.old (hI.full.ext hex.pre) (x := m.sNew) (hex.pre.subset hmem) b3
  have hI' : ORunInv cfg obj d ⟨_, _, _, _, _, r.U⟩ := ⟨hs'.inv, hs'.old, hs'.set, hs'.len, hs.set.ext hex'.pre, hs.len⟩
  refine ⟨_, hI', hex'.ratio.trans (hex.ratio.trans hrat),
    hex'.del.trans (hex.del.trans hdel), hex'.rho.trans (hex.rho.trans hrho), ?_⟩
  unfold oIter
  have h1 := ht.evals
  have h2 := ht.rho
  have h3 := ht.long
  have h4 := ht.after
  rw [if_neg (by push Not; exact ⟨h1, h2⟩), ht.build]
  simp only
  rw [if_neg (by push Not; exact h3), if_neg (by push Not; exact ⟨h4, by rw [b2.rho]; exact h2⟩)]
  rfl

/-- **C217 (partial), the method `omorf`.** The same three cases. -/
theorem c217_omorf_partial (cfg : Cfg n) (e : OEnv n) (d : ℕ) (sm : SubMethod) (obj : Pt n → ℝ) (r : ORun n) (h : ORunInv cfg obj d r) (m : Step n) (ht : OTries cfg e obj r m)
    (hp : 100 / 2 ^ 52 ≤ predicted m) :
    let r' := (oIter cfg e d sm obj r).1
    (cfg.eta2 * predicted m ≤ oGain cfg obj r m → r'.st.del = max (cfg.gamInc * r.st.del) (cfg.gamIncBar * oStepLen r m) ∧ r'.st.rho = r.st.rho) ∧
    (cfg.eta1 * predicted m ≤ oGain cfg obj r m → oGain cfg obj r m < cfg.eta2 * predicted m →
      r'.st.del = max (max (cfg.gamDec * r.st.del) (oStepLen r m)) r.st.rho ∧ r'.st.rho = r.st.rho) ∧
    (oGain cfg obj r m < cfg.eta1 * predicted m → oGain cfg obj r m < cfg.eta2 * predicted m →
      r'.st.del = max (min (cfg.gamDec * r.st.del) (oStepLen r m)) r.st.rho ∨
      (max (min (cfg.gamDec * r.st.del) (oStepLen r m)) r.st.rho = r.st.rho ∧ r'.st.del = cfg.alpha2 * r.st.rho)) := by
  intro r'
  obtain ⟨r2, hr2, e1, e2, e3, e4⟩ := oIter_tries (sm := sm) h ht
  have hp0 : 0 < predicted m := lt_of_lt_of_le (by positivity) hp
  have er : r2.st.ratio = oGain cfg obj r m / predicted m := by
    rw [e1]
    unfold ratioOf
    rw [if_neg (by rw [abs_of_pos hp0]; push Not; exact hp)]
  have ei : r' = oRadius cfg e d sm obj r2 (oStepLen r m) := by
    show (oIter cfg e d sm obj r).1 = _
    rw [e4]
  rw [ei]
  unfold oRadius
  refine ⟨fun g => ?_, fun g1 g2 => ?_, fun g1 g2 => ?_⟩
  · rw [if_pos (by rw [er, ge_iff_le, le_div_iff₀ hp0]; exact g)]
    simp [setDel, e2, e3]
  · rw [if_neg (by rw [er, ge_iff_le, le_div_iff₀ hp0]; push Not; exact g2), if_pos (by rw [er, ge_iff_le, le_div_iff₀ hp0]; exact g1)]
    simp [setDel, e2, e3]
  · rw [if_neg (by rw [er, ge_iff_le, le_div_iff₀ hp0]; push Not; exact g2), if_neg (by rw [er, ge_iff_le, le_div_iff₀ hp0]; push Not; exact g1)]
    have p2 : Prim cfg e.full obj 0 r2.st (setDel cfg (max (min (cfg.gamDec * r2.st.del) (oStepLen r m)) r2.st.rho)
        { r2.st with count := r2.st.count + 1 }) := .del _ (.marks _ r2.st.ratio (.refl _)) (.inl (le_max_right _ _))
    rcases oGeometry_del (e := e) (sm := sm) (hr2.steps (Steps.of (calls_full e) p2)) with h | ⟨h, h'⟩
    · left; rw [h]; simp [setDel, e2, e3]
    · right
      simp only [setDel, updateBounds_del, updateBounds_rho, e2, e3] at h h' ⊢
      exact ⟨h, h'⟩

/-! ## C218: too short a step -/

theorem spread_le {st : St n} {S : List (Pt n)} {b : ℝ} (hb : 0 ≤ b) (h : ∀ x ∈ S, normInf (fun i => x i - st.sOld i) ≤ b) : spread st S ≤ b := by
  unfold spread maxList
  have : ∀ l : List ℝ, (∀ a ∈ l, a ≤ b) → l.foldr max 0 ≤ b := by
    intro l
    induction l with
    | nil => intro _; simpa using hb
    | cons a l ih => intro hl; exact max_le (hl a (by simp)) (ih fun c hc => hl c (by simp [hc]))
  apply this
  intro a ha
  obtain ⟨x, hx, rfl⟩ := List.mem_map.1 ha
  exact h x hx

/-- **C218**, the method `trust-region` with any keyword arguments. A pass whose step is shorter than `omega_s` times the resolution lowers the radius to `gam_dec` times the radius, or to the
resolution if that is larger (then on to `alpha_2` times the resolution); and it does not call the function and keeps the sample set if no sample point is further from the incumbent than
twice the new radius and ten times the resolution. -/
theorem c218_trust (bounds : Option (Pt n × Pt n)) (kw : Kwargs) (env : Env n) (obj : Pt n → ℝ) (r : Run n) (m : Step n)
    (he : r.st.evals < (trSettings bounds kw).maxEvals) (hr : (trSettings bounds kw).rhoMin < r.st.rho) (h0 : 0 ≤ r.st.rho)
    (hm : env.build r.st r.S r.f = some m) (hs : stepLen r m < (trSettings bounds kw).omegaS * r.st.rho)
    (hnear : ∀ x ∈ r.S, normInf (fun i => x i - r.st.sOld i) ≤ max (2 * max ((trSettings bounds kw).gamDec * r.st.del) r.st.rho) (10 * r.st.rho)) :
    let r' := (iter (trSettings bounds kw) env obj r).1
    r'.S = r.S ∧ r'.f = r.f ∧ r'.st.S = r.st.S ∧ r'.st.calls = r.st.calls ∧ r'.st.evals = r.st.evals ∧ r'.st.sOld = r.st.sOld ∧
    (r.st.rho < (trSettings bounds kw).gamDec * r.st.del → r'.st.del = (trSettings bounds kw).gamDec * r.st.del ∧ r'.st.rho = r.st.rho) ∧
    ((trSettings bounds kw).gamDec * r.st.del ≤ r.st.rho → r'.st.del = (trSettings bounds kw).alpha2 * r.st.rho ∧ r'.st.rho = reduceRho (trSettings bounds kw) r.st.rho) := by
  intro r'
  set cfg := trSettings bounds kw with hcfg
  have h1 : cfg.eps1 = 2 := rfl
  have h2 : cfg.eps2 = 10 := rfl
  have hi : r' = updateGeometry cfg env obj { r with st := setDel cfg (max (cfg.gamDec * r.st.del) r.st.rho) { r.st with ratio := -1/10, count := 3 } } := by
    show (iter cfg env obj r).1 = _
    unfold iter
    rw [if_neg (by push Not; exact ⟨he, hr⟩), hm]
    simp only
    have hs' : (normInf fun i => m.sNew i - r.st.sOld i) < cfg.omegaS * r.st.rho := hs
    rw [if_pos hs']
  have hsp : ¬ spread (setDel cfg (max (cfg.gamDec * r.st.del) r.st.rho) { r.st with ratio := -1/10, count := 3 }) r.S >
      limit cfg (setDel cfg (max (cfg.gamDec * r.st.del) r.st.rho) { r.st with ratio := -1/10, count := 3 }) := by
    push Not
    unfold limit
    simp only [setDel, updateBounds_rho, updateBounds_del, h1, h2]
    refine spread_le (le_max_of_le_right (by positivity)) fun x hx => ?_
    simp only [updateBounds_sOld]
    exact hnear x hx
  rw [hi]
  unfold updateGeometry
  simp only
  rw [if_neg hsp]
  by_cases hd : r.st.rho < cfg.gamDec * r.st.del
  · rw [if_neg (by simp only [setDel, updateBounds_del, updateBounds_rho]; rw [max_eq_left hd.le]; exact hd.ne')]
    refine ⟨rfl, rfl, by simp [setDel], by simp [setDel], by simp [setDel], by simp [setDel], fun _ => ?_, fun h => absurd h (not_le.2 hd)⟩
    simp [setDel, max_eq_left hd.le]
  · rw [if_pos (by simp only [setDel, updateBounds_del, updateBounds_rho]; rw [max_eq_right (not_lt.1 hd)]), if_pos (by
      constructor <;> norm_num [setDel])]
    refine ⟨rfl, rfl, by simp [setDel], by simp [setDel], by simp [setDel], by simp [setDel], fun h => absurd h hd, fun _ => ?_⟩
    simp [setDel]

/-- **C218 (partial), the method `omorf`** with any keyword arguments: the same for the two sample sets, but with one half for the factor. -/
theorem c218_omorf_partial (bounds : Option (Pt n × Pt n)) (kw : Kwargs) (e : OEnv n) (d : ℕ) (sm : SubMethod) (obj : Pt n → ℝ) (r : ORun n) (m : Step n)
    (he : r.st.evals < (omorfSettings bounds kw).maxEvals) (hr : (omorfSettings bounds kw).rhoMin < r.st.rho) (h0 : 0 ≤ r.st.rho)
    (hm : e.build r.U r.st r.SR r.fR = some m) (hs : oStepLen r m < (omorfSettings bounds kw).omegaS * r.st.rho)
    (hnear : ∀ x ∈ r.SF ++ r.SR, normInf (fun i => x i - r.st.sOld i) ≤ max (2 * max (1/2 * r.st.del) r.st.rho) (10 * r.st.rho)) :
    let r' := (oIter (omorfSettings bounds kw) e d sm obj r).1
    r'.SF = r.SF ∧ r'.fF = r.fF ∧ r'.SR = r.SR ∧ r'.fR = r.fR ∧ r'.U = r.U ∧ r'.st.S = r.st.S ∧ r'.st.calls = r.st.calls ∧ r'.st.evals = r.st.evals ∧ r'.st.sOld = r.st.sOld ∧
    (r.st.rho < 1/2 * r.st.del → r'.st.del = 1/2 * r.st.del ∧ r'.st.rho = r.st.rho) ∧
    (1/2 * r.st.del ≤ r.st.rho → r'.st.del = (omorfSettings bounds kw).alpha2 * r.st.rho ∧ r'.st.rho = reduceRho (omorfSettings bounds kw) r.st.rho) := by
  intro r'
  set cfg := omorfSettings bounds kw with hcfg
  have h1 : cfg.eps1 = 2 := rfl
  have h2 : cfg.eps2 = 10 := rfl
  have hi : r' = oGeometry cfg e d sm obj { r with st := setDel cfg (max (1/2 * r.st.del) r.st.rho) { r.st with ratio := -1/10, count := 3 } } := by
    show (oIter cfg e d sm obj r).1 = _
    unfold oIter
    rw [if_neg (by push Not; exact ⟨he, hr⟩), hm]
    simp only
    have hs' : (normInf fun i => m.sNew i - r.st.sOld i) < cfg.omegaS * r.st.rho := hs
    rw [if_pos hs']
  have hsp : ∀ S : List (Pt n), (∀ x ∈ S, x ∈ r.SF ++ r.SR) → ¬ spread (setDel cfg (max (1/2 * r.st.del) r.st.rho) { r.st with ratio := -1/10, count := 3 }) S >
      limit cfg (setDel cfg (max (1/2 * r.st.del) r.st.rho) { r.st with ratio := -1/10, count := 3 }) := by
    intro S hS
    push Not
    unfold limit
    simp only [setDel, updateBounds_rho, updateBounds_del, h1, h2]
    refine spread_le (le_max_of_le_right (by positivity)) fun x hx => ?_
    simp only [updateBounds_sOld]
    exact hnear x (hS x hx)
  rw [hi]
  unfold oGeometry
  simp only
  rw [if_neg (hsp r.SF fun x hx => by simp [hx]), if_neg (hsp r.SR fun x hx => by simp [hx])]
  by_cases hd : r.st.rho < 1/2 * r.st.del
  · rw [if_neg (by simp only [setDel, updateBounds_del, updateBounds_rho]; rw [max_eq_left hd.le]; exact hd.ne')]
    refine ⟨rfl, rfl, rfl, rfl, rfl, by simp [setDel], by simp [setDel], by simp [setDel], by simp [setDel], fun _ => ?_, fun h => absurd h (not_le.2 hd)⟩
    simp only [setDel, updateBounds_del, updateBounds_rho, max_eq_left hd.le, and_self]
  · rw [if_pos (by simp only [setDel, updateBounds_del, updateBounds_rho]; rw [max_eq_right (not_lt.1 hd)]), if_pos (by
      constructor <;> norm_num [setDel])]
    refine ⟨rfl, rfl, rfl, rfl, rfl, by simp [setDel], by simp [setDel], by simp [setDel], by simp [setDel], fun h => absurd h hd, fun _ => ?_⟩
    simp [setDel]

/-- **C218, the code.** In `omorf` the argument `gam_dec` is not used for such a pass: the radius is halved, whatever `gam_dec` is. The default of `gam_dec` is 0.98. -/
theorem c218_factor_violated (bounds : Option (Pt n × Pt n)) (kw : Kwargs) (hk : kw.num "gam_dec" ≠ some (1/2)) (e : OEnv n) (d : ℕ) (sm : SubMethod) (obj : Pt n → ℝ)
    (r : ORun n) (m : Step n) (he : r.st.evals < (omorfSettings bounds kw).maxEvals) (hr : (omorfSettings bounds kw).rhoMin < r.st.rho) (h0 : 0 ≤ r.st.rho)
    (hm : e.build r.U r.st r.SR r.fR = some m) (hs : oStepLen r m < (omorfSettings bounds kw).omegaS * r.st.rho)
    (hnear : ∀ x ∈ r.SF ++ r.SR, normInf (fun i => x i - r.st.sOld i) ≤ max (2 * max (1/2 * r.st.del) r.st.rho) (10 * r.st.rho)) (hd : r.st.rho < 1/2 * r.st.del) :
    (oIter (omorfSettings bounds kw) e d sm obj r).1.st.del ≠ (omorfSettings bounds kw).gamDec * r.st.del := by
  have h := (c218_omorf_partial bounds kw e d sm obj r m he hr h0 hm hs hnear).2.2.2.2.2.2.2.2.2.1 hd
  rw [h.1]
  intro hc
  have hg : (omorfSettings bounds kw).gamDec = 1/2 := (mul_right_cancel₀ (by linarith : r.st.del ≠ 0) hc).symm
  simp only [omorfSettings] at hg
  cases hv : kw.num "gam_dec" with
  | none => rw [hv] at hg; norm_num at hg
  | some v => rw [hv] at hg hk; simp at hg; exact hk (by rw [hg]; norm_num)

/-- A state of `omorf` in one variable: incumbent 0, radius 1, resolution 1/4. -/
noncomputable def orunDemo : ORun 1 :=
  ⟨{ stDemo with rho := 1/4 }, [fun _ => 0, fun _ => 1], [0, 1], [fun _ => 0, fun _ => 1, fun _ => -1], [0, 1, 1], [fun _ => 1]⟩

/-- Outside calls that propose no step at all. -/
noncomputable def stayEnv : OEnv 1 := { oenvDemo with build := fun _ _ _ _ => some ⟨0, fun _ => 0, 0⟩ }

theorem stay_short : oStepLen orunDemo ⟨0, fun _ => 0, 0⟩ = 0 := by
  norm_num [oStepLen, normInf, orunDemo, stDemo, maxList]

theorem near_demo : ∀ x ∈ orunDemo.SF ++ orunDemo.SR, normInf (fun i => x i - orunDemo.st.sOld i) ≤
    max (2 * max (1/2 * orunDemo.st.del) orunDemo.st.rho) (10 * orunDemo.st.rho) := by
  intro x hx
  have : x = (fun _ => 0) ∨ x = (fun _ => 1) ∨ x = (fun _ => -1) := by
    simp only [orunDemo, List.mem_append, List.mem_cons, List.not_mem_nil, or_false] at hx
    tauto
  rcases this with rfl | rfl | rfl <;> norm_num [normInf, orunDemo, stDemo, maxList]

/-- With the default settings the radius falls from 1 to 1/2, not to 0.98. -/
example (obj : Pt 1 → ℝ) :
    (oIter (omorfSettings none Kwargs.none) stayEnv 1 .active obj orunDemo).1.st.del = 1/2 ∧
    (oIter (omorfSettings none Kwargs.none) stayEnv 1 .active obj orunDemo).1.st.del ≠ (omorfSettings (n := 1) none Kwargs.none).gamDec * orunDemo.st.del := by
  have he : orunDemo.st.evals < (omorfSettings (n := 1) none Kwargs.none).maxEvals := by norm_num [orunDemo, stDemo, omorfSettings, Kwargs.none]
  have hr : (omorfSettings (n := 1) none Kwargs.none).rhoMin < orunDemo.st.rho := by norm_num [orunDemo, stDemo, omorfSettings, Kwargs.none]
  have hs : oStepLen orunDemo ⟨0, fun _ => 0, 0⟩ < (omorfSettings (n := 1) none Kwargs.none).omegaS * orunDemo.st.rho := by
    rw [stay_short]; norm_num [orunDemo, stDemo, omorfSettings, Kwargs.none]
  have h0 : (0 : ℝ) ≤ orunDemo.st.rho := by norm_num [orunDemo, stDemo]
  have hd : orunDemo.st.rho < 1/2 * orunDemo.st.del := by norm_num [orunDemo, stDemo]
  refine ⟨?_, c218_factor_violated none Kwargs.none (by simp [Kwargs.none]) stayEnv 1 .active obj orunDemo _ he hr h0 rfl hs near_demo hd⟩
  rw [((c218_omorf_partial none Kwargs.none stayEnv 1 .active obj orunDemo _ he hr h0 rfl hs near_demo).2.2.2.2.2.2.2.2.2.1 hd).1]
  norm_num [orunDemo, stDemo]

/-- The trust-region method halves the radius by default: the function is not called. -/
example (obj : Pt 1 → ℝ) :
    (iter (trSettings none Kwargs.none) { envDemo with build := fun _ _ _ => some ⟨0, fun _ => 0, 0⟩ } obj { runDemo with st := { stDemo with rho := 1/4 } }).1.st.calls =
      stDemo.calls := by
  have hs : stepLen ({ runDemo with st := { stDemo with rho := 1/4 } } : Run 1) ⟨0, fun _ => 0, 0⟩ = 0 := by norm_num [stepLen, normInf, stDemo, maxList]
  refine (c218_trust none Kwargs.none _ obj { runDemo with st := { stDemo with rho := 1/4 } } _ ?_ ?_ ?_ rfl ?_ ?_).2.2.2.1
  · norm_num [stDemo, trSettings, Kwargs.none]
  · norm_num [stDemo, trSettings, Kwargs.none]
  · norm_num [stDemo]
  · rw [hs]; norm_num [stDemo, trSettings, Kwargs.none]
  · intro x hx
    have : x = (fun _ => 0) ∨ x = (fun _ => 1) ∨ x = (fun _ => -1) := by
      simpa only [runDemo, List.mem_cons, List.not_mem_nil, or_false] using hx
    rcases this with rfl | rfl | rfl <;> norm_num [normInf, stDemo, maxList, trSettings, Kwargs.none]

/-- A pass of `omorf` that tries the step from 0 to 1/2. -/
example (obj : Pt 1 → ℝ) : OTries (omorfSettings none Kwargs.none) { oenvDemo with build := fun _ _ _ _ => some (stepTo 1) } obj orunDemo (stepTo 1) where
  evals := by norm_num [orunDemo, stDemo, omorfSettings, Kwargs.none]
  rho := by norm_num [orunDemo, stDemo, omorfSettings, Kwargs.none]
  build := rfl
  long := by norm_num [normInf, orunDemo, stDemo, stepTo, maxList, omorfSettings, Kwargs.none]
  after := lt_of_le_of_lt (blackbox_evals _ _ _ _) (by norm_num [orunDemo, stDemo, omorfSettings, Kwargs.none])

end EQ.Opt
