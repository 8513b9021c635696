import Verif.Opt.ScaleProps
import Verif.Opt.OmorfProps

/-!
# The units of the objective and the `omorf` method (C199, C200)
-/

namespace EQ.Opt
open EQ.Basis EQ.Poly EQ.Sub

variable {n : ℕ}

/-! ## Specification -/

/-- The outside calls of `omorf` do not mind the units: directions and correlations stay, the model follows the values and keeps its minimiser, new
points and random directions do not depend on the values. -/
structure OEnvUnits (env : OEnv n) (g e : ℝ) : Prop where
  active : ∀ s S f, S.length = f.length → env.active (s.units g e) S (f.map (aff g e)) = env.active s S f
  r2 : ∀ S f U, S.length = f.length → env.r2 S (f.map (aff g e)) U = env.r2 S f U
  varproj : ∀ S f U, S.length = f.length → env.varproj S (f.map (aff g e)) U = env.varproj S f U
  build : ∀ U s S f, S.length = f.length → env.build U (s.units g e) S (f.map (aff g e)) = (env.build U s S f).map (Step.units g e)
  newFull : ∀ s φ v, env.newFull (s.units g e) φ v = env.newFull s φ v
  newRed : ∀ U s φ v, env.newRed U (s.units g e) φ v = env.newRed U s φ v
  randDirs : ∀ s, env.randDirs (s.units g e) = env.randDirs s

/-- (optimisation.py:929-970) The states before the passes of the main loop that a run of `omorf` goes through. -/
inductive OPasses (cfg : Cfg n) (env : OEnv n) (d : ℕ) (sm : SubMethod) (obj : Pt n → ℝ) (s0 : St n) (U0 : Option (Dirs n)) (x0 : Pt n) : ORun n → Prop
  | first {r : Run n} {U : Dirs n} : evalInitial cfg obj (generateSet cfg env.full (start cfg obj s0 x0) (n + 1)).tail
      ⟨start cfg obj s0 x0, [(start cfg obj s0 x0).sOld], [(start cfg obj s0 x0).fOld]⟩ = (r, false) →
      calculateSubspace env d sm r.st U0 r.S r.f = .ok (some U) → OPasses cfg env d sm obj s0 U0 x0 (oBegin cfg env d obj r U)
  | next {r r' : ORun n} : OPasses cfg env d sm obj s0 U0 x0 r → oIter cfg env d sm obj r = (r', false) → OPasses cfg env d sm obj s0 U0 x0 r'

/-! ## Proofs -/

theorem OEnvUnits.full {env : OEnv n} {g e : ℝ} (h : OEnvUnits env g e) : EnvUnits env.full g e := ⟨fun _ _ _ _ => rfl, h.newFull, h.randDirs⟩

theorem OEnvUnits.red {env : OEnv n} {g e : ℝ} (h : OEnvUnits env g e) (U : Dirs n) : EnvUnits (env.red U) g e := ⟨h.build U, h.newRed U, h.randDirs⟩

theorem greedy_units {env : OEnv n} {g e : ℝ} (h : OEnvUnits env g e) (S : List (Pt n)) (f : List ℝ) (hl : S.length = f.length) (i : ℕ) (U0 U1 : Dirs n) :
    greedy env S (f.map (aff g e)) i U0 U1 = greedy env S f i U0 U1 := by
  induction i generalizing U0 U1 with
  | zero => rfl
  | succ i ih =>
    unfold greedy
    have e1 : (fun w => env.r2 S (f.map (aff g e)) (U0 ++ [w])) = fun w => env.r2 S f (U0 ++ [w]) := funext fun w => h.r2 S f _ hl
    rw [e1]
    cases U1.mapM fun w => env.r2 S f (U0 ++ [w]) with
    | error x => rfl
    | ok R =>
      simp only
      split_ifs
      · rfl
      · exact ih _ _

theorem calculateSubspace_units {env : OEnv n} {g e : ℝ} (h : OEnvUnits env g e) (d : ℕ) (sm : SubMethod) (st : St n) (U : Option (Dirs n))
    (S : List (Pt n)) (f : List ℝ) (hl : S.length = f.length) :
    calculateSubspace env d sm (st.units g e) U S (f.map (aff g e)) = calculateSubspace env d sm st U S f := by
  unfold calculateSubspace
  rw [h.active st S f hl]
  rcases env.active st S f with x | U1
  · rfl
  cases U1 with
  | nil => rfl
  | cons w ws =>
    simp only [greedy_units h S f hl, h.varproj S f _ hl]

/-- A state between two passes, in other units. -/
def ORun.units (g e : ℝ) (r : ORun n) : ORun n := ⟨r.st.units g e, r.SF, r.fF.map (aff g e), r.SR, r.fR.map (aff g e), r.U⟩

/-- As many values as points. -/
def OkO (r : ORun n) : Prop := OkS r.st ∧ r.SF.length = r.fF.length ∧ r.SR.length = r.fR.length

theorem oNew_units (cfg : Cfg n) (env : Env n) (obj : Pt n → ℝ) (g e : ℝ) (he : EnvUnits env g e) (psi2 : ℝ) (q : ℕ)
    (φ : St n → List (Pt n) → Pt n → ℕ → ℝ) (hφ : ∀ st l, φ (st.units g e) l = φ st l) (st : St n) (h : OkS st) :
    oNew cfg env (fun y => aff g e (obj y)) psi2 q φ (st.units g e) = (oNew cfg env obj psi2 q φ st).units g e ∧
    OkR (oNew cfg env obj psi2 q φ st) :=
  lu_units cfg env obj g e he .new psi2 q φ hφ st h ([], []) rfl

theorem oGeometry_units (cfg : Cfg n) (env : OEnv n) (d : ℕ) (sm : SubMethod) (obj : Pt n → ℝ) (g e : ℝ) (he : OEnvUnits env g e) (r : ORun n) (h : OkO r) :
    oGeometry cfg env d sm (fun y => aff g e (obj y)) (r.units g e) = (oGeometry cfg env d sm obj r).units g e ∧ OkO (oGeometry cfg env d sm obj r) := by
  unfold oGeometry
  simp only [show (r.units g e).SF = r.SF from rfl, show (r.units g e).SR = r.SR from rfl, show (r.units g e).st = r.st.units g e from rfl,
    show ∀ S, spread (r.st.units g e) S = spread r.st S from fun _ => rfl, show limit cfg (r.st.units g e) = limit cfg r.st from rfl,
    show (r.st.units g e).del = r.st.del from rfl, show (r.st.units g e).rho = r.st.rho from rfl, setDel_units, show (r.units g e).U = r.U from rfl,
    show (r.units g e).fF = r.fF.map (aff g e) from rfl, show (r.units g e).fR = r.fR.map (aff g e) from rfl]
  by_cases h1 : spread r.st r.SF > limit cfg r.st
  · rw [if_pos h1, if_pos h1]
    obtain ⟨a1, a2⟩ := oImprove_units cfg env.full obj g e he.full 1 (n + 1) phiFull (fun _ _ => rfl) ⟨r.st, r.SF, r.fF⟩ ⟨h.1, h.2.1⟩
    have a1' : oImprove cfg env.full (fun y => aff g e (obj y)) 1 (n + 1) phiFull ⟨r.st.units g e, r.SF, r.fF.map (aff g e)⟩ =
      (oImprove cfg env.full obj 1 (n + 1) phiFull ⟨r.st, r.SF, r.fF⟩).units g e := a1
    rw [a1']
    generalize oImprove cfg env.full obj 1 (n + 1) phiFull ⟨r.st, r.SF, r.fF⟩ = a at a2
    simp only [show (a.units g e).st = a.st.units g e from rfl, show (a.units g e).S = a.S from rfl, show (a.units g e).f = a.f.map (aff g e) from rfl,
      calculateSubspace_units he d sm a.st (some r.U) a.S a.f a2.2]
    exact ⟨rfl, a2.1, a2.2, h.2.2⟩
  · rw [if_neg h1, if_neg h1]
    by_cases h2 : spread r.st r.SR > limit cfg r.st
    · rw [if_pos h2, if_pos h2]
      obtain ⟨a1, a2⟩ := oImprove_units cfg (env.red r.U) obj g e (he.red r.U) (1/4) (redSize d) (phiRed d r.U) (fun _ _ => rfl) ⟨r.st, r.SR, r.fR⟩ ⟨h.1, h.2.2⟩
      have a1' : oImprove cfg (env.red r.U) (fun y => aff g e (obj y)) (1/4) (redSize d) (phiRed d r.U) ⟨r.st.units g e, r.SR, r.fR.map (aff g e)⟩ =
        (oImprove cfg (env.red r.U) obj (1/4) (redSize d) (phiRed d r.U) ⟨r.st, r.SR, r.fR⟩).units g e := a1
      rw [a1']
      exact ⟨rfl, a2.1, h.2.1, a2.2⟩
    · rw [if_neg h2, if_neg h2]
      by_cases h3 : r.st.del = r.st.rho
      · rw [if_pos h3, if_pos h3]
        have hok := okS_setDel cfg (cfg.alpha2 * r.st.rho) r.st h.1
        generalize setDel cfg (cfg.alpha2 * r.st.rho) r.st = st at hok
        simp only [show (st.units g e).count = st.count from rfl, show (st.units g e).ratio = st.ratio from rfl]
        by_cases h4 : st.count ≥ 3 ∧ st.ratio < 0
        · rw [if_pos h4, if_pos h4]
          exact ⟨rfl, hok, h.2⟩
        · rw [if_neg h4, if_neg h4]
          exact ⟨rfl, hok, h.2⟩
      · rw [if_neg h3, if_neg h3]
        exact ⟨rfl, h⟩

theorem oRadius_units (cfg : Cfg n) (env : OEnv n) (d : ℕ) (sm : SubMethod) (obj : Pt n → ℝ) (g e : ℝ) (he : OEnvUnits env g e) (r : ORun n) (h : OkO r)
    (stepDist : ℝ) :
    oRadius cfg env d sm (fun y => aff g e (obj y)) (r.units g e) stepDist = (oRadius cfg env d sm obj r stepDist).units g e ∧
    OkO (oRadius cfg env d sm obj r stepDist) := by
  unfold oRadius
  simp only [show (r.units g e).st.ratio = r.st.ratio from rfl]
  by_cases h1 : r.st.ratio ≥ cfg.eta2
  · rw [if_pos h1, if_pos h1]
    refine ⟨?_, okS_setDel cfg _ { r.st with count := 0 } h.1, h.2⟩
    simp only [ORun.units]
    rw [← setDel_units]
    rfl
  · rw [if_neg h1, if_neg h1]
    by_cases h2 : r.st.ratio ≥ cfg.eta1
    · rw [if_pos h2, if_pos h2]
      refine ⟨?_, okS_setDel cfg _ { r.st with count := 0 } h.1, h.2⟩
      simp only [ORun.units]
      rw [← setDel_units]
      rfl
    · rw [if_neg h2, if_neg h2]
      have := oGeometry_units cfg env d sm obj g e he
        { r with st := setDel cfg (max (min (cfg.gamDec * r.st.del) stepDist) r.st.rho) { r.st with count := r.st.count + 1 } }
        ⟨okS_setDel cfg _ { r.st with count := r.st.count + 1 } h.1, h.2⟩
      refine ⟨?_, this.2⟩
      rw [← this.1]
      congr 1
      simp only [ORun.units]
      rw [← setDel_units]
      rfl

theorem oIter_units (cfg : Cfg n) (env : OEnv n) (d : ℕ) (sm : SubMethod) (obj : Pt n → ℝ) {g : ℝ} (hg : 0 < g) (e : ℝ) (he : OEnvUnits env g e) (r : ORun n)
    (h : OkO r) (ht : ∀ m, env.build r.U r.st r.SR r.fR = some m → SameTest g (m.atOld - m.mNew)) :
    oIter cfg env d sm (fun y => aff g e (obj y)) (r.units g e) = ((oIter cfg env d sm obj r).1.units g e, (oIter cfg env d sm obj r).2) ∧
    OkO (oIter cfg env d sm obj r).1 := by
  unfold oIter
  simp only [show (r.units g e).SF = r.SF from rfl, show (r.units g e).SR = r.SR from rfl, show (r.units g e).st = r.st.units g e from rfl,
    show (r.units g e).U = r.U from rfl, show (r.units g e).fF = r.fF.map (aff g e) from rfl, show (r.units g e).fR = r.fR.map (aff g e) from rfl,
    show (r.st.units g e).evals = r.st.evals from rfl,
    show (r.st.units g e).rho = r.st.rho from rfl, he.build r.U r.st r.SR r.fR h.2.2, show (r.st.units g e).sOld = r.st.sOld from rfl]
  by_cases h0 : r.st.evals ≥ cfg.maxEvals ∨ r.st.rho ≤ cfg.rhoMin
  · rw [if_pos h0, if_pos h0]
    exact ⟨rfl, h⟩
  · rw [if_neg h0, if_neg h0]
    cases hbuild : env.build r.U r.st r.SR r.fR with
    | none =>
      obtain ⟨a1, a2⟩ := oImprove_units cfg (env.red r.U) obj g e (he.red r.U) (1/4) (redSize d) (phiRed d r.U) (fun _ _ => rfl) ⟨r.st, r.SR, r.fR⟩ ⟨h.1, h.2.2⟩
      have a1' : oImprove cfg (env.red r.U) (fun y => aff g e (obj y)) (1/4) (redSize d) (phiRed d r.U) ⟨r.st.units g e, r.SR, r.fR.map (aff g e)⟩ =
        (oImprove cfg (env.red r.U) obj (1/4) (redSize d) (phiRed d r.U) ⟨r.st, r.SR, r.fR⟩).units g e := a1
      simp only [Option.map_none]
      rw [a1']
      exact ⟨rfl, a2.1, h.2.1, a2.2⟩
    | some m =>
      simp only [Option.map_some, Step.units]
      by_cases h1 : (normInf fun i => m.sNew i - r.st.sOld i) < cfg.omegaS * r.st.rho
      · rw [if_pos h1, if_pos h1]
        obtain ⟨a1, a2⟩ := oGeometry_units cfg env d sm obj g e he
          { r with st := setDel cfg (max (1/2 * r.st.del) r.st.rho) { r.st with ratio := -1/10, count := 3 } }
          ⟨okS_setDel cfg _ { r.st with ratio := -1/10, count := 3 } h.1, h.2⟩
        refine ⟨?_, a2⟩
        rw [← a1]
        simp only [Prod.mk.injEq, and_true]
        congr 1
        simp only [ORun.units]
        rw [← setDel_units]
        rfl
      · rw [if_neg h1, if_neg h1]
        obtain ⟨b1, b2⟩ := blackbox_units cfg obj g e r.st h.1 m.sNew
        rw [b1]
        generalize blackbox cfg obj r.st m.sNew = b at b2
        dsimp only
        by_cases h2 : b.1.evals ≥ cfg.maxEvals ∨ b.1.rho ≤ cfg.rhoMin
        · rw [if_pos (show (b.1.units g e).evals ≥ cfg.maxEvals ∨ (b.1.units g e).rho ≤ cfg.rhoMin from h2), if_pos h2]
          exact ⟨rfl, b2, h.2⟩
        · rw [if_neg (show ¬((b.1.units g e).evals ≥ cfg.maxEvals ∨ (b.1.units g e).rho ≤ cfg.rhoMin) from h2), if_neg h2]
          have e1 : setIterate cfg { (b.1.units g e) with ratio := ratioOf ((b.1.units g e).fOld - aff g e b.2) (aff g e m.atOld - aff g e m.mNew) } =
              (setIterate cfg { b.1 with ratio := ratioOf (b.1.fOld - b.2) (m.atOld - m.mNew) }).units g e := by
            rw [← setIterate_units cfg hg]
            congr 1
            simp only [St.units]
            rw [← ratio_units hg (ht m hbuild)]
            congr 2 <;> unfold aff <;> ring
          rw [e1]
          have hok : OkS (setIterate cfg { b.1 with ratio := ratioOf (b.1.fOld - b.2) (m.atOld - m.mNew) }) := okS_setIterate cfg _ b2
          generalize setIterate cfg { b.1 with ratio := ratioOf (b.1.fOld - b.2) (m.atOld - m.mNew) } = st at hok
          obtain ⟨c1, c2⟩ := oReplace_units cfg (env.red r.U) obj g e (he.red r.U) (1/4) (redSize d) (phiRed d r.U) (fun _ _ => rfl) ⟨st, r.SR, r.fR⟩
            ⟨hok, h.2.2⟩ m.sNew b.2
          have c1' : oReplace cfg (env.red r.U) (fun y => aff g e (obj y)) (1/4) (redSize d) (phiRed d r.U) ⟨st.units g e, r.SR, r.fR.map (aff g e)⟩ m.sNew (aff g e b.2) =
            (oReplace cfg (env.red r.U) obj (1/4) (redSize d) (phiRed d r.U) ⟨st, r.SR, r.fR⟩ m.sNew b.2).units g e := c1
          rw [c1']
          generalize oReplace cfg (env.red r.U) obj (1/4) (redSize d) (phiRed d r.U) ⟨st, r.SR, r.fR⟩ m.sNew b.2 = a at c2
          obtain ⟨d1, d2⟩ := oReplace_units cfg env.full obj g e he.full 1 (n + 1) phiFull (fun _ _ => rfl) ⟨a.st, r.SF, r.fF⟩ ⟨c2.1, h.2.1⟩ m.sNew b.2
          have d1' : oReplace cfg env.full (fun y => aff g e (obj y)) 1 (n + 1) phiFull ⟨(a.units g e).st, r.SF, r.fF.map (aff g e)⟩ m.sNew (aff g e b.2) =
            (oReplace cfg env.full obj 1 (n + 1) phiFull ⟨a.st, r.SF, r.fF⟩ m.sNew b.2).units g e := d1
          rw [d1']
          generalize oReplace cfg env.full obj 1 (n + 1) phiFull ⟨a.st, r.SF, r.fF⟩ m.sNew b.2 = c at d2
          obtain ⟨f1, f2⟩ := oRadius_units cfg env d sm obj g e he ⟨c.st, c.S, c.f, a.S, a.f, r.U⟩ ⟨d2.1, d2.2, c2.2⟩ (normInf fun i => m.sNew i - r.st.sOld i)
          refine ⟨?_, f2⟩
          rw [← f1]
          rfl

theorem oLoop_units (cfg : Cfg n) (env : OEnv n) (d : ℕ) (sm : SubMethod) (obj : Pt n → ℝ) {g : ℝ} (hg : 0 < g) (e : ℝ) (he : OEnvUnits env g e)
    (s0 : St n) (U0 : Option (Dirs n)) (x0 : Pt n)
    (ht : ∀ r m, OPasses cfg env d sm obj s0 U0 x0 r → env.build r.U r.st r.SR r.fR = some m → SameTest g (m.atOld - m.mNew))
    (fuel : ℕ) (r : ORun n) (h : OkO r) (hr : OPasses cfg env d sm obj s0 U0 x0 r) :
    oLoop cfg env d sm (fun y => aff g e (obj y)) fuel (r.units g e) = (oLoop cfg env d sm obj fuel r).units g e := by
  induction fuel generalizing r with
  | zero => rfl
  | succ fuel ih =>
    obtain ⟨a1, a2⟩ := oIter_units cfg env d sm obj hg e he r h fun m => ht r m hr
    rw [oLoop, oLoop, a1]
    rcases hI : oIter cfg env d sm obj r with ⟨r', b⟩
    rw [hI] at a2
    cases b with
    | true => rfl
    | false => exact ih r' a2 (.next hr hI)

theorem omorf_units (cfg : Cfg n) (env : OEnv n) (d : ℕ) (sm : SubMethod) (obj : Pt n → ℝ) {g : ℝ} (hg : 0 < g) (e : ℝ) (he : OEnvUnits env g e)
    (s : St n) (h : OkS s) (U : Option (Dirs n)) (x0 : Pt n)
    (ht : ∀ r m, OPasses cfg env d sm obj s U x0 r → env.build r.U r.st r.SR r.fR = some m → SameTest g (m.atOld - m.mNew)) :
    omorf cfg env d sm (fun y => aff g e (obj y)) (s.units g e) U x0 = (omorf cfg env d sm obj s U x0).map (St.units g e) := by
  unfold omorf
  by_cases hd : d = 0
  · rw [if_pos hd, if_pos hd]
    rfl
  rw [if_neg hd, if_neg hd]
  obtain ⟨a1, a2⟩ := start_units cfg obj g e s h x0
  simp only [a1]
  rw [generateSet_units cfg env.full g e he.full]
  obtain ⟨b1, b2⟩ := evalInitial_units cfg obj g e (generateSet cfg env.full (start cfg obj s x0) (n + 1)).tail
    ⟨start cfg obj s x0, [(start cfg obj s x0).sOld], [(start cfg obj s x0).fOld]⟩ ⟨a2, rfl⟩
  have e1 : (⟨(start cfg obj s x0).units g e, [((start cfg obj s x0).units g e).sOld], [((start cfg obj s x0).units g e).fOld]⟩ : Run n) =
    Run.units g e ⟨start cfg obj s x0, [(start cfg obj s x0).sOld], [(start cfg obj s x0).fOld]⟩ := rfl
  rw [e1, b1]
  rcases hr : evalInitial cfg obj (generateSet cfg env.full (start cfg obj s x0) (n + 1)).tail
    ⟨start cfg obj s x0, [(start cfg obj s x0).sOld], [(start cfg obj s x0).fOld]⟩ with ⟨r, b⟩
  rw [hr] at b2
  cases b with
  | true => exact congrArg Except.ok (finish_units cfg hg e r.st)
  | false =>
    have hc := calculateSubspace_units he d sm r.st U r.S r.f b2.2
    simp only [show (r.units g e).st = r.st.units g e from rfl, show (r.units g e).S = r.S from rfl, show (r.units g e).f = r.f.map (aff g e) from rfl, hc]
    rcases hU : calculateSubspace env d sm r.st U r.S r.f with x | U'
    · rfl
    cases U' with
    | none => rfl
    | some W =>
      obtain ⟨c1, c2⟩ := oNew_units cfg (env.red W) obj g e (he.red W) (1/4) (redSize d) (phiRed d W) (fun _ _ => rfl) r.st b2.1
      have hbg : oBegin cfg env d (fun y => aff g e (obj y)) (r.units g e) W = (oBegin cfg env d obj r W).units g e := by
        unfold oBegin
        have c1' : oNew cfg (env.red W) (fun y => aff g e (obj y)) (1/4) (redSize d) (phiRed d W) (r.units g e).st =
          (oNew cfg (env.red W) obj (1/4) (redSize d) (phiRed d W) r.st).units g e := c1
        simp only [c1']
        rfl
      have hlp := oLoop_units cfg env d sm obj hg e he s U x0 ht cfg.itermax (oBegin cfg env d obj r W) ⟨c2.1, b2.2, c2.2⟩ (.first hr hU)
      simp only [hbg, hlp]
      exact congrArg Except.ok (finish_units cfg hg e _)

theorem omorf_init_units (cfg : Cfg n) (env : OEnv n) (d : ℕ) (sm : SubMethod) (obj : Pt n → ℝ) (g e : ℝ) (U : Option (Dirs n)) (x0 : Pt n) :
    omorf cfg env d sm obj ((St.init n).units g e) U x0 = omorf cfg env d sm obj (St.init n) U x0 := by
  unfold omorf
  simp only [start_init_units]

/-- **C199, omorf, the part that holds.** The objective in other units, `f ↦ g f + e` with `g > 0`: a run of `omorf` that raises raises as before; otherwise the same points are evaluated in the
same order, the same point is returned and its value is given in the new units, provided the predicted decreases of all passes fall on the same side of the threshold `100 ε` in both
units. Missing: this condition. -/
theorem c199_omorf_partial (cfg : Cfg n) (env : OEnv n) (d : ℕ) (sm : SubMethod) (maximise : Bool) (f : Pt n → ℝ) (g e : ℝ) (hg : 0 < g)
    (he : OEnvUnits env g (if maximise then -e else e)) (U : Option (Dirs n)) (x0 : Pt n)
    (ht : ∀ r m, OPasses cfg env d sm (objective maximise f) (St.init n) U x0 r → env.build r.U r.st r.SR r.fR = some m → SameTest g (m.atOld - m.mNew)) :
    (∀ x, optimiseOmorf cfg env d sm maximise f (St.init n) U x0 = .error x →
      optimiseOmorf cfg env d sm maximise (fun x => g * f x + e) (St.init n) U x0 = .error x) ∧
    ∀ s sol, optimiseOmorf cfg env d sm maximise f (St.init n) U x0 = .ok (s, sol) → ∃ s' sol',
      optimiseOmorf cfg env d sm maximise (fun x => g * f x + e) (St.init n) U x0 = .ok (s', sol') ∧ s'.calls = s.calls ∧ sol'.x = sol.x ∧
      sol'.fn = g * sol.fn + e ∧ sol'.nfev = sol.nfev := by
  have key := omorf_units cfg env d sm (objective maximise f) hg (if maximise then -e else e) he (St.init n) rfl U x0 ht
  rw [omorf_init_units] at key
  unfold optimiseOmorf
  simp only [objective_units, key]
  rcases omorf cfg env d sm (objective maximise f) (St.init n) U x0 with x | T
  · exact ⟨fun _ h => h, fun s sol h => by cases h⟩
  · refine ⟨fun _ h => (by cases h), fun s sol h => ?_⟩
    obtain ⟨rfl, rfl⟩ := Prod.mk.inj (Except.ok.inj h)
    refine ⟨_, _, rfl, rfl, rfl, ?_, rfl⟩
    cases maximise
    · rfl
    · show (g * T.fOld + -e) * -1 = g * (T.fOld * -1) + e
      ring

/-- **C200.** A constant added to the objective does not change what `omorf` does. -/
theorem c200_constant (cfg : Cfg n) (env : OEnv n) (d : ℕ) (sm : SubMethod) (maximise : Bool) (f : Pt n → ℝ) (e : ℝ)
    (he : OEnvUnits env 1 (if maximise then -e else e)) (U : Option (Dirs n)) (x0 : Pt n) :
    (∀ x, optimiseOmorf cfg env d sm maximise f (St.init n) U x0 = .error x →
      optimiseOmorf cfg env d sm maximise (fun x => f x + e) (St.init n) U x0 = .error x) ∧
    ∀ s sol, optimiseOmorf cfg env d sm maximise f (St.init n) U x0 = .ok (s, sol) → ∃ s' sol',
      optimiseOmorf cfg env d sm maximise (fun x => f x + e) (St.init n) U x0 = .ok (s', sol') ∧ s'.calls = s.calls ∧ sol'.x = sol.x ∧
      sol'.fn = sol.fn + e ∧ sol'.nfev = sol.nfev := by
  have := c199_omorf_partial cfg env d sm maximise f 1 e one_pos he U x0 fun r m _ _ => by simp [SameTest]
  simpa only [one_mul] using this

/-- Models that promise to lower the value by one. -/
noncomputable def oenvStep : OEnv 1 :=
  { oenvDemo with build := fun _ s _ _ => some ⟨s.fOld, fun i => min (max (s.lo i) (1/2)) (s.hi i), s.fOld - 1⟩ }

theorem oenvStep_units (e : ℝ) : OEnvUnits oenvStep 1 e where
  active := fun _ _ _ _ => rfl
  r2 := fun _ _ _ _ => rfl
  varproj := fun _ _ _ _ => rfl
  build := by
    intro U s S f _
    simp only [oenvStep, Step.units, Option.map_some, St.units, Option.some.injEq, Step.mk.injEq, true_and, aff]
    ring
  newFull := fun _ _ _ => rfl
  newRed := fun _ _ _ _ => rfl
  randDirs := fun _ => rfl

/-- The run of the demonstration does not raise. -/
theorem oenvStep_runs (maximise : Bool) (f : Pt 1 → ℝ) (x0 : Pt 1) :
    ∃ t, optimiseOmorf cfgDemo oenvStep 1 .active maximise f (St.init 1) none x0 = .ok t := by
  unfold optimiseOmorf omorf
  rw [if_neg one_ne_zero]
  simp only
  rcases evalInitial cfgDemo (objective maximise f) _ _ with ⟨r, b⟩
  cases b <;> exact ⟨_, rfl⟩

example : ∃ s sol s' sol', optimiseOmorf cfgDemo oenvStep 1 .active true (fun x => -x 0 ^ 2) (St.init 1) none (fun _ => 1/3) = .ok (s, sol) ∧
    optimiseOmorf cfgDemo oenvStep 1 .active true (fun x => -x 0 ^ 2 + 1000) (St.init 1) none (fun _ => 1/3) = .ok (s', sol') ∧ sol'.x = sol.x := by
  obtain ⟨⟨s, sol⟩, h⟩ := oenvStep_runs true (fun x => -x 0 ^ 2) fun _ => 1/3
  obtain ⟨s', sol', h1, -, h2, -⟩ := (c200_constant cfgDemo oenvStep 1 .active true (fun x => -x 0 ^ 2) 1000 (oenvStep_units _) none _).2 s sol h
  exact ⟨s, sol, s', sol', h, h1, h2⟩

/-- Models that promise nothing. -/
noncomputable def oenvFlat : OEnv 1 :=
  { oenvDemo with build := fun _ s _ _ => some ⟨s.fOld, fun i => min (max (s.lo i) (1/2)) (s.hi i), s.fOld⟩ }

theorem oenvFlat_units (g e : ℝ) : OEnvUnits oenvFlat g e :=
  ⟨fun _ _ _ _ => rfl, fun _ _ _ _ => rfl, fun _ _ _ _ => rfl, fun _ _ _ _ _ => rfl, fun _ _ _ => rfl, fun _ _ _ _ => rfl, fun _ => rfl⟩

example : ∀ s sol, optimiseOmorf cfgDemo oenvFlat 1 .active false (fun x => x 0 ^ 2) (St.init 1) none (fun _ => 1/3) = .ok (s, sol) →
    ∃ s' sol', optimiseOmorf cfgDemo oenvFlat 1 .active false (fun x => 9/5 * x 0 ^ 2 + 32) (St.init 1) none (fun _ => 1/3) = .ok (s', sol') ∧
      sol'.fn = 9/5 * sol.fn + 32 := by
  intro s sol h
  obtain ⟨s', sol', h1, -, -, h2, -⟩ := (c199_omorf_partial cfgDemo oenvFlat 1 .active false (fun x => x 0 ^ 2) (9/5) 32 (by norm_num) (oenvFlat_units _ _) none
    (fun _ => 1/3) (by
      intro r m _ hm
      simp only [oenvFlat, Option.some.injEq] at hm
      rw [← hm]
      simp [SameTest])).2 s sol h
  exact ⟨s', sol', h1, h2⟩

end EQ.Opt
