import Verif.Opt.Omorf
import Verif.Opt.RadiusProps

/-!
# The `omorf` method: evaluations, result, bounds, radii, budget, sample sets (C115–C118), directions (C116)
-/

namespace EQ.Opt
open EQ.Basis

variable {n : ℕ}

/-! ## Runs as sequences of elementary steps -/

/-- Elementary steps of the two kinds of sample sets in any order. -/
inductive Steps (cfg : Cfg n) (obj : Pt n → ℝ) (E : Env n → Prop) : ℕ → St n → St n → Prop
  | refl (s) : Steps cfg obj E 0 s s
  | app {env k m a b c} : E env → Steps cfg obj E k a b → Prim cfg env obj m b c → Steps cfg obj E (k + m) a c

variable {cfg : Cfg n} {obj : Pt n → ℝ} {E : Env n → Prop}

theorem Steps.of {env : Env n} {m : ℕ} {a b : St n} (h : E env) (p : Prim cfg env obj m a b) : Steps cfg obj E m a b := by
  have := Steps.app h (.refl a) p
  rwa [Nat.zero_add] at this

theorem Steps.trans {k m : ℕ} {a b c : St n} (h : Steps cfg obj E k a b) (h' : Steps cfg obj E m b c) :
    Steps cfg obj E (k + m) a c := by
  induction h' with
  | refl => exact h
  | app he _ hp ih => rw [← Nat.add_assoc]; exact .app he (ih h) hp

theorem Steps.inv {k : ℕ} {a b : St n} (h : Steps cfg obj E k a b) (hi : Inv cfg obj a) (ho : Old cfg obj a) :
    Inv cfg obj b ∧ Old cfg obj b ∧ a.S <+: b.S ∧ b.evals ≤ a.evals + k ∧ b.fOld ≤ a.fOld := by
  induction h with
  | refl => exact ⟨hi, ho, List.prefix_refl _, le_refl _, le_refl _⟩
  | app he _ hp ih =>
    obtain ⟨h1, h2, h3, h4, h5⟩ := ih hi ho
    obtain ⟨g1, g2, g3, g4, g5⟩ := hp.inv h1 h2
    exact ⟨g1, g2, h3.trans g3, by omega, g5.trans h5⟩

theorem Steps.box (ok : ∀ env, E env → EnvOK env) (sg : Signs cfg) {k : ℕ} {a b : St n} (h : Steps cfg obj E k a b)
    (hi : Inv cfg obj a) (ho : Old cfg obj a) (hb : BoxInv cfg a) : BoxInv cfg b := by
  induction h with
  | refl => exact hb
  | app he hs hp ih =>
    obtain ⟨h1, h2, -, -, -⟩ := hs.inv hi ho
    exact hp.box (ok _ he) sg h1 h2 (ih hi ho hb)

theorem Steps.rad (sn : Sane cfg) {k : ℕ} {a b : St n} (h : Steps cfg obj E k a b)
    (hi : Inv cfg obj a) (ho : Old cfg obj a) (hb : RadInv cfg a) : RadInv cfg b ∧ b.rho ≤ a.rho := by
  induction h with
  | refl => exact ⟨hb, le_refl _⟩
  | app he hs hp ih =>
    obtain ⟨h1, h2, -, -, -⟩ := hs.inv hi ho
    obtain ⟨g1, g2⟩ := ih hi ho hb
    obtain ⟨f1, f2⟩ := hp.rad sn h1 h2 g1
    exact ⟨f1, f2.trans g2⟩

/-- The outside calls of a run. -/
def OEnv.Calls (e : OEnv n) (env : Env n) : Prop := env = e.full ∨ ∃ U, env = e.red U

theorem calls_full (e : OEnv n) : e.Calls e.full := .inl rfl
theorem calls_red (e : OEnv n) (U : Dirs n) : e.Calls (e.red U) := .inr ⟨U, rfl⟩

/-! ## Sample sets -/

/-- A sample set of `q` points. -/
structure SetInv (cfg : Cfg n) (obj : Pt n → ℝ) (q : ℕ) (r : Run n) : Prop where
  inv : Inv cfg obj r.st
  old : Old cfg obj r.st
  set : Paired cfg obj r.st r.S r.f
  len : r.S.length = q

theorem lu_set {env : Env n} {st : St n} (hi : Inv cfg obj st) (ho : Old cfg obj st) (method : LUMethod) (psi2 : ℝ)
    (q : ℕ) (hq : 1 ≤ q) (φ : Pt n → ℕ → ℝ) {hatS : List (Pt n)} {hatF : List ℝ} (hh : Paired cfg obj st hatS hatF)
    (a : LU n) (ha : luPivot cfg env obj method psi2 q φ st hatS hatF = a) :
    (∃ k ≤ q - 1, Prim cfg env obj k st a.st) ∧ SetInv cfg obj q ⟨a.st, a.S, a.f⟩ ∧
      a.S.head? = some st.sOld ∧ Ext st a.st := by
  have h := luPivot_inv (env := env) hi ho method psi2 q φ hh
  rw [ha] at h
  obtain ⟨⟨k, hk, he⟩, hs, -, hl, hd⟩ := h
  obtain ⟨h1, h2⟩ := he.inv hi
  exact ⟨⟨k, hk, he.prim⟩, ⟨h1, ho.ext h2, hs, by rw [hl]; omega⟩, hd, h2⟩

theorem oImprove_spec {env : Env n} {psi2 : ℝ} {q : ℕ} (hq : 1 ≤ q) {φ : St n → List (Pt n) → Pt n → ℕ → ℝ} {r : Run n}
    (hi : Inv cfg obj r.st) (ho : Old cfg obj r.st) (hs : Paired cfg obj r.st r.S r.f) :
    (∃ k ≤ q - 1, Prim cfg env obj k r.st (oImprove cfg env obj psi2 q φ r).st) ∧
      SetInv cfg obj q (oImprove cfg env obj psi2 q φ r) ∧
      (oImprove cfg env obj psi2 q φ r).S.head? = some r.st.sOld ∧ Ext r.st (oImprove cfg env obj psi2 q φ r).st := by
  unfold oImprove
  simp only
  refine lu_set hi ho .improve psi2 q hq _ ?_ _ rfl
  apply Paired.removePoint
  split_ifs
  · exact Paired.removeFurthest hs
  · exact hs

theorem oReplace_spec {env : Env n} {psi2 : ℝ} {q : ℕ} (hq : 1 ≤ q) {φ : St n → List (Pt n) → Pt n → ℕ → ℝ} {r : Run n}
    (hi : Inv cfg obj r.st) (ho : Old cfg obj r.st) (hs : Paired cfg obj r.st r.S r.f)
    {x : Pt n} {v : ℝ} (hx : x ∈ r.st.S) (hv : v = val cfg obj x) :
    (∃ k ≤ q - 1, Prim cfg env obj k r.st (oReplace cfg env obj psi2 q φ r x v).st) ∧
      SetInv cfg obj q (oReplace cfg env obj psi2 q φ r x v) ∧
      (oReplace cfg env obj psi2 q φ r x v).S.head? = some r.st.sOld ∧
      Ext r.st (oReplace cfg env obj psi2 q φ r x v).st := by
  have hp : Paired cfg obj r.st (r.S ++ [x]) (r.f ++ [v]) := by
    refine ⟨by simp [hs.vals, hv], fun y hy => ?_⟩
    rcases List.mem_append.1 hy with hy | hy
    · exact hs.mem y hy
    · simp at hy; rw [hy]; exact hx
  unfold oReplace
  simp only
  refine lu_set hi ho .replace psi2 q hq _ ?_ _ rfl
  apply Paired.removePoint
  split_ifs
  · exact Paired.uniqueRows (r := (r.S ++ [x], r.f ++ [v])) hp
  · exact Paired.removeFurthest (r := (r.S ++ [x], r.f ++ [v])) hp
  · exact hp

theorem oNew_spec {env : Env n} {psi2 : ℝ} {q : ℕ} (hq : 1 ≤ q) {φ : St n → List (Pt n) → Pt n → ℕ → ℝ} {st : St n}
    (hi : Inv cfg obj st) (ho : Old cfg obj st) :
    (∃ k ≤ q - 1, Prim cfg env obj k st (oNew cfg env obj psi2 q φ st).st) ∧
      SetInv cfg obj q (oNew cfg env obj psi2 q φ st) ∧
      (oNew cfg env obj psi2 q φ st).S.head? = some st.sOld ∧ Ext st (oNew cfg env obj psi2 q φ st).st := by
  unfold oNew
  simp only
  exact lu_set hi ho .new psi2 q hq _ ⟨rfl, by simp⟩ _ rfl

/-! ## Passes -/

/-- The state of a run between two passes. -/
structure ORunInv (cfg : Cfg n) (obj : Pt n → ℝ) (d : ℕ) (r : ORun n) : Prop where
  inv : Inv cfg obj r.st
  old : Old cfg obj r.st
  full : Paired cfg obj r.st r.SF r.fF
  lenF : r.SF.length = n + 1
  red : Paired cfg obj r.st r.SR r.fR
  lenR : r.SR.length = redSize d

theorem redSize_pos (d : ℕ) : 1 ≤ redSize d := setSize_pos d

theorem ORunInv.steps {d : ℕ} {k : ℕ} {r : ORun n} {st : St n} (h : ORunInv cfg obj d r)
    (p : Steps cfg obj E k r.st st) : ORunInv cfg obj d { r with st := st } := by
  obtain ⟨h1, h2, h3, -, -⟩ := p.inv h.inv h.old
  exact ⟨h1, h2, h.full.ext h3, h.lenF, h.red.ext h3, h.lenR⟩

theorem oGeometry_spec {e : OEnv n} {d : ℕ} {sm : SubMethod} {r : ORun n} (h : ORunInv cfg obj d r)
    (hr : cfg.rhoMin < r.st.rho) :
    (∃ k ≤ max n (redSize d - 1), Steps cfg obj e.Calls k r.st (oGeometry cfg e d sm obj r).st) ∧
      ORunInv cfg obj d (oGeometry cfg e d sm obj r) := by
  unfold oGeometry
  split_ifs with h1 h2 h3
  · obtain ⟨⟨k, hk, hp⟩, hs, -, hex⟩ := oImprove_spec (cfg := cfg) (env := e.full) (psi2 := 1) (q := n + 1) (by omega)
      (φ := phiFull) (r := ⟨r.st, r.SF, r.fF⟩) h.inv h.old h.full
    exact ⟨⟨k, by omega, .of (calls_full e) hp⟩, ⟨hs.inv, hs.old, hs.set, hs.len, h.red.ext hex.pre, h.lenR⟩⟩
  · obtain ⟨⟨k, hk, hp⟩, hs, -, hex⟩ := oImprove_spec (cfg := cfg) (env := e.red r.U) (psi2 := 1/4) (redSize_pos d)
      (φ := phiRed d r.U) (r := ⟨r.st, r.SR, r.fR⟩) h.inv h.old h.red
    exact ⟨⟨k, by omega, .of (calls_red e _) hp⟩, ⟨hs.inv, hs.old, h.full.ext hex.pre, h.lenF, hs.set, hs.len⟩⟩
  · have p0 : Prim cfg e.full obj 0 r.st (setDel cfg (cfg.alpha2 * r.st.rho) r.st) :=
      .del _ (.refl _) (.inr (.inl rfl))
    simp only
    split_ifs with h4
    · have p1 := Steps.of (calls_full e) (Prim.rho p0 (by simpa [setDel] using hr))
      exact ⟨⟨0, Nat.zero_le _, p1⟩, h.steps p1⟩
    · have p1 := Steps.of (calls_full e) p0
      exact ⟨⟨0, Nat.zero_le _, p1⟩, h.steps p1⟩
  · exact ⟨⟨0, Nat.zero_le _, .refl _⟩, h⟩

theorem oRadius_spec {e : OEnv n} {d : ℕ} {sm : SubMethod} {r : ORun n} (h : ORunInv cfg obj d r)
    (hr : cfg.rhoMin < r.st.rho) (stepDist : ℝ) (hd : 0 ≤ stepDist) :
    (∃ k ≤ max n (redSize d - 1), Steps cfg obj e.Calls k r.st (oRadius cfg e d sm obj r stepDist).st) ∧
      ORunInv cfg obj d (oRadius cfg e d sm obj r stepDist) := by
  unfold oRadius
  split_ifs with h1 h2
  · have p2 : Prim cfg e.full obj 0 r.st (setDel cfg (max (cfg.gamInc * r.st.del) (cfg.gamIncBar * stepDist))
        { r.st with count := 0 }) := .del _ (.marks 0 r.st.ratio (.refl _)) (.inr (.inr ⟨stepDist, hd, rfl⟩))
    have p3 := Steps.of (calls_full e) p2
    exact ⟨⟨0, Nat.zero_le _, p3⟩, h.steps p3⟩
  · have p2 : Prim cfg e.full obj 0 r.st (setDel cfg (max (max (cfg.gamDec * r.st.del) stepDist) r.st.rho)
        { r.st with count := 0 }) := .del _ (.marks 0 r.st.ratio (.refl _)) (.inl (le_max_right _ _))
    have p3 := Steps.of (calls_full e) p2
    exact ⟨⟨0, Nat.zero_le _, p3⟩, h.steps p3⟩
  · have p2 : Prim cfg e.full obj 0 r.st (setDel cfg (max (min (cfg.gamDec * r.st.del) stepDist) r.st.rho)
        { r.st with count := r.st.count + 1 }) := .del _ (.marks _ r.st.ratio (.refl _)) (.inl (le_max_right _ _))
    have p3 := Steps.of (calls_full e) p2
    obtain ⟨⟨k, hk, hp⟩, hri⟩ := oGeometry_spec (e := e) (sm := sm) (h.steps p3) (by
      simp only [setDel, updateBounds_rho]; exact hr)
    exact ⟨⟨0 + k, by omega, p3.trans hp⟩, hri⟩

/-- The largest number of evaluations in a pass besides the one of the model minimiser. -/
def passEvals (n d : ℕ) : ℕ := (redSize d - 1) + n + max n (redSize d - 1)

/-- One pass: elementary steps with a limited number of evaluations; both sample sets keep their sizes and values. -/
theorem oIter_spec {e : OEnv n} {d : ℕ} {sm : SubMethod} {r : ORun n} (h : ORunInv cfg obj d r) :
    (∃ k ≤ 1 + passEvals n d, Steps cfg obj e.Calls k r.st (oIter cfg e d sm obj r).1.st) ∧
      ORunInv cfg obj d (oIter cfg e d sm obj r).1 := by
  unfold passEvals
  unfold oIter
  split_ifs with h0
  · exact ⟨⟨0, Nat.zero_le _, .refl _⟩, h⟩
  · push Not at h0
    split
    · obtain ⟨⟨k, hk, hp⟩, hs, -, hex⟩ := oImprove_spec (cfg := cfg) (env := e.red r.U) (psi2 := 1/4) (redSize_pos d)
        (φ := phiRed d r.U) (r := ⟨r.st, r.SR, r.fR⟩) h.inv h.old h.red
      exact ⟨⟨k, by omega, .of (calls_red e _) hp⟩, ⟨hs.inv, hs.old, h.full.ext hex.pre, h.lenF, hs.set, hs.len⟩⟩
    · rename_i m hm
      simp only
      split_ifs with h1 h2
      · have p1 : Prim cfg e.full obj 0 r.st (setDel cfg (max (1/2 * r.st.del) r.st.rho)
            { r.st with ratio := -1/10, count := 3 }) :=
          .del _ (.marks 3 (-1/10) (.refl _)) (.inl (le_max_right _ _))
        have p2 := Steps.of (calls_full e) p1
        obtain ⟨⟨k, hk, hp⟩, hri⟩ := oGeometry_spec (e := e) (sm := sm) (h.steps p2) (by simpa [setDel] using h0.2)
        exact ⟨⟨0 + k, by omega, p2.trans hp⟩, hri⟩
      · have p1 : Prim cfg (e.red r.U) obj 1 r.st (blackbox cfg obj r.st m.sNew).1 :=
          .eval _ (.refl _) (.inl ⟨_, _, _, hm, rfl⟩)
        have p2 := Steps.of (calls_red e _) p1
        exact ⟨⟨1, by omega, p2⟩, h.steps p2⟩
      · have p1 : Prim cfg (e.red r.U) obj 1 r.st (blackbox cfg obj r.st m.sNew).1 :=
          .eval _ (.refl _) (.inl ⟨_, _, _, hm, rfl⟩)
        obtain ⟨-, b2, b3, b4, -⟩ := blackbox_spec h.inv m.sNew
        have p2 : Prim cfg (e.red r.U) obj 1 r.st (setIterate cfg { (blackbox cfg obj r.st m.sNew).1 with
            ratio := ratioOf ((blackbox cfg obj r.st m.sNew).1.fOld - (blackbox cfg obj r.st m.sNew).2)
              (m.atOld - m.mNew) }) :=
          .iterate (.marks (blackbox cfg obj r.st m.sNew).1.count _ p1)
        have hrho : (setIterate cfg { (blackbox cfg obj r.st m.sNew).1 with
            ratio := ratioOf ((blackbox cfg obj r.st m.sNew).1.fOld - (blackbox cfg obj r.st m.sNew).2)
              (m.atOld - m.mNew) }).rho = r.st.rho := by simp [setIterate, b2.rho]
        have hmem : m.sNew ∈ (setIterate cfg { (blackbox cfg obj r.st m.sNew).1 with
            ratio := ratioOf ((blackbox cfg obj r.st m.sNew).1.fOld - (blackbox cfg obj r.st m.sNew).2)
              (m.atOld - m.mNew) }).S := by simpa [setIterate] using b4
        generalize setIterate cfg { (blackbox cfg obj r.st m.sNew).1 with
            ratio := ratioOf ((blackbox cfg obj r.st m.sNew).1.fOld - (blackbox cfg obj r.st m.sNew).2)
              (m.atOld - m.mNew) } = st at p2 hrho hmem ⊢
        have q2 := Steps.of (calls_red e _) p2
        have hI := h.steps q2
        obtain ⟨⟨k, hk, hp⟩, hs, -, hex⟩ := oReplace_spec (cfg := cfg) (env := e.red r.U) (psi2 := 1/4) (redSize_pos d)
          (φ := phiRed d r.U) (r := ⟨st, r.SR, r.fR⟩) hI.inv hI.old hI.red (x := m.sNew) hmem b3
        generalize oReplace cfg (e.red r.U) obj (1/4) (redSize d) (phiRed d r.U) ⟨st, r.SR, r.fR⟩ m.sNew
          (blackbox cfg obj r.st m.sNew).2 = A at hp hs hex ⊢
        obtain ⟨⟨k', hk', hp'⟩, hs', -, hex'⟩ := oReplace_spec (cfg := cfg) (env := e.full) (psi2 := 1) (q := n + 1)
          (by omega) (φ := phiFull) (r := ⟨A.st, r.SF, r.fF⟩) hs.inv hs.old (hI.full.ext hex.pre) (x := m.sNew)
          (hex.pre.subset hmem) b3
        generalize oReplace cfg e.full obj 1 (n + 1) phiFull ⟨A.st, r.SF, r.fF⟩ m.sNew
          (blackbox cfg obj r.st m.sNew).2 = C at hp' hs' hex' ⊢
        have hI' : ORunInv cfg obj d ⟨C.st, C.S, C.f, A.S, A.f, r.U⟩ :=
          ⟨hs'.inv, hs'.old, hs'.set, hs'.len, hs.set.ext hex'.pre, hs.len⟩
        obtain ⟨⟨k'', hk'', hp''⟩, hri⟩ := oRadius_spec (e := e) (sm := sm) hI' (by
          simp only; rw [hex'.rho]; simp only; rw [hex.rho]; simp only; rw [hrho]; exact h0.2)
          (normInf fun i => m.sNew i - r.st.sOld i) (normInf_nonneg _)
        exact ⟨⟨1 + k + k' + k'', by omega,
          ((q2.trans (.of (calls_red e _) hp)).trans (.of (calls_full e) hp')).trans hp''⟩, hri⟩

theorem oLoop_spec {e : OEnv n} {d : ℕ} {sm : SubMethod} : ∀ (fuel : ℕ) (r : ORun n), ORunInv cfg obj d r →
    (∃ k, Steps cfg obj e.Calls k r.st (oLoop cfg e d sm obj fuel r).st) ∧
    ORunInv cfg obj d (oLoop cfg e d sm obj fuel r) ∧
    (oLoop cfg e d sm obj fuel r).st.evals ≤ max r.st.evals (cfg.maxEvals + passEvals n d) := by
  intro fuel
  induction fuel with
  | zero => intro r h; exact ⟨⟨0, .refl _⟩, h, le_max_left _ _⟩
  | succ fuel ih =>
    intro r h
    obtain ⟨⟨k, hk, hp⟩, hri⟩ := oIter_spec (e := e) (sm := sm) h
    have hev : (oIter cfg e d sm obj r).1.st.evals ≤ max r.st.evals (cfg.maxEvals + passEvals n d) := by
      by_cases hlt : r.st.evals ≥ cfg.maxEvals
      · have : oIter cfg e d sm obj r = (r, true) := by unfold oIter; rw [if_pos (.inl hlt)]
        rw [this]
        exact le_max_left _ _
      · have := (hp.inv h.inv h.old).2.2.2.1
        exact le_max_of_le_right (by omega)
    unfold oLoop
    split
    · rename_i r' heq
      rw [heq] at hp hri hev
      exact ⟨⟨k, hp⟩, hri, hev⟩
    · rename_i r' heq
      rw [heq] at hp hri hev
      obtain ⟨⟨k', hp'⟩, h1, h2⟩ := ih r' hri
      exact ⟨⟨k + k', hp.trans hp'⟩, h1, h2.trans (max_le hev (le_max_right _ _))⟩

theorem oBegin_spec {e : OEnv n} {d : ℕ} {r : Run n} {U : Dirs n} (h : SetInv cfg obj (n + 1) r) :
    (∃ k ≤ redSize d - 1, Steps cfg obj e.Calls k r.st (oBegin cfg e d obj r U).st) ∧
    ORunInv cfg obj d (oBegin cfg e d obj r U) := by
  obtain ⟨⟨k, hk, hp⟩, hs, -, hex⟩ := oNew_spec (cfg := cfg) (obj := obj) (env := e.red U) (psi2 := 1/4) (redSize_pos d)
    (φ := phiRed d U) h.inv h.old
  exact ⟨⟨k, hk, .of (calls_red e U) hp⟩, ⟨hs.inv, hs.old, h.set.ext hex.pre, h.len, hs.set, hs.len⟩⟩

/-- A run that does not raise: elementary steps after `_start`, then `_finish`. -/
theorem omorf_spec (cfg : Cfg n) (e : OEnv n) (d : ℕ) (sm : SubMethod) (obj : Pt n → ℝ) (s : St n) (h : Inv cfg obj s)
    (U : Option (Dirs n)) (x0 : Pt n) (t : St n) (ht : omorf cfg e d sm obj s U x0 = .ok t) :
    ∃ st k, t = finish cfg st ∧ Steps cfg obj e.Calls k (start cfg obj s x0) st ∧
      st.evals ≤ max cfg.maxEvals (s.evals + 2) + passEvals n d := by
  obtain ⟨h1, h2, h3, h4, h5, -⟩ := start_spec h x0
  have hev1 : (start cfg obj s x0).evals ≤ s.evals + 1 := by
    rw [h1.evals, h5, h.evals]
    split_ifs
    · omega
    · simp
  unfold omorf at ht
  by_cases hd : d = 0
  · rw [if_pos hd] at ht; exact absurd ht (by simp)
  rw [if_neg hd] at ht
  simp only at ht
  generalize hs1 : start cfg obj s x0 = s1 at *
  obtain ⟨m, hm, hp, hev, hset⟩ := evalInitial_spec (cfg := cfg) (obj := obj) (env := e.full) s1
    (generateSet cfg e.full s1 (n + 1)).tail
    ⟨s1, [s1.sOld], [s1.fOld]⟩ 0 (.refl _) (Ext.refl _) h1 h2 ⟨by simp [h2.value], by simpa using h2.mem⟩
    (fun x hx => ⟨_, List.mem_of_mem_tail hx⟩)
  have hlen : (generateSet cfg e.full s1 (n + 1)).tail.length = n := by simp [generateSet]
  revert ht hp hev hset
  rcases evalInitial cfg obj (generateSet cfg e.full s1 (n + 1)).tail ⟨s1, [s1.sOld], [s1.fOld]⟩ with ⟨r, b⟩
  intro ht hp hev hset
  cases b with
  | true =>
    simp only [Except.ok.injEq] at ht
    refine ⟨r.st, m, ht.symm, .of (calls_full e) hp, ?_⟩
    simp only at hev
    omega
  | false =>
    obtain ⟨hs, hS⟩ := hset rfl
    simp only at hp hev hs hS ht
    obtain ⟨a1, a2, -, -, -⟩ := hp.inv h1 h2
    have hri : SetInv cfg obj (n + 1) r := ⟨a1, a2, hs, by
      rw [hS, List.length_append, hlen]
      simp only [List.length_singleton]
      omega⟩
    rcases hc : calculateSubspace e d sm r.st U r.S r.f with x | W
    · rw [hc] at ht; exact absurd ht (by simp)
    · rw [hc] at ht
      rcases W with _ | W
      · exact absurd ht (by simp)
      · simp only [Except.ok.injEq] at ht
        obtain ⟨⟨k0, hk0, hp0⟩, hI⟩ := oBegin_spec (e := e) (d := d) (U := W) hri
        obtain ⟨⟨k, hk⟩, -, h6⟩ := oLoop_spec (e := e) (sm := sm) cfg.itermax _ hI
        refine ⟨_, m + k0 + k, ht.symm, ((Steps.of (calls_full e) hp).trans hp0).trans hk, ?_⟩
        have h7 := (hp0.inv a1 a2).2.2.2.1
        unfold passEvals at h6 ⊢
        omega

/-! ## A concrete run -/

/-- Outside calls in one variable: the direction is `1`, the searches propose `1/2` or the nearest point between the
bounds. -/
noncomputable def oenvDemo : OEnv 1 where
  active := fun _ _ _ => .ok [fun _ => 1]
  r2 := fun _ _ _ => .ok 1
  varproj := fun _ _ U => .ok U
  build := fun _ s _ _ => some ⟨0, fun i => min (max (s.lo i) (1/2)) (s.hi i), -1⟩
  newFull := fun _ _ _ => none
  newRed := fun _ _ _ _ => none
  randDirs := fun _ _ _ _ => 0
  argsort := fun l => List.range l.length

/-- What the searches of a run are asked to do: propose points between the bounds they are given. -/
structure OEnvOK (e : OEnv n) : Prop where
  full : EnvOK e.full
  red : ∀ U, EnvOK (e.red U)

theorem OEnvOK.calls {e : OEnv n} (h : OEnvOK e) : ∀ env, e.Calls env → EnvOK env := by
  rintro env (rfl | ⟨U, rfl⟩)
  · exact h.full
  · exact h.red U

theorem oenvDemo_ok : OEnvOK oenvDemo where
  full := ⟨fun s S f m _ hm => by simp [oenvDemo, OEnv.full] at hm,
    fun s φ v x _ hv => by simp [oenvDemo, OEnv.full] at hv⟩
  red := fun U => ⟨fun s S f m h hm i => by
      simp only [oenvDemo, OEnv.red, Option.some.injEq] at hm
      subst hm
      exact ⟨le_min (le_max_left _ _) ((h i).1.trans (h i).2), min_le_right _ _⟩,
    fun s φ v x _ hv => by simp [oenvDemo, OEnv.red] at hv⟩

/-- The run of the demonstration does not raise. -/
theorem demo_ok (maximise : Bool) (f : Pt 1 → ℝ) (x0 : Pt 1) :
    ∃ t, optimiseOmorf cfgDemo oenvDemo 1 .active maximise f (St.init 1) none x0 = .ok t := by
  unfold optimiseOmorf omorf
  rw [if_neg one_ne_zero]
  simp only
  rcases evalInitial cfgDemo (objective maximise f) _ _ with ⟨r, b⟩
  cases b <;> exact ⟨_, rfl⟩

/-! ## C115: evaluations and result -/

/-- C115. For every objective, every setting, every number of directions, every outcome of the outside calls, every
starting point and every object whose stored evaluations are in order (a new one, for instance): if `optimise` with the
method `omorf` returns, it has called the function at most once at every point; the stored points and values are exactly
these calls; the number reported is their number; the point returned is one of them, the value returned is the user's
function there, and it is the smallest (largest, if maximising) of all calls, among which is the starting point. -/
theorem c115_omorf (cfg : Cfg n) (hw : Widths cfg) (e : OEnv n) (d : ℕ) (sm : SubMethod) (maximise : Bool) (f : Pt n → ℝ)
    (s : St n) (h : Inv cfg (objective maximise f) s) (U : Option (Dirs n)) (x0 : Pt n) (t : St n) (sol : Sol n)
    (ht : optimiseOmorf cfg e d sm maximise f s U x0 = .ok (t, sol)) :
    t.calls.Nodup ∧ t.S = t.calls ∧ t.f = t.calls.map (objective maximise f) ∧ sol.nfev = t.calls.length ∧
    s.calls <+: t.calls ∧ x0 ∈ t.calls ∧
    sol.x ∈ t.calls ∧ sol.fn = f sol.x ∧
    (maximise = false → ∀ y ∈ t.calls, sol.fn ≤ f y) ∧ (maximise = true → ∀ y ∈ t.calls, f y ≤ sol.fn) := by
  unfold optimiseOmorf at ht
  rcases hr : omorf cfg e d sm (objective maximise f) s U x0 with x | t'
  · rw [hr] at ht; exact absurd ht (by simp)
  rw [hr] at ht
  simp only [Except.ok.injEq, Prod.mk.injEq] at ht
  obtain ⟨rfl, rfl⟩ := ht
  obtain ⟨h1, h2, h3, h4, h5, -⟩ := start_spec h x0
  obtain ⟨st, k, he, hp, -⟩ := omorf_spec cfg e d sm _ s h U x0 t' hr
  obtain ⟨a1, a2, a3, -, -⟩ := hp.inv h1 h2
  obtain ⟨b1, b2, b3, b4, b5, b6, b7⟩ := finish_fields cfg _ st a1 a2
  subst he
  refine ⟨?_, by rw [b1, b2], by rw [b1, b3], by simp only; rw [b1, b4]; simp, ?_, ?_, ?_, ?_, ?_, ?_⟩
  · rw [b1]
    exact a1.nodup.map (removeScaling_injective hw)
  · rw [b1, h.calls]
    exact (h4.trans a3).map _
  · rw [b1]
    refine List.mem_map.2 ⟨applyScaling cfg x0, a3.subset ?_, (c59_scaling cfg hw x0).1⟩
    rw [← h3]
    exact h2.mem
  · rw [b1]; exact b5
  · simp only
    rw [b6]
    unfold objective
    cases maximise <;> simp
  · rintro rfl y hy
    rw [b1] at hy
    have := b7 y hy
    simp only
    rw [b6]
    simpa [objective] using this
  · rintro rfl y hy
    rw [b1] at hy
    have := b7 y hy
    simp only
    rw [b6]
    simpa [objective] using this

example : ∃ t sol, optimiseOmorf cfgDemo oenvDemo 1 .active true (fun x => x 0) (St.init 1) none (fun _ => 1/3) = .ok (t, sol) ∧
    sol.fn = sol.x 0 ∧ 1/3 ≤ sol.fn := by
  obtain ⟨⟨t, sol⟩, h⟩ := demo_ok true (fun x => x 0) (fun _ => 1/3)
  obtain ⟨-, -, -, -, -, h1, -, h2, -, h3⟩ := c115_omorf cfgDemo cfgDemo_widths oenvDemo 1 .active true _ _ (inv_init _ _) none _ t sol h
  exact ⟨t, sol, h, h2, h3 rfl _ h1⟩

/-- C115. Maximising `f` is minimising `-f`: the same calls and points, the value negated, the same exceptions. -/
theorem c115_maximise (cfg : Cfg n) (e : OEnv n) (d : ℕ) (sm : SubMethod) (f : Pt n → ℝ) (s : St n) (U : Option (Dirs n))
    (x0 : Pt n) :
    optimiseOmorf cfg e d sm true f s U x0 =
      match optimiseOmorf cfg e d sm false (fun x => -f x) s U x0 with
      | .ok (t, sol) => .ok (t, { sol with fn := -sol.fn })
      | .error x => .error x := by
  have : objective true f = objective false (fun x => -f x) := by
    funext x; simp [objective]
  unfold optimiseOmorf
  rw [this]
  cases omorf cfg e d sm (objective false fun x => -f x) s U x0 <;> simp

/-! ## C116: bounds -/

/-- C116. For every objective, every non-negative setting, every outcome of the searches that respects the bounds they
are given and every starting point inside the bounds: if `optimise` with the method `omorf` returns, all the points at
which the user's function was called, and the point returned, are inside the bounds. -/
theorem c116_bounds (cfg : Cfg n) (hw : Widths cfg) (sg : Signs cfg) (e : OEnv n) (ok : OEnvOK e) (d : ℕ) (sm : SubMethod)
    (maximise : Bool) (f : Pt n → ℝ) (U : Option (Dirs n)) (x0 l u : Pt n) (hb : cfg.bounds = some (l, u))
    (hx : ∀ i, l i ≤ x0 i ∧ x0 i ≤ u i) (t : St n) (sol : Sol n)
    (ht : optimiseOmorf cfg e d sm maximise f (St.init n) U x0 = .ok (t, sol)) :
    (∀ y ∈ t.calls, ∀ i, l i ≤ y i ∧ y i ≤ u i) ∧ ∀ i, l i ≤ sol.x i ∧ sol.x i ≤ u i := by
  have h := inv_init cfg (objective maximise f)
  have hmem := (c115_omorf cfg hw e d sm maximise f _ h U x0 t sol ht).2.2.2.2.2.2.1
  unfold optimiseOmorf at ht
  rcases hr : omorf cfg e d sm (objective maximise f) (St.init n) U x0 with x | t'
  · rw [hr] at ht; exact absurd ht (by simp)
  rw [hr] at ht
  simp only [Except.ok.injEq, Prod.mk.injEq] at ht
  obtain ⟨rfl, rfl⟩ := ht
  have hx0 : Box cfg (applyScaling cfg x0) := by
    unfold Box applyScaling
    simp only [hb]
    split_ifs with hs
    · intro i
      have := hw l u hb hs i
      obtain ⟨a, b⟩ := hx i
      exact ⟨div_nonneg (by linarith) (by linarith), by rw [div_le_one (by linarith)]; linarith⟩
    · exact hx
  obtain ⟨h1, h2, -, -, -, -⟩ := start_spec h x0
  obtain ⟨st, k, he, hp, -⟩ := omorf_spec cfg e d sm _ _ h U x0 t' hr
  have hbox := hp.box ok.calls sg h1 h2 (start_box sg h (by simp [St.init]) hx0)
  obtain ⟨a1, a2, -, -, -⟩ := hp.inv h1 h2
  obtain ⟨b1, -, -, -, -, -, -⟩ := finish_fields cfg _ st a1 a2
  subst he
  have hcalls : ∀ y ∈ (finish cfg st).calls, ∀ i, l i ≤ y i ∧ y i ≤ u i := by
    intro y hy
    rw [b1] at hy
    obtain ⟨x, hx', rfl⟩ := List.mem_map.1 hy
    have hbx := hbox.pts x hx'
    unfold Box at hbx
    unfold removeScaling
    simp only [hb] at hbx ⊢
    split_ifs with hs
    · rw [if_pos hs] at hbx
      intro i
      have h3 := hw l u hb hs i
      obtain ⟨h4, h5⟩ := hbx i
      constructor
      · simp only
        nlinarith
      · simp only
        nlinarith
    · rw [if_neg hs] at hbx
      exact hbx
  exact ⟨hcalls, hcalls _ hmem⟩

example : ∃ t sol, optimiseOmorf cfgDemo oenvDemo 1 .active true (fun x => x 0) (St.init 1) none (fun _ => 1/2) = .ok (t, sol) ∧
    ∀ y ∈ t.calls, ∀ i, -1 ≤ y i ∧ y i ≤ 1 := by
  obtain ⟨⟨t, sol⟩, h⟩ := demo_ok true (fun x => x 0) (fun _ => 1/2)
  exact ⟨t, sol, h, (c116_bounds cfgDemo cfgDemo_widths cfgDemo_signs oenvDemo oenvDemo_ok 1 .active true _ none _
    (fun _ => -1) (fun _ => 1) rfl (fun _ => ⟨by norm_num, by norm_num⟩) t sol h).1⟩

/-! ## C117: sample sets and radii -/

/-- C117. In every pass of the main loop the set from which the linear model is built has exactly `n + 1` points, the set
from which the quadratic model is built exactly `(d + 1)(d + 2) / 2`; all of them were evaluated before, each is paired
with the value of the objective, and the incumbent value never grows. -/
theorem c117_sample_sets (cfg : Cfg n) (e : OEnv n) (d : ℕ) (sm : SubMethod) (obj : Pt n → ℝ) (r : Run n)
    (h : SetInv cfg obj (n + 1) r) (U : Dirs n) (fuel : ℕ) (R : ORun n)
    (hR : R = oLoop cfg e d sm obj fuel (oBegin cfg e d obj r U)) :
    R.SF.length = n + 1 ∧ R.fF = R.SF.map (fun x => obj (removeScaling cfg x)) ∧ (∀ x ∈ R.SF, x ∈ R.st.S) ∧
    R.SR.length = (d + 1) * (d + 2) / 2 ∧ R.fR = R.SR.map (fun x => obj (removeScaling cfg x)) ∧
    (∀ x ∈ R.SR, x ∈ R.st.S) ∧ R.st.fOld ≤ r.st.fOld := by
  obtain ⟨⟨k0, -, hp0⟩, hI⟩ := oBegin_spec (e := e) (d := d) (U := U) h
  obtain ⟨⟨k, hk⟩, hJ, -⟩ := oLoop_spec (e := e) (sm := sm) fuel _ hI
  rw [← hR] at hJ hk
  exact ⟨hJ.lenF, hJ.full.vals, hJ.full.mem, hJ.lenR, hJ.red.vals, hJ.red.mem,
    ((hp0.trans hk).inv h.inv h.old).2.2.2.2⟩

/-- The linear set of the demonstration: `0` and `1`. -/
theorem demo_set : SetInv cfgDemo (objective false fun x => x 0 ^ 2) 2 ⟨stDemo, [fun _ => 0, fun _ => 1], [0, 1]⟩ := by
  have hrm : ∀ x, removeScaling cfgDemo x = x := fun x => by simp [removeScaling, cfgDemo]
  refine ⟨runDemo_inv.inv, runDemo_inv.old, ⟨?_, ?_⟩, rfl⟩
  · simp [val, hrm, objective]
  · simp [stDemo]

example : (oLoop cfgDemo oenvDemo 1 .active (objective false fun x => x 0 ^ 2) 7
    (oBegin cfgDemo oenvDemo 1 (objective false fun x => x 0 ^ 2) ⟨stDemo, [fun _ => 0, fun _ => 1], [0, 1]⟩
      [fun _ => 1])).SR.length = 3 :=
  (c117_sample_sets cfgDemo oenvDemo 1 .active _ _ demo_set [fun _ => 1] 7 _ rfl).2.2.2.1

/-- C118. For every run of `omorf` from a new object that returns: the resolution is between `rho_min` and the initial
radius, and the radius is at least `alpha_2` times the resolution. -/
theorem c118_radii (cfg : Cfg n) (sn : Sane cfg) (e : OEnv n) (d : ℕ) (sm : SubMethod) (maximise : Bool) (f : Pt n → ℝ)
    (U : Option (Dirs n)) (x0 : Pt n) (hr : cfg.rhoMin ≤ initRadius cfg (applyScaling cfg x0)) (t : St n) (sol : Sol n)
    (ht : optimiseOmorf cfg e d sm maximise f (St.init n) U x0 = .ok (t, sol)) :
    cfg.rhoMin ≤ t.rho ∧ t.rho ≤ initRadius cfg (applyScaling cfg x0) ∧ cfg.alpha2 * t.rho ≤ t.del := by
  have h := inv_init cfg (objective maximise f)
  unfold optimiseOmorf at ht
  rcases hr' : omorf cfg e d sm (objective maximise f) (St.init n) U x0 with x | t'
  · rw [hr'] at ht; exact absurd ht (by simp)
  rw [hr'] at ht
  simp only [Except.ok.injEq, Prod.mk.injEq] at ht
  obtain ⟨rfl, rfl⟩ := ht
  obtain ⟨h1, h2, h3, -, -, h6⟩ := start_spec h x0
  have hd : (start cfg (objective maximise f) (St.init n) x0).del = initRadius cfg (applyScaling cfg x0) := by
    obtain ⟨-, a2, -, -, -⟩ := blackbox_spec (h.sOld (applyScaling cfg x0)) (applyScaling cfg x0)
    unfold start
    simp only [setDel, updateBounds_del]
    rw [a2.sOld]
  obtain ⟨st, k, he, hp, -⟩ := omorf_spec cfg e d sm _ _ h U x0 t' hr'
  have h0 := sn.rhoMin
  obtain ⟨a, b⟩ := hp.rad sn h1 h2 ⟨by rw [h6, hd]; exact hr, by
    rw [h6, hd]; nlinarith [sn.alpha2, sn.alpha2']⟩
  have e1 : (finish cfg st).rho = st.rho := by simp [finish, setIterate]
  have e2 : (finish cfg st).del = st.del := by simp [finish, setIterate]
  subst he
  rw [e1, e2]
  rw [h6, hd] at b
  exact ⟨a.rho, b, a.del⟩

example : ∃ t sol, optimiseOmorf cfgDemo oenvDemo 1 .active false (fun x => x 0) (St.init 1) none (fun _ => 1/2) = .ok (t, sol) ∧
    1/10^6 ≤ t.rho ∧ t.rho ≤ 1 := by
  obtain ⟨⟨t, sol⟩, h⟩ := demo_ok false (fun x => x 0) (fun _ => 1/2)
  have := c118_radii cfgDemo cfgDemo_sane oenvDemo 1 .active false _ none _ (by norm_num [cfgDemo, initRadius]) t sol h
  exact ⟨t, sol, h, this.1, by simpa [initRadius, cfgDemo] using this.2.1⟩

/-- C118. In every number of passes of the main loop the resolution does not grow and does not fall below `rho_min`, and
the radius stays at least `alpha_2` times the resolution. -/
theorem c118_passes (cfg : Cfg n) (sn : Sane cfg) (e : OEnv n) (d : ℕ) (sm : SubMethod) (obj : Pt n → ℝ) (r : Run n)
    (h : SetInv cfg obj (n + 1) r) (U : Dirs n) (h1 : cfg.rhoMin ≤ r.st.rho) (h2 : cfg.alpha2 * r.st.rho ≤ r.st.del)
    (fuel m : ℕ) (R T : ORun n) (hR : R = oLoop cfg e d sm obj fuel (oBegin cfg e d obj r U))
    (hT : T = oLoop cfg e d sm obj m R) :
    cfg.rhoMin ≤ T.st.rho ∧ T.st.rho ≤ R.st.rho ∧ cfg.alpha2 * T.st.rho ≤ T.st.del := by
  obtain ⟨⟨k0, -, hp0⟩, hI⟩ := oBegin_spec (e := e) (d := d) (U := U) h
  obtain ⟨⟨k, hk⟩, hJ, -⟩ := oLoop_spec (e := e) (sm := sm) fuel _ hI
  rw [← hR] at hJ hk
  obtain ⟨⟨k', hk'⟩, -, -⟩ := oLoop_spec (e := e) (sm := sm) m _ hJ
  rw [← hT] at hk'
  obtain ⟨g1, -⟩ := (hp0.trans hk).rad sn h.inv h.old ⟨h1, h2⟩
  obtain ⟨g2, g3⟩ := hk'.rad sn hJ.inv hJ.old g1
  exact ⟨g2.rho, g3, g2.del⟩

example : 1/10^6 ≤ (oLoop cfgDemo oenvDemo 1 .active (objective false fun x => x 0 ^ 2) 9
    (oLoop cfgDemo oenvDemo 1 .active (objective false fun x => x 0 ^ 2) 7
      (oBegin cfgDemo oenvDemo 1 (objective false fun x => x 0 ^ 2) ⟨stDemo, [fun _ => 0, fun _ => 1], [0, 1]⟩
        [fun _ => 1]))).st.rho :=
  (c118_passes cfgDemo cfgDemo_sane oenvDemo 1 .active _ _ demo_set [fun _ => 1] (by norm_num [cfgDemo, stDemo])
    (by norm_num [cfgDemo, stDemo]) 7 9 _ _ rfl rfl).1

/-! ## C119: the budget -/

/-- C119, the part that holds: for every run of `omorf` from a new object that returns, the number of evaluations exceeds
`max_evals` (or 2, if that is more) by at most what one pass may use, `q - 1 + n + max n (q - 1)` with
`q = (d + 1)(d + 2) / 2`. Missing: that it does not exceed `max_evals` (`c119_budget_violated`). -/
theorem c119_budget_partial (cfg : Cfg n) (e : OEnv n) (d : ℕ) (sm : SubMethod) (maximise : Bool) (f : Pt n → ℝ)
    (U : Option (Dirs n)) (x0 : Pt n) (t : St n) (sol : Sol n)
    (ht : optimiseOmorf cfg e d sm maximise f (St.init n) U x0 = .ok (t, sol)) :
    t.calls.length ≤ max cfg.maxEvals 2 +
      (((d + 1) * (d + 2) / 2 - 1) + n + max n ((d + 1) * (d + 2) / 2 - 1)) := by
  have h := inv_init cfg (objective maximise f)
  unfold optimiseOmorf at ht
  rcases hr' : omorf cfg e d sm (objective maximise f) (St.init n) U x0 with x | t'
  · rw [hr'] at ht; exact absurd ht (by simp)
  rw [hr'] at ht
  simp only [Except.ok.injEq, Prod.mk.injEq] at ht
  obtain ⟨rfl, rfl⟩ := ht
  obtain ⟨h1, h2, -, -, -, -⟩ := start_spec h x0
  obtain ⟨st, k, he, hp, hev⟩ := omorf_spec cfg e d sm _ _ h U x0 t' hr'
  obtain ⟨a1, a2, -, -, -⟩ := hp.inv h1 h2
  obtain ⟨b1, -, -, b4, -, -, -⟩ := finish_fields cfg _ st a1 a2
  subst he
  rw [b1, List.length_map]
  rw [a1.evals] at hev
  exact hev

example : ∃ t sol, optimiseOmorf cfgDemo oenvDemo 1 .active false (fun x => x 0) (St.init 1) none (fun _ => 1/2) = .ok (t, sol) ∧
    t.calls.length ≤ 10005 := by
  obtain ⟨⟨t, sol⟩, h⟩ := demo_ok false (fun x => x 0) (fun _ => 1/2)
  exact ⟨t, sol, h, c119_budget_partial cfgDemo oenvDemo 1 .active false _ none _ t sol h⟩

end EQ.Opt
