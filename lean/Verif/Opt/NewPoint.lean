import Verif.Opt.SurrogateProps
import Verif.Opt.OmorfProps
import Mathlib.Topology.Order.Compact

/-!
# C147: new sample points and steps stay in the local bounds and do not lose against the incumbent
-/

namespace EQ.Opt
open EQ.Basis EQ.Poly EQ.Sub

variable {n : ℕ}

/-- Specification: `x` is between the bounds. -/
def Between (lo hi x : Pt n) : Prop := ∀ i, lo i ≤ x i ∧ x i ≤ hi i

/-- The contract of `optimize.minimize(..., method='TNC')`: from a start between the bounds it returns a point between the bounds and
the objective there; if the gradient it is given is the gradient, the objective is not larger than at the start. -/
def TncOK (tnc : Tnc n) : Prop := ∀ f g s lo hi, Between lo hi s →
  Between lo hi (tnc f g s lo hi).1 ∧ (tnc f g s lo hi).2 = f (tnc f g s lo hi).1 ∧
    ((∀ x, IsGradient f (g x) x) → f (tnc f g s lo hi).1 ≤ f s)

/-- The minimiser finds the smallest value between the bounds. -/
def TncGlobal (tnc : Tnc n) : Prop := ∀ f g s lo hi, Between lo hi s → (∀ x, IsGradient f (g x) x) →
  ∀ y, Between lo hi y → f (tnc f g s lo hi).1 ≤ f y

/-- The contract of `optimize.linprog(c, bounds=...)`. -/
def LinProgOK (lp : LinProg n) : Prop := ∀ c lo hi, (∀ i, lo i ≤ hi i) →
  Between lo hi (lp c lo hi) ∧ ∀ y, Between lo hi y → ∑ i, c i * lp c lo hi i ≤ ∑ i, c i * y i

/-! ### The contracts can be met -/

/-- A minimiser that stays where it is. -/
def tncStay : Tnc n := fun f _ s _ _ => (s, f s)

theorem tncStay_ok : TncOK (tncStay : Tnc n) := fun _ _ _ _ _ h => ⟨h, rfl, fun _ => le_rfl⟩

theorem exists_min (f : Pt n → ℝ) (g : Pt n → Pt n) (s lo hi : Pt n) (hs : Between lo hi s) (hg : ∀ x, IsGradient f (g x) x) :
    ∃ x, Between lo hi x ∧ ∀ y, Between lo hi y → f x ≤ f y := by
  have hc : Continuous f := continuous_iff_continuousAt.2 fun x => (hg x).continuousAt
  have hb : ∀ x, Between lo hi x ↔ x ∈ Set.Icc lo hi := fun x =>
    ⟨fun h => ⟨fun i => (h i).1, fun i => (h i).2⟩, fun h i => ⟨h.1 i, h.2 i⟩⟩
  obtain ⟨x, hx, hm⟩ := (isCompact_Icc (a := lo) (b := hi)).exists_isMinOn ⟨s, (hb s).1 hs⟩ hc.continuousOn
  exact ⟨x, (hb x).2 hx, fun y hy => hm ((hb y).1 hy)⟩

/-- There is a minimiser that meets the contract and finds the smallest value. -/
theorem exists_tnc : ∃ tnc : Tnc n, TncOK tnc ∧ TncGlobal tnc := by
  classical
  refine ⟨fun f g s lo hi => if h : Between lo hi s ∧ ∀ x, IsGradient f (g x) x then
    ((exists_min f g s lo hi h.1 h.2).choose, f (exists_min f g s lo hi h.1 h.2).choose) else (s, f s), ?_, ?_⟩
  · intro f g s lo hi hs
    by_cases h : Between lo hi s ∧ ∀ x, IsGradient f (g x) x
    · simp only [dif_pos h]
      have := (exists_min f g s lo hi h.1 h.2).choose_spec
      exact ⟨this.1, trivial, fun _ => this.2 s hs⟩
    · simp only [dif_neg h]
      exact ⟨hs, trivial, fun _ => le_rfl⟩
  · intro f g s lo hi hs hg y hy
    simp only [dif_pos (show Between lo hi s ∧ ∀ x, IsGradient f (g x) x from ⟨hs, hg⟩)]
    exact (exists_min f g s lo hi hs hg).choose_spec.2 y hy

/-- A solver of linear programs without constraints. -/
noncomputable def lpCorner : LinProg n := fun c lo hi i => if 0 ≤ c i then lo i else hi i

theorem lpCorner_ok : LinProgOK (lpCorner : LinProg n) := by
  intro c lo hi h
  refine ⟨fun i => ?_, fun y hy => Finset.sum_le_sum fun i _ => ?_⟩
  · unfold lpCorner
    split_ifs
    · exact ⟨le_rfl, h i⟩
    · exact ⟨h i, le_rfl⟩
  · unfold lpCorner
    split_ifs with hc
    · exact mul_le_mul_of_nonneg_left (hy i).1 hc
    · exact mul_le_mul_of_nonpos_left (hy i).2 (by linarith)

/-! ### New sample points -/

/-- The search for a new point, for any basis functions with their derivatives. -/
theorem findNew_spec {tnc : Tnc n} (ht : TncOK tnc) (q : ℕ) (φ : Pt n → ℕ → ℝ) (dφ : Pt n → Fin n → ℕ → ℝ) (st : St n) (hs : Within st st.sOld)
    (v : ℕ → ℝ) (hg : ∀ x, IsGradient (fun y => dot q v (φ y)) (jac q dφ v x) x) :
    |dot q v (φ st.sOld)| ≤ |dot q v (φ (findNew tnc q φ dφ st v))| ∧
      (TncGlobal tnc → ∀ y, Within st y → |dot q v (φ y)| ≤ |dot q v (φ (findNew tnc q φ dφ st v))|) := by
  have hn : ∀ x, IsGradient (fun y => -dot q v (φ y)) (-jac q dφ v x) x := fun x => neg_gradient (hg x)
  obtain ⟨-, e1, m1⟩ := ht (fun y => dot q v (φ y)) (jac q dφ v) st.sOld st.lo st.hi hs
  obtain ⟨-, e2, m2⟩ := ht (fun y => -dot q v (φ y)) (fun x => -jac q dφ v x) st.sOld st.lo st.hi hs
  have m1 := m1 hg
  have m2 := m2 hn
  have key : ∀ t : ℝ, dot q v (φ (tnc (fun y => dot q v (φ y)) (jac q dφ v) st.sOld st.lo st.hi).1) ≤ t →
      -dot q v (φ (tnc (fun y => -dot q v (φ y)) (fun x => -jac q dφ v x) st.sOld st.lo st.hi).1) ≤ -t →
      |t| ≤ |dot q v (φ (findNew tnc q φ dφ st v))| := by
    intro t h1 h2
    unfold findNew
    simp only
    split_ifs with h
    · rw [e1, e2, abs_neg] at h
      rw [abs_le]
      have := neg_abs_le (dot q v (φ (tnc (fun y => dot q v (φ y)) (jac q dφ v) st.sOld st.lo st.hi).1))
      have := le_abs_self (dot q v (φ (tnc (fun y => -dot q v (φ y)) (fun x => -jac q dφ v x) st.sOld st.lo st.hi).1))
      constructor <;> linarith
    · rw [e1, e2, abs_neg, not_lt] at h
      rw [abs_le]
      have := neg_abs_le (dot q v (φ (tnc (fun y => dot q v (φ y)) (jac q dφ v) st.sOld st.lo st.hi).1))
      have := le_abs_self (dot q v (φ (tnc (fun y => -dot q v (φ y)) (fun x => -jac q dφ v x) st.sOld st.lo st.hi).1))
      constructor <;> linarith
  exact ⟨key _ m1 m2, fun hG y hy => key _ (hG _ _ _ _ _ hs hg y hy) (hG _ _ _ _ _ hs hn y hy)⟩

/-- The point found is between the bounds, for any basis functions. -/
theorem findNew_within {tnc : Tnc n} (ht : TncOK tnc) (q : ℕ) (φ : Pt n → ℕ → ℝ) (dφ : Pt n → Fin n → ℕ → ℝ) (st : St n)
    (hs : Within st st.sOld) (v : ℕ → ℝ) : Within st (findNew tnc q φ dφ st v) := by
  unfold findNew
  simp only
  split_ifs
  · exact (ht _ _ _ _ _ hs).1
  · exact (ht _ _ _ _ _ hs).1

/-- **C147, method `trust-region`.** For every sample set, vector and incumbent between the local bounds: the new point is between
the local bounds and its pivot is at least that of the incumbent; if the minimiser finds the smallest value, no point between the
bounds has a larger pivot. -/
theorem c147_new {tnc : Tnc n} (ht : TncOK tnc) (cfg : Cfg n) (hb : ∀ i, cfg.basis 0 i = 0) (st : St n) (hs : Within st st.sOld)
    (hatS : List (Pt n)) (v : ℕ → ℝ) :
    let pivot := fun y => |dot (setSize n) v (phiTR cfg st hatS y)|
    let x := findNew tnc (setSize n) (phiTR cfg st hatS) (phiTRDeriv cfg st hatS) st v
    Within st x ∧ pivot st.sOld ≤ pivot x ∧ (TncGlobal tnc → ∀ y, Within st y → pivot y ≤ pivot x) :=
  ⟨findNew_within ht _ _ _ _ hs _, findNew_spec ht _ _ _ _ hs _ fun x => c146_pivot cfg hb st hatS _ v x⟩

/-- **C147, method `omorf`, directions.** -/
theorem c147_new_omorf {tnc : Tnc n} (ht : TncOK tnc) (d : ℕ) (hd : 0 < d) (U : Dirs n) (hU : U.length = d) (st : St n)
    (hs : Within st st.sOld) (hatS : List (Pt n)) (v : ℕ → ℝ) :
    let pivot := fun y => |dot (redSize d) v (phiRed d U st hatS y)|
    let x := findNew tnc (redSize d) (phiRed d U st hatS) (phiRedDeriv d U st hatS) st v
    Within st x ∧ pivot st.sOld ≤ pivot x ∧ (TncGlobal tnc → ∀ y, Within st y → pivot y ≤ pivot x) :=
  ⟨findNew_within ht _ _ _ _ hs _, findNew_spec ht _ _ _ _ hs _ fun x => c146_pivot_omorf d hd U hU st hatS v x⟩

theorem findNewFull_within {lp : LinProg n} (hl : LinProgOK lp) (φ : Pt n → ℕ → ℝ) (st : St n) (hs : ∀ i, st.lo i ≤ st.hi i) (v : ℕ → ℝ) :
    Within st (findNewFull lp φ st v) := by
  unfold findNewFull
  simp only
  split_ifs
  · exact (hl _ _ _ hs).1
  · exact (hl _ _ _ hs).1

/-- The pivot function of the whole space. -/
theorem dot_phiFull (st : St n) (hatS : List (Pt n)) (v : ℕ → ℝ) (y : Pt n) :
    dot (n + 1) v (phiFull st hatS y) = v 0 + (∑ i : Fin n, v (i + 1) * (y i - st.sOld i)) / delS st hatS := by
  rw [dot_sum, Finset.sum_range_succ', Finset.sum_range, add_comm, Finset.sum_div]
  congr 1
  · simp [phiFull]
  · refine Finset.sum_congr rfl fun i _ => ?_
    unfold phiFull
    rw [if_neg (Nat.succ_ne_zero _)]
    simp only [Nat.add_sub_cancel, i.2, dite_true]
    rw [mul_div_assoc]
    rfl

/-- **C147, method `omorf`, whole space.** No point between the local bounds has a larger pivot than the new point. -/
theorem c147_full {lp : LinProg n} (hl : LinProgOK lp) (st : St n) (hs : ∀ i, st.lo i ≤ st.hi i) (hatS : List (Pt n))
    (hD : 0 < delS st hatS) (v : ℕ → ℝ) :
    let pivot := fun y => |dot (n + 1) v (phiFull st hatS y)|
    let x := findNewFull lp (phiFull st hatS) st v
    Within st x ∧ ∀ y, Within st y → pivot y ≤ pivot x := by
  refine ⟨findNewFull_within hl _ _ hs _, fun y hy => ?_⟩
  set c : Pt n := fun i => v (i + 1) with hc
  obtain ⟨-, m1⟩ := hl c st.lo st.hi hs
  obtain ⟨-, m2⟩ := hl (-c) st.lo st.hi hs
  have h1 : dot (n + 1) v (phiFull st hatS (lp c st.lo st.hi)) ≤ dot (n + 1) v (phiFull st hatS y) := by
    rw [dot_phiFull, dot_phiFull]
    refine add_le_add le_rfl (div_le_div_of_nonneg_right ?_ hD.le)
    have := m1 y hy
    simp only [hc] at this
    simp only [mul_sub, Finset.sum_sub_distrib]
    linarith
  have h2 : dot (n + 1) v (phiFull st hatS y) ≤ dot (n + 1) v (phiFull st hatS (lp (-c) st.lo st.hi)) := by
    rw [dot_phiFull, dot_phiFull]
    refine add_le_add le_rfl (div_le_div_of_nonneg_right ?_ hD.le)
    have := m2 y hy
    simp only [hc, Pi.neg_apply, neg_mul, Finset.sum_neg_distrib, neg_le_neg_iff] at this
    simp only [mul_sub, Finset.sum_sub_distrib]
    linarith
  unfold findNewFull
  simp only
  split_ifs with h
  · rw [abs_le]
    have := neg_abs_le (dot (n + 1) v (phiFull st hatS (lp c st.lo st.hi)))
    have := le_abs_self (dot (n + 1) v (phiFull st hatS (lp (-c) st.lo st.hi)))
    constructor <;> linarith
  · rw [not_lt] at h
    rw [abs_le]
    have := neg_abs_le (dot (n + 1) v (phiFull st hatS (lp c st.lo st.hi)))
    have := le_abs_self (dot (n + 1) v (phiFull st hatS (lp (-c) st.lo st.hi)))
    constructor <;> linarith

/-! ### The methods down to the calls of scipy -/

theorem gradient_unique {f : Pt n → ℝ} {g x : Pt n} (h : IsGradient f g x) (i : Fin n) : fderiv ℝ f x (Pi.single i 1) = g i := by
  rw [h.fderiv]
  simp only [_root_.sum_apply, _root_.smul_apply, ContinuousLinearMap.proj_apply, smul_eq_mul]
  rw [Finset.sum_eq_single i]
  · simp
  · intro j _ hj
    rw [Pi.single_eq_of_ne hj, mul_zero]
  · simp

/-- The derivatives of the pivot functions are those that `phi_function_deriv` computes: method `trust-region`. -/
theorem c147_link (tnc : Tnc n) (cfg : Cfg n) (hb : ∀ i, cfg.basis 0 i = 0) (st : St n) (hatS : List (Pt n)) (q : ℕ) (v : ℕ → ℝ) :
    findNew tnc q (phiTR cfg st hatS) (phiTRDeriv cfg st hatS) st v = findNew tnc q (phiTR cfg st hatS) (gradOf (phiTR cfg st hatS)) st v := by
  have : jac q (phiTRDeriv cfg st hatS) v = jac q (gradOf (phiTR cfg st hatS)) v := by
    funext x i
    unfold jac
    rw [dot_sum, dot_sum]
    refine Finset.sum_congr rfl fun k _ => ?_
    congr 1
    exact (gradient_unique (phiTR_gradient cfg hb st hatS k x) i).symm
  unfold findNew
  rw [this]

/-- The same for the method `omorf`. -/
theorem c147_link_omorf (tnc : Tnc n) (d : ℕ) (hd : 0 < d) (U : Dirs n) (hU : U.length = d) (st : St n) (hatS : List (Pt n)) (v : ℕ → ℝ) :
    findNew tnc (redSize d) (phiRed d U st hatS) (phiRedDeriv d U st hatS) st v =
      findNew tnc (redSize d) (phiRed d U st hatS) (gradOf (phiRed d U st hatS)) st v := by
  have : jac (redSize d) (phiRedDeriv d U st hatS) v = jac (redSize d) (gradOf (phiRed d U st hatS)) v := by
    funext x i
    unfold jac
    rw [dot_sum, dot_sum]
    refine Finset.sum_congr rfl fun k hk => ?_
    congr 1
    exact (gradient_unique (phiRed_gradient d hd U hU st hatS (Finset.mem_range.1 hk) x) i).symm
  unfold findNew
  rw [this]

theorem trEnv_ok {lstsq : Lstsq} {tnc : Tnc n} (ht : TncOK tnc) (rd : St n → ℕ → ℕ → Pt n) (srt : List ℝ → List ℕ) :
    EnvOK (trEnv lstsq tnc rd srt) where
  build := by
    intro s S f m hs hm
    unfold trEnv buildStepTR at hm
    simp only at hm
    split at hm
    · simp only [Option.some.injEq] at hm
      subst hm
      exact (ht _ _ _ _ _ hs).1
    · exact absurd hm (by simp)
  newPoint := by
    intro s φ v x hs hx
    simp only [trEnv, Option.some.injEq] at hx
    subst hx
    exact findNew_within ht _ _ _ _ hs _

theorem omorfEnv_ok {lstsq : Lstsq} {tnc : Tnc n} {lp : LinProg n} (ht : TncOK tnc) (hl : LinProgOK lp) (d : ℕ) (e : OEnv n) :
    OEnvOK (omorfEnv lstsq tnc lp d e) where
  full := ⟨fun s S f m _ hm => by simp [OEnv.full] at hm, fun s φ v x hs hx => by
    simp only [omorfEnv, OEnv.full, Option.some.injEq] at hx
    subst hx
    exact findNewFull_within hl _ _ (fun i => (hs i).1.trans (hs i).2) _⟩
  red := fun U => ⟨fun s S f m hs hm => by
    simp only [omorfEnv, OEnv.red] at hm
    split at hm
    · simp only [Option.some.injEq] at hm
      subst hm
      exact (ht _ _ _ _ _ hs).1
    · exact absurd hm (by simp), fun s φ v x hs hx => by
    simp only [omorfEnv, OEnv.red, Option.some.injEq] at hx
    subst hx
    exact findNew_within ht _ _ _ _ hs _⟩

/-- **C147, whole runs of the method `trust-region`.** With the models, steps and new points of the code, every function and every
start between the bounds: all points at which the function is evaluated, and the result, are between the bounds. -/
theorem c147_run {lstsq : Lstsq} {tnc : Tnc n} (ht : TncOK tnc) (rd : St n → ℕ → ℕ → Pt n) (srt : List ℝ → List ℕ) (cfg : Cfg n)
    (hw : Widths cfg) (sg : Signs cfg) (maximise : Bool) (f : Pt n → ℝ) (x0 l u : Pt n) (hb : cfg.bounds = some (l, u))
    (hx : Between l u x0) :
    (∀ y ∈ (optimise cfg (trEnv lstsq tnc rd srt) maximise f (St.init n) x0).1.calls, Between l u y) ∧
      Between l u (optimise cfg (trEnv lstsq tnc rd srt) maximise f (St.init n) x0).2.x :=
  c59_bounds cfg hw sg _ (trEnv_ok ht rd srt) maximise f x0 l u hb hx

/-- **C147, whole runs of the method `omorf`.** -/
theorem c147_run_omorf {lstsq : Lstsq} {tnc : Tnc n} {lp : LinProg n} (ht : TncOK tnc) (hl : LinProgOK lp) (d : ℕ) (e : OEnv n)
    (cfg : Cfg n) (hw : Widths cfg) (sg : Signs cfg) (sm : SubMethod) (maximise : Bool) (f : Pt n → ℝ) (U : Option (Dirs n))
    (x0 l u : Pt n) (hb : cfg.bounds = some (l, u)) (hx : Between l u x0) (t : St n) (sol : Sol n)
    (hr : optimiseOmorf cfg (omorfEnv lstsq tnc lp d e) d sm maximise f (St.init n) U x0 = .ok (t, sol)) :
    (∀ y ∈ t.calls, Between l u y) ∧ Between l u sol.x :=
  c116_bounds cfg hw sg _ (omorfEnv_ok ht hl d e) d sm maximise f U x0 l u hb hx t sol hr

/-! ### The hypotheses can be met -/

example : Within stDemo stDemo.sOld := fun i => by norm_num [stDemo]

example : 0 < delS stDemo [] := by norm_num [delS, stDemo]

example : (∀ i, stDemo.lo i ≤ stDemo.hi i) ∧ LinProgOK (lpCorner : LinProg 1) := ⟨fun i => by norm_num [stDemo], lpCorner_ok⟩

/-- The whole space of one variable, pivot `1 + 2 x` on `[-1, 1]`: the new point is `1`. -/
example : findNewFull lpCorner (phiFull stDemo []) stDemo (fun k => k + 1) = fun _ => 1 := by
  funext i
  have h : ∀ y, dot (1 + 1) (fun k => (k : ℝ) + 1) (phiFull stDemo [] y) = 1 + 2 * y 0 := by
    intro y
    rw [dot_phiFull]
    norm_num [delS, stDemo]
  unfold findNewFull
  simp only [h]
  rw [if_neg]
  · norm_num [lpCorner, stDemo]
  · norm_num [lpCorner, stDemo]

example : Between (fun _ => -1) (fun _ => 1) (optimise cfgDemo (trEnv (fun _ _ _ => []) tncStay (fun _ _ _ _ => 0) fun l => List.range l.length)
    false (fun x => x 0 ^ 2) (St.init 1) fun _ => 0).2.x :=
  (c147_run tncStay_ok _ _ cfgDemo cfgDemo_widths cfgDemo_signs false _ _ _ _ rfl fun i => by norm_num).2

end EQ.Opt
