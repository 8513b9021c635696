import Verif.Stats.BestProps
import Verif.Stats.RateProps

/-!
# The error of the Sobol' indices is bounded by the error of the fit (C214)
-/

namespace EQ.Stats
open EQ.Param EQ.ParamSpec EQ.Basis EQ.Sampling EQ.Sampling.Spec EQ.Poly EQ.Poly.Spec EQ.Stats.Spec Set

variable {d : ℕ}

/-! ## Lemmas -/

/-- Two shares `a²/s²` and `b²/t²` of which the parts and the wholes are within `η`. -/
theorem share_near {a b s t η : ℝ} (ha : 0 ≤ a) (hb : 0 ≤ b) (hs : 0 < s) (ht : 0 < t) (has : a ≤ s) (hbt : b ≤ t) (h1 : |a - b| ≤ η) (h2 : |s - t| ≤ η) :
    |b ^ 2 / t ^ 2 - a ^ 2 / s ^ 2| ≤ 4 * (η / s) := by
  have hx0 : 0 ≤ a / s := div_nonneg ha hs.le
  have hy0 : 0 ≤ b / t := div_nonneg hb ht.le
  have hx1 : a / s ≤ 1 := (div_le_one hs).2 has
  have hy1 : b / t ≤ 1 := (div_le_one ht).2 hbt
  have hd : |b / t - a / s| ≤ 2 * (η / s) := by
    have e : b / t - a / s = (b / t * (s - t) + (b - a)) / s := by field_simp; ring
    rw [e, abs_div, abs_of_pos hs, ← mul_div_assoc, div_le_div_iff_of_pos_right hs]
    refine (abs_add_le _ _).trans ?_
    rw [abs_mul, abs_of_nonneg hy0, abs_sub_comm b a]
    have : b / t * |s - t| ≤ 1 * η := mul_le_mul hy1 h2 (abs_nonneg _) zero_le_one
    linarith
  rw [← div_pow, ← div_pow, sq_sub_sq, abs_mul, abs_of_nonneg (add_nonneg hy0 hx0)]
  have : (b / t + a / s) * |b / t - a / s| ≤ 2 * (2 * (η / s)) := mul_le_mul (by linarith) hd (abs_nonneg _) zero_le_two
  linarith

/-- The variances of the conditional means of two near functions, relative to their variances. -/
theorem closed_near (P : Fin d → MParam) (Es : Fin d → (ℝ → ℝ) → ℝ) (l u : Fin d → ℝ) (hin : ∀ i, Input (P i) (Es i) (l i) (u i)) (f g : List ℝ → ℝ)
    (hf : ContinuousOn (fun v : Fin d → ℝ => f (List.ofFn v)) (Icc l u)) (hG : ContinuousOn (fun v : Fin d → ℝ => g (List.ofFn v)) (Icc l u)) (η : ℝ) (hη : 0 ≤ η)
    (herr : mE Es (fun v => (f (List.ofFn v) - g (List.ofFn v)) ^ 2) ≤ η ^ 2) (hσ : η < √(lawVar (List.ofFn Es) f)) :
    lawVar (List.ofFn Es) g ≠ 0 ∧ ∀ keep : ℕ → Bool, |lawVar (List.ofFn Es) (condMean (List.ofFn Es) keep g) / lawVar (List.ofFn Es) g -
      lawVar (List.ofFn Es) (condMean (List.ofFn Es) keep f) / lawVar (List.ofFn Es) f| ≤ 4 * (η / √(lawVar (List.ofFn Es) f)) := by
  have hm := mE_mean Es l u fun i => (hin i).mean
  have hst := hm.near_std hf hG hη herr
  rw [← lawVar_eq, ← lawVar_eq] at hst
  have hs : 0 < √(lawVar (List.ofFn Es) f) := lt_of_le_of_lt hη hσ
  have ht : 0 < √(lawVar (List.ofFn Es) g) := by
    have := (abs_le.1 hst).2
    linarith
  have hs' := Real.sqrt_pos.1 hs
  have ht' := Real.sqrt_pos.1 ht
  refine ⟨ht'.ne', fun keep => ?_⟩
  obtain ⟨f1, f2⟩ := cE_facts Es l u (fun i => (hin i).mean) keep
  have e : ∀ h : List ℝ → ℝ, lawVar (List.ofFn Es) (condMean (List.ofFn Es) keep h) =
      mE Es fun v => (cE Es keep (fun w => h (List.ofFn w)) v - mE Es (cE Es keep fun w => h (List.ofFn w))) ^ 2 := by
    intro h
    rw [lawVar_eq]
    simp only [condMean_eq_cE]
  have hle : ∀ h : List ℝ → ℝ, ContinuousOn (fun v : Fin d → ℝ => h (List.ofFn v)) (Icc l u) →
      0 ≤ lawVar (List.ofFn Es) (condMean (List.ofFn Es) keep h) ∧ lawVar (List.ofFn Es) (condMean (List.ofFn Es) keep h) ≤ lawVar (List.ofFn Es) h := by
    intro h hh
    have hc := f2 _ hh
    rw [e, lawVar_eq]
    constructor
    · have c1 : ContinuousOn (fun v : Fin d → ℝ => (cE Es keep (fun w => h (List.ofFn w)) v - mE Es (cE Es keep fun w => h (List.ofFn w))) ^ 2) (Icc l u) :=
        (hc.sub continuousOn_const).pow 2
      exact hm.nonneg _ c1 fun v _ => sq_nonneg _
    · rw [hm.var hc, hm.var hh, mE_cE P Es l u hin keep _ hh]
      have := cE_sq P Es l u hin keep _ hh
      linarith
  have hcf := f2 _ hf
  have hcg := f2 _ hG
  have s2 : mE Es (fun v => (cE Es keep (fun w => f (List.ofFn w)) v - cE Es keep (fun w => g (List.ofFn w)) v) ^ 2) ≤ η ^ 2 := by
    have hfg : ContinuousOn (fun v : Fin d → ℝ => f (List.ofFn v) - g (List.ofFn v)) (Icc l u) := hf.sub hG
    refine le_trans (le_of_eq ?_) ((cE_sq P Es l u hin keep _ hfg).trans herr)
    apply hm.congr
    intro v hv
    rw [(f1 v hv).sub hf hG]
  have s3 := hm.near_std hcf hcg hη s2
  rw [← e, ← e] at s3
  have key := share_near (Real.sqrt_nonneg _) (Real.sqrt_nonneg _) hs ht (Real.sqrt_le_sqrt (hle f hf).2) (Real.sqrt_le_sqrt (hle g hG).2) s3 hst
  rwa [Real.sq_sqrt (hle f hf).1, Real.sq_sqrt (hle g hG).1, Real.sq_sqrt hs'.le, Real.sq_sqrt ht'.le] at key

/-! ## Theorems -/

/-- **C214, every fit.** A polynomial with Beta-type inputs, however its coefficients were obtained, and a continuous model `f` of standard deviation `σ`. If the root mean square distance of polynomial and
model under the declared law is at most `η < σ`, then the Sobol' indices are reported, and for every set of inputs the sum of the reported indices of its subsets differs by at most `4 η / σ` from the share of
the variance of the model that these inputs explain; in particular the first-order indices; and the total indices differ by at most `4 η / σ` from those of the model. -/
theorem c214_any (hd : 2 ≤ d) (P : Fin d → MParam) (A B l u : Fin d → ℝ) (hI : ∀ i, BetaInput (P i) (A i) (B i) (l i) (u i))
    (els : List (List ℕ)) (hB : Regular ⟨List.ofFn P, els, none⟩) (hnd : els.Nodup) (hz : els.head? = some (List.replicate d 0)) (h2 : 2 ≤ els.length)
    (f : List ℝ → ℝ) (hf : ContinuousOn (fun v => f (List.ofFn v)) (Icc l u)) (c : List ℝ) (hcl : c.length = els.length) (g : List ℝ → ℝ)
    (hg : ∀ x : List ℝ, x.length = d → Expansion.polyfit ⟨List.ofFn P, els, none⟩ c [x] = .ok [g x]) (Es : List ((ℝ → ℝ) → ℝ))
    (hE : Es = List.ofFn fun i => betaE (A i) (B i) (l i) (u i)) (η : ℝ) (hη : 0 ≤ η) (herr : prodE Es (fun x => (f x - g x) ^ 2) ≤ η ^ 2) (hσ : η < √(lawVar Es f)) :
    ∃ (s : Sobol) (L : ℕ → List (List ℕ × ℝ)) (T : List ℝ), allSobol c els d none = .ok s ∧ (∀ o, getSobol s o = .ok (L o)) ∧ getSobolTotal s d = .ok T ∧ T.length = d ∧
      (∀ keep : ℕ → Bool, |∑ o ∈ Finset.Icc 1 d, (((L o).filter fun t => t.1.all keep).map Prod.snd).sum - lawVar Es (condMean Es keep f) / lawVar Es f| ≤ 4 * (η / √(lawVar Es f))) ∧
      ∀ i < d, (∃ x, ([i], x) ∈ L 1 ∧ |x - lawVar Es (condMean Es (fun k => k == i) f) / lawVar Es f| ≤ 4 * (η / √(lawVar Es f))) ∧
        |T.getD i 0 - (1 - lawVar Es (condMean Es (fun k => k != i) f) / lawVar Es f)| ≤ 4 * (η / √(lawVar Es f)) := by
  subst hE
  set Es : Fin d → (ℝ → ℝ) → ℝ := fun i => betaE (A i) (B i) (l i) (u i) with hEs
  have hin : ∀ i, Input (P i) (Es i) (l i) (u i) := fun i => beta_input (hI i).shapeA (hI i).shapeB (hI i).range (hI i).valid (hI i).recurrence
  have hlaw := law_ofFn (P := P) (Es := Es) fun i => (hin i).law
  have hdl : (Expansion.mk (List.ofFn P) els none).dims = d := by simp [Expansion.dims]
  have hG : ContinuousOn (fun v : Fin d → ℝ => g (List.ofFn v)) (Icc l u) := by
    have := (continuous_expansion P els (fun row h => (hB.rows row h).trans hdl) c hcl).continuousOn (s := Icc l u)
    refine this.congr fun w _ => ?_
    have h := hg (List.ofFn w) (by simp)
    rw [polyfit_eq _ hB c hcl [List.ofFn w] (by simp [hdl]), eff_none _ rfl] at h
    simpa using (Except.ok.inj h).symm
  rw [prodE_eq_mE] at herr
  obtain ⟨hvg, hclosed⟩ := closed_near P Es l u hin f g hf hG η hη herr hσ
  have hg' : ∀ x : List ℝ, x.length = (Expansion.mk (List.ofFn P) els none).dims → Expansion.polyfit ⟨List.ofFn P, els, none⟩ c [x] = .ok [g x] := by rwa [hdl]
  obtain ⟨s, hs, L, hL, hsum⟩ := c162_closed ⟨List.ofFn P, els, none⟩ hB rfl (by omega) (by rw [hdl]; exact hz) hnd (List.ofFn Es) hlaw c hcl (by omega) g hg' hvg
  obtain ⟨s', L', hs', hL', hfirst⟩ := c162_first ⟨List.ofFn P, els, none⟩ hB rfl (by omega) (by rw [hdl]; exact hz) hnd (List.ofFn Es) hlaw c hcl (by omega) g hg' hvg
  obtain ⟨s'', T, hs'', hT, hTl, htot⟩ := c162_total ⟨List.ofFn P, els, none⟩ hB rfl (by omega) (by rw [hdl]; exact hz) hnd (List.ofFn Es) hlaw c hcl (by omega) g hg' hvg
  rw [hs] at hs' hs''
  obtain rfl := Except.ok.inj hs'
  obtain rfl := Except.ok.inj hs''
  rw [hL 1] at hL'
  obtain rfl := Except.ok.inj hL'
  rw [hdl] at hs hsum hfirst hT hTl htot
  refine ⟨s, L, T, hs, hL, hT, hTl, fun keep => ?_, fun i hi => ⟨⟨_, hfirst i hi, hclosed _⟩, ?_⟩⟩
  · rw [hsum keep]
    exact hclosed keep
  · rw [(htot i hi).2]
    have := hclosed fun k => k != i
    rw [abs_sub_comm] at this
    convert this using 2
    ring

/-- **C214, tensor grids.** If some combination of the basis polynomials is within `ε` of the model on the ranges of the inputs, with `2 ε` below the standard deviation `σ` of the model, then the indices
reported after numerical integration on the tensor grid are within `8 ε / σ` of those of the model. -/
theorem c214_grid (hd : 2 ≤ d) (P : Fin d → MParam) (A B l u : Fin d → ℝ) (hI : ∀ i, BetaInput (P i) (A i) (B i) (l i) (u i)) (o : Fin d → ℕ) (ho : ∀ i, o i ≠ 0)
    (els : List (List ℕ)) (hB : Regular ⟨List.ofFn P, els, none⟩) (hnd : els.Nodup) (hz : els.head? = some (List.replicate d 0)) (h2 : 2 ≤ els.length)
    (hbox : ∀ row ∈ els, List.Forall₂ (· ≤ ·) row (List.ofFn o)) (f : List ℝ → ℝ) (hf : ContinuousOn (fun v => f (List.ofFn v)) (Icc l u)) (Es : List ((ℝ → ℝ) → ℝ))
    (hE : Es = List.ofFn fun i => betaE (A i) (B i) (l i) (u i)) (z : List ℝ) (p : List ℝ → ℝ) (hzl : z.length = els.length)
    (hp : ∀ x : List ℝ, x.length = d → Expansion.polyfit ⟨List.ofFn P, els, none⟩ z [x] = .ok [p x]) (ε : ℝ) (hε : ∀ w ∈ Icc l u, |f (List.ofFn w) - p (List.ofFn w)| ≤ ε)
    (hσ : 2 * ε < √(lawVar Es f)) :
    ∃ (pts : List (List ℝ)) (wts c : List ℝ) (s : Sobol) (L : ℕ → List (List ℕ × ℝ)) (T : List ℝ), tensorGrid (localRules (List.ofFn P) (List.ofFn o)) = .ok (pts, wts) ∧
      Expansion.integrate ⟨List.ofFn P, els, none⟩ pts wts (pts.map f) = .ok c ∧
      allSobol c els d none = .ok s ∧ (∀ o, getSobol s o = .ok (L o)) ∧ getSobolTotal s d = .ok T ∧ T.length = d ∧
      (∀ keep : ℕ → Bool, |∑ o ∈ Finset.Icc 1 d, (((L o).filter fun t => t.1.all keep).map Prod.snd).sum - lawVar Es (condMean Es keep f) / lawVar Es f| ≤ 8 * (ε / √(lawVar Es f))) ∧
      ∀ i < d, (∃ x, ([i], x) ∈ L 1 ∧ |x - lawVar Es (condMean Es (fun k => k == i) f) / lawVar Es f| ≤ 8 * (ε / √(lawVar Es f))) ∧
        |T.getD i 0 - (1 - lawVar Es (condMean Es (fun k => k != i) f) / lawVar Es f)| ≤ 8 * (ε / √(lawVar Es f)) := by
  obtain ⟨pts, wts, c, g, m, v, h1, hc, hg, -, -, hb⟩ := c196_fit (by omega) P A B l u hI o ho els hB hnd hz h2 hbox f hf
  have hr := (hb z p hzl hp ε hε).1
  have hε0 : 0 ≤ ε := (abs_nonneg _).trans (hε l ⟨le_rfl, fun i => (hI i).range.le⟩)
  have hcl : c.length = els.length := by
    have hdl : (Expansion.mk (List.ofFn P) els none).dims = d := by simp [Expansion.dims]
    have hne : List.ofFn P ≠ [] := by
      intro h; have := congrArg List.length h; simp at this; omega
    have hV : ∀ Q ∈ List.ofFn P, Valid Q := by
      intro Q hQ
      obtain ⟨i, rfl⟩ := List.mem_ofFn.1 hQ
      exact (hI i).valid
    obtain ⟨pts', wts', h1', -, -, -, -, -, hfit⟩ := grid_fit ⟨List.ofFn P, els, none⟩ hB rfl hne hV (List.ofFn o) (by simp [Expansion.dims]) hbox hnd
    rw [h1] at h1'
    obtain ⟨rfl, rfl⟩ := Prod.mk.inj (Except.ok.inj h1')
    obtain ⟨c', hc', hl, -⟩ := hfit (pts.map f) (by simp)
    rw [hc] at hc'
    rw [Except.ok.inj hc', hl]
  obtain ⟨s, L, T, a1, a2, a3, a4, a5, a6⟩ := c214_any hd P A B l u hI els hB hnd hz h2 f hf c hcl g hg Es hE (2 * ε) (by linarith) (hE ▸ hr) hσ
  have e : 4 * (2 * ε / √(lawVar Es f)) = 8 * (ε / √(lawVar Es f)) := by ring
  rw [e] at a5 a6
  exact ⟨pts, wts, c, s, L, T, h1, hc, a1, a2, a3, a4, a5, a6⟩

/-- Two uniform inputs on `[-1, 1]`, the basis of total order 1, and a model that adds `|x₁| / 100` to the polynomial with coefficients `0, 1, 1`: its standard deviation is more than 1, so that the total
indices reported are within 8/100 of those of the model. -/
example : ∃ (P : MParam) (p : List ℝ → ℝ) (pts : List (List ℝ)) (wts c : List ℝ) (s : Sobol) (T : List ℝ), BetaInput P 1 1 (-1) 1 ∧
    (∀ x : List ℝ, x.length = 2 → Expansion.polyfit ⟨[P, P], [[0, 0], [1, 0], [0, 1]], none⟩ [0, 1, 1] [x] = .ok [p x]) ∧ tensorGrid (localRules [P, P] [1, 1]) = .ok (pts, wts) ∧
    Expansion.integrate ⟨[P, P], [[0, 0], [1, 0], [0, 1]], none⟩ pts wts (pts.map fun x => p x + |x.getD 0 0| / 100) = .ok c ∧ allSobol c [[0, 0], [1, 0], [0, 1]] 2 none = .ok s ∧
    getSobolTotal s 2 = .ok T ∧ ∀ i < 2, |T.getD i 0 - (1 - lawVar [betaE 1 1 (-1) 1, betaE 1 1 (-1) 1] (condMean [betaE 1 1 (-1) 1, betaE 1 1 (-1) 1] (fun k => k != i)
      fun x => p x + |x.getD 0 0| / 100) / lawVar [betaE 1 1 (-1) 1, betaE 1 1 (-1) 1] fun x => p x + |x.getD 0 0| / 100)| ≤ 8/100 := by
  obtain ⟨P, hP⟩ := uniform_input
  have hl2 : ∀ {α : Type} (a : α), List.ofFn (fun _ : Fin 2 => a) = [a, a] := fun a => by simp
  set els : List (List ℕ) := [[0, 0], [1, 0], [0, 1]] with hels
  have hB : Regular ⟨List.ofFn fun _ : Fin 2 => P, els, none⟩ := ⟨by simp [els], by simp [els, Expansion.dims], fun h => absurd h (by simp [Expansion.dims]), by simp [SquareOpt]⟩
  have hdl : (Expansion.mk (List.ofFn fun _ : Fin 2 => P) els none).dims = 2 := by simp [Expansion.dims]
  set Es : Fin 2 → (ℝ → ℝ) → ℝ := fun _ => betaE 1 1 (-1) 1 with hEs
  have hin : ∀ i : Fin 2, Input P (Es i) (-1) 1 := fun i => beta_input hP.shapeA hP.shapeB hP.range hP.valid hP.recurrence
  have hlaw := law_ofFn (P := fun _ : Fin 2 => P) (Es := Es) fun i => (hin i).law
  have hm := mE_mean Es (fun _ => -1) (fun _ => 1) fun i => (hin i).mean
  set p := expansion (List.ofFn fun _ : Fin 2 => P) els [0, 1, 1] with hp
  have hpf : ∀ x : List ℝ, x.length = 2 → Expansion.polyfit ⟨List.ofFn fun _ : Fin 2 => P, els, none⟩ [0, 1, 1] [x] = .ok [p x] := by
    intro x hx
    rw [polyfit_eq _ hB [0, 1, 1] rfl [x] (by rw [hdl]; simpa using hx), eff_none _ rfl]
    rfl
  have hpc : ContinuousOn (fun v : Fin 2 → ℝ => p (List.ofFn v)) (Icc (fun _ => -1) fun _ => 1) :=
    (continuous_expansion (fun _ : Fin 2 => P) els (fun row h => (hB.rows row h).trans hdl) [0, 1, 1] rfl).continuousOn
  set f : List ℝ → ℝ := fun x => p x + |x.getD 0 0| / 100 with hf
  have hfe : ∀ w : Fin 2 → ℝ, f (List.ofFn w) = p (List.ofFn w) + |w 0| / 100 := fun w => by simp [hf]
  have hfc : ContinuousOn (fun v : Fin 2 → ℝ => f (List.ofFn v)) (Icc (fun _ => -1) fun _ => 1) := by
    have h1 : ContinuousOn (fun v : Fin 2 → ℝ => |v 0| / 100) (Icc (fun _ => -1) fun _ => 1) := (by fun_prop : Continuous fun v : Fin 2 → ℝ => |v 0| / 100).continuousOn
    exact (hpc.add h1).congr fun w _ => hfe w
  have hε : ∀ w ∈ Icc (fun _ : Fin 2 => (-1 : ℝ)) fun _ => 1, |f (List.ofFn w) - p (List.ofFn w)| ≤ 1/100 := by
    intro w hw
    have h3 : |w 0| ≤ 1 := abs_le.2 ⟨hw.1 0, hw.2 0⟩
    rw [hfe, add_sub_cancel_left, abs_of_nonneg (by positivity)]
    linarith
  have hvp : lawVar (List.ofFn Es) p = 2 := by
    have := (c32_mean_variance_partial ⟨List.ofFn fun _ : Fin 2 => P, els, none⟩ hB (.inr rfl) (by rw [hdl]; rfl) (show els.Nodup by decide) (List.ofFn Es) hlaw [0, 1, 1] rfl (by simp) p
      (by rw [hdl]; exact hpf)).2
    rw [variance_ok _ (by simp)] at this
    have := Except.ok.inj this
    unfold lawVar
    rw [← this]
    norm_num [varSum]
  have hσ : 1 ≤ √(lawVar (List.ofFn Es) f) := by
    have hcc : ContinuousOn (fun w : Fin 2 → ℝ => (f (List.ofFn w) - p (List.ofFn w)) ^ 2) (Icc (fun _ => -1) fun _ => 1) := (hfc.sub hpc).pow 2
    have hms := hm.mono (g := fun _ => (1/100) ^ 2) hcc continuousOn_const fun w hw => sq_le_sq' (by linarith [(abs_le.1 (hε w hw)).1]) (abs_le.1 (hε w hw)).2
    rw [hm.const] at hms
    have := hm.near_std hfc hpc (by norm_num) hms
    rw [← lawVar_eq, ← lawVar_eq, hvp] at this
    have h1 := (abs_le.1 this).1
    have h2 : (14/10 : ℝ) ≤ √2 := Real.le_sqrt_of_sq_le (by norm_num)
    linarith
  obtain ⟨pts, wts, c, s, L, T, h1, h2, h3, -, h5, -, -, h8⟩ := c214_grid (d := 2) le_rfl (fun _ => P) (fun _ => 1) (fun _ => 1) (fun _ => -1) (fun _ => 1) (fun _ => hP) (fun _ => 1)
    (fun _ => one_ne_zero) els hB (by decide) rfl (by simp [els]) (by simp [els]) f hfc (List.ofFn Es) rfl [0, 1, 1] p rfl hpf (1/100) hε (by linarith)
  refine ⟨P, p, pts, wts, c, s, T, hP, by rw [hl2] at hpf; exact hpf, by simpa using h1, by rw [hl2] at h2; exact h2, h3, h5, fun i hi => ?_⟩
  have h9 := (h8 i hi).2
  rw [hEs, hl2] at h9
  refine h9.trans ?_
  rw [hEs, hl2] at hσ
  have : 1/100 / √(lawVar [betaE 1 1 (-1) 1, betaE 1 1 (-1) 1] f) ≤ 1/100 := div_le_self (by norm_num) hσ
  linarith

end EQ.Stats
