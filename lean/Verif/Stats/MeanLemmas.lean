import Verif.Stats.RelabelProps
import Mathlib.Topology.ContinuousMap.StoneWeierstrass
import Mathlib.Topology.UniformSpace.HeineCantor

/-!
# Means of continuous functions on boxes

Lemmas for C178 and C179.
-/

namespace EQ.Stats
open EQ.Param EQ.Sampling EQ.Sampling.Spec EQ.Poly EQ.Poly.Spec EQ.Stats.Spec Set

/-- A mean of continuous functions on `K`: linear, positive, normalised, and it looks at `K` only. -/
structure MeanOn {T : Type} [TopologicalSpace T] (Φ : (T → ℝ) → ℝ) (K : Set T) : Prop where
  congr : ∀ f g, (∀ x ∈ K, f x = g x) → Φ f = Φ g
  add : ∀ f g, ContinuousOn f K → ContinuousOn g K → Φ (fun x => f x + g x) = Φ f + Φ g
  smul : ∀ (a : ℝ) f, ContinuousOn f K → Φ (fun x => a * f x) = a * Φ f
  nonneg : ∀ f, ContinuousOn f K → (∀ x ∈ K, 0 ≤ f x) → 0 ≤ Φ f
  one : Φ (fun _ => 1) = 1

section
variable {T S : Type} [TopologicalSpace T] [TopologicalSpace S] {Φ : (T → ℝ) → ℝ} {K : Set T}

theorem MeanOn.const (h : MeanOn Φ K) (a : ℝ) : Φ (fun _ => a) = a := by
  have := h.smul a (fun _ => 1) continuousOn_const
  rw [h.one] at this
  simpa using this

theorem MeanOn.sub (h : MeanOn Φ K) {f g : T → ℝ} (hf : ContinuousOn f K) (hg : ContinuousOn g K) : Φ (fun x => f x - g x) = Φ f - Φ g := by
  have h1 := h.add f (fun x => (-1) * g x) hf (continuousOn_const.mul hg)
  rw [h.smul _ _ hg] at h1
  rw [← h.congr (fun x => f x + (-1) * g x) (fun x => f x - g x) (fun x _ => by ring), h1]
  ring

theorem MeanOn.mono (h : MeanOn Φ K) {f g : T → ℝ} (hf : ContinuousOn f K) (hg : ContinuousOn g K) (hfg : ∀ x ∈ K, f x ≤ g x) : Φ f ≤ Φ g := by
  have := h.nonneg (fun x => g x - f x) (hg.sub hf) fun x hx => sub_nonneg.2 (hfg x hx)
  rw [h.sub hg hf] at this
  linarith

theorem MeanOn.abs_le (h : MeanOn Φ K) {f : T → ℝ} (hf : ContinuousOn f K) {M : ℝ} (hM : ∀ x ∈ K, |f x| ≤ M) : |Φ f| ≤ M := by
  rw [_root_.abs_le]
  constructor
  · have := h.mono (f := fun _ => -M) continuousOn_const hf fun x hx => (_root_.abs_le.1 (hM x hx)).1
    rwa [h.const] at this
  · have := h.mono (g := fun _ => M) hf continuousOn_const fun x hx => (_root_.abs_le.1 (hM x hx)).2
    rwa [h.const] at this

/-- The mean squared distance from a constant. -/
theorem MeanOn.sq_sub (h : MeanOn Φ K) {f : T → ℝ} (hf : ContinuousOn f K) (a : ℝ) :
    Φ (fun x => (f x - a) ^ 2) = Φ (fun x => f x ^ 2) - 2 * a * Φ f + a ^ 2 := by
  have h2 : ContinuousOn (fun x => f x ^ 2) K := hf.pow 2
  have h1 : ContinuousOn (fun x => (-2 * a) * f x) K := continuousOn_const.mul hf
  have h3 : ContinuousOn (fun x => f x ^ 2 + (-2 * a) * f x) K := h2.add h1
  rw [h.congr _ (fun x => (f x ^ 2 + (-2 * a) * f x) + a ^ 2) (fun x _ => by ring), h.add _ _ h3 continuousOn_const,
    h.add _ _ h2 h1, h.smul _ _ hf, h.const]
  ring

theorem MeanOn.sq_le (h : MeanOn Φ K) {f : T → ℝ} (hf : ContinuousOn f K) : Φ f ^ 2 ≤ Φ fun x => f x ^ 2 := by
  have := h.nonneg (fun x => (f x - Φ f) ^ 2) ((hf.sub continuousOn_const).pow 2) fun x _ => sq_nonneg _
  rw [h.sq_sub hf] at this
  nlinarith

theorem MeanOn.var (h : MeanOn Φ K) {f : T → ℝ} (hf : ContinuousOn f K) : Φ (fun x => (f x - Φ f) ^ 2) = Φ (fun x => f x ^ 2) - Φ f ^ 2 := by
  rw [h.sq_sub hf]; ring

/-- Cauchy and Schwarz. -/
theorem MeanOn.mul_sq_le (h : MeanOn Φ K) {f g : T → ℝ} (hf : ContinuousOn f K) (hg : ContinuousOn g K) :
    Φ (fun x => f x * g x) ^ 2 ≤ Φ (fun x => f x ^ 2) * Φ (fun x => g x ^ 2) := by
  have key : ∀ t : ℝ, 0 ≤ Φ (fun x => f x ^ 2) * (t * t) + (2 * Φ (fun x => f x * g x)) * t + Φ (fun x => g x ^ 2) := by
    intro t
    have := h.nonneg (fun x => (t * f x + g x) ^ 2) (((continuousOn_const.mul hf).add hg).pow 2) fun x _ => sq_nonneg _
    have a1 : ContinuousOn (fun x => (t * t) * f x ^ 2) K := continuousOn_const.mul (hf.pow 2)
    have a2 : ContinuousOn (fun x => (2 * t) * (f x * g x)) K := continuousOn_const.mul (hf.mul hg)
    have a3 : ContinuousOn (fun x => (t * t) * f x ^ 2 + (2 * t) * (f x * g x)) K := a1.add a2
    have a4 : ContinuousOn (fun x => g x ^ 2) K := hg.pow 2
    rw [h.congr _ (fun x => ((t * t) * f x ^ 2 + (2 * t) * (f x * g x)) + g x ^ 2) (fun x _ => by ring), h.add _ _ a3 a4,
      h.add _ _ a1 a2, h.smul _ (fun x => f x ^ 2) (hf.pow 2), h.smul _ (fun x => f x * g x) (hf.mul hg)] at this
    linarith
  have := discrim_le_zero key
  unfold discrim at this
  nlinarith

theorem MeanOn.comp (h : MeanOn Φ K) {L : Set S} {φ : T → S} (hφ : ContinuousOn φ K) (hm : MapsTo φ K L) : MeanOn (fun f => Φ fun x => f (φ x)) L :=
  ⟨fun _ _ hfg => h.congr _ _ fun _ hx => hfg _ (hm hx), fun _ _ hf hg => h.add _ _ (hf.comp hφ hm) (hg.comp hφ hm),
    fun a _ hf => h.smul a _ (hf.comp hφ hm), fun _ hf h0 => h.nonneg _ (hf.comp hφ hm) fun _ hx => h0 _ (hm hx), h.one⟩
end

section
variable {T S : Type} [PseudoMetricSpace T] [PseudoMetricSpace S] {Φ : (T → ℝ) → ℝ} {K : Set T} {L : Set S}

/-- Means of a continuous function of two variables depend continuously on the other variable. -/
theorem MeanOn.continuousOn (h : MeanOn Φ K) (hK : IsCompact K) (hL : IsCompact L) {G : T × S → ℝ} (hG : ContinuousOn G (K ×ˢ L)) :
    ContinuousOn (fun t => Φ fun x => G (x, t)) L := by
  have hu := (hK.prod hL).uniformContinuousOn_of_continuous hG
  rw [Metric.uniformContinuousOn_iff_le] at hu
  rw [Metric.continuousOn_iff]
  intro t0 ht0 ε hε
  obtain ⟨δ, hδ, hd⟩ := hu (ε / 2) (by positivity)
  refine ⟨δ, hδ, fun t ht hdt => ?_⟩
  have hc : ∀ s ∈ L, ContinuousOn (fun x => G (x, s)) K := fun s hs =>
    hG.comp (Continuous.continuousOn (by fun_prop)) fun x hx => ⟨hx, hs⟩
  rw [Real.dist_eq, ← h.sub (hc t ht) (hc t0 ht0)]
  refine lt_of_le_of_lt (h.abs_le ((hc t ht).sub (hc t0 ht0)) (M := ε / 2) fun x hx => ?_) (by linarith)
  have := hd (x, t) ⟨hx, ht⟩ (x, t0) ⟨hx, ht0⟩ (by rw [Prod.dist_eq]; simp [hdt.le])
  rwa [Real.dist_eq] at this

theorem MeanOn.prod {Ψ : (S → ℝ) → ℝ} (h : MeanOn Φ K) (h' : MeanOn Ψ L) (hK : IsCompact K) (hL : IsCompact L) :
    MeanOn (fun f : T × S → ℝ => Φ fun x => Ψ fun t => f (x, t)) (K ×ˢ L) := by
  have hc : ∀ f : T × S → ℝ, ContinuousOn f (K ×ˢ L) → ∀ x ∈ K, ContinuousOn (fun t => f (x, t)) L := fun f hf x hx =>
    hf.comp (Continuous.continuousOn (by fun_prop)) fun t ht => ⟨hx, ht⟩
  have hi : ∀ f : T × S → ℝ, ContinuousOn f (K ×ˢ L) → ContinuousOn (fun x => Ψ fun t => f (x, t)) K := fun f hf =>
    h'.continuousOn hL hK (G := fun p => f (p.2, p.1)) (hf.comp continuous_swap.continuousOn fun p hp => ⟨hp.2, hp.1⟩)
  refine ⟨fun f g hfg => h.congr _ _ fun x hx => h'.congr _ _ fun t ht => hfg _ ⟨hx, ht⟩, fun f g hf hg => ?_, fun a f hf => ?_, fun f hf h0 => ?_, ?_⟩
  · rw [← h.add _ _ (hi f hf) (hi g hg)]
    exact h.congr _ _ fun x hx => h'.add _ _ (hc f hf x hx) (hc g hg x hx)
  · rw [← h.smul _ _ (hi f hf)]
    exact h.congr _ _ fun x hx => h'.smul _ _ (hc f hf x hx)
  · exact h.nonneg _ (hi f hf) fun x hx => h'.nonneg _ (hc f hf x hx) fun t ht => h0 _ ⟨hx, ht⟩
  · rw [h.congr _ (fun _ => 1) fun x _ => h'.one, h.one]
end

/-! ## Boxes -/

/-- All entries but the first. -/
abbrev tl {α : Type} {d : ℕ} (v : Fin (d + 1) → α) : Fin d → α := fun i => v i.succ

/-- A point from its first coordinate and the others. -/
def consV {d : ℕ} (x : ℝ) (v : Fin d → ℝ) : Fin (d + 1) → ℝ := Fin.cons x v

theorem continuous_consV {d : ℕ} : Continuous fun p : ℝ × (Fin d → ℝ) => consV p.1 p.2 := by
  unfold consV
  exact Continuous.finCons continuous_fst continuous_snd

theorem consV_mem {d : ℕ} {l u : Fin (d + 1) → ℝ} {x : ℝ} {v : Fin d → ℝ} (hx : x ∈ Icc (l 0) (u 0)) (hv : v ∈ Icc (tl l) (tl u)) :
    consV x v ∈ Icc l u := by
  constructor
  · intro i
    refine Fin.cases ?_ (fun i => ?_) i
    · exact hx.1
    · exact hv.1 i
  · intro i
    refine Fin.cases ?_ (fun i => ?_) i
    · exact hx.2
    · exact hv.2 i

theorem head_mem {d : ℕ} {l u x : Fin (d + 1) → ℝ} (hx : x ∈ Icc l u) : x 0 ∈ Icc (l 0) (u 0) := ⟨hx.1 0, hx.2 0⟩

theorem tail_mem {d : ℕ} {l u x : Fin (d + 1) → ℝ} (hx : x ∈ Icc l u) : tl x ∈ Icc (tl l) (tl u) :=
  ⟨fun i => hx.1 i.succ, fun i => hx.2 i.succ⟩

theorem consV_self {d : ℕ} (x : Fin (d + 1) → ℝ) : consV (x 0) (tl x) = x := by
  funext i
  refine Fin.cases ?_ (fun i => ?_) i <;> rfl

theorem ofFn_consV {d : ℕ} (x : ℝ) (v : Fin d → ℝ) : List.ofFn (consV x v) = x :: List.ofFn v := by
  rw [List.ofFn_succ]; rfl

variable {d : ℕ}

/-- A list as a vector. -/
def vec (d : ℕ) (x : List ℝ) : Fin d → ℝ := fun i => x.getD i 0

theorem vec_ofFn (v : Fin d → ℝ) : vec d (List.ofFn v) = v := by
  funext i
  simp [vec]

theorem ofFn_vec (x : List ℝ) (hx : x.length = d) : List.ofFn (vec d x) = x := by
  subst hx
  apply List.ext_getElem (by simp)
  intro i h1 h2
  rw [List.getElem_ofFn]
  exact getD_of_lt x 0 i h2

theorem vec_cons (x : ℝ) (ys : List ℝ) : vec (d + 1) (x :: ys) = consV x (vec d ys) := by
  funext i
  refine Fin.cases ?_ (fun i => ?_) i
  · rfl
  · simp [vec, consV]

/-- The mean of a function of independent inputs. -/
def mE (Es : Fin d → (ℝ → ℝ) → ℝ) (F : (Fin d → ℝ) → ℝ) : ℝ := prodE (List.ofFn Es) fun x => F (vec d x)

theorem mE_succ (Es : Fin (d + 1) → (ℝ → ℝ) → ℝ) (F : (Fin (d + 1) → ℝ) → ℝ) :
    mE Es F = Es 0 fun x => mE (tl Es) fun v => F (consV x v) := by
  unfold mE
  rw [List.ofFn_succ, prodE]
  simp only [vec_cons]

theorem prodE_eq_mE (Es : Fin d → (ℝ → ℝ) → ℝ) (f : List ℝ → ℝ) : prodE (List.ofFn Es) f = mE Es fun v => f (List.ofFn v) := by
  unfold mE
  apply prodE_congr
  intro x hx
  show f x = f (List.ofFn (vec d x))
  rw [ofFn_vec x (by simpa using hx)]

theorem mE_mean (Es : Fin d → (ℝ → ℝ) → ℝ) (l u : Fin d → ℝ) (h : ∀ i, MeanOn (Es i) (Icc (l i) (u i))) : MeanOn (mE Es) (Icc l u) := by
  induction d with
  | zero =>
    have e : ∀ F : (Fin 0 → ℝ) → ℝ, mE Es F = F fun i => i.elim0 := by
      intro F
      unfold mE
      simp only [List.ofFn_zero, prodE]
      congr 1
      funext i
      exact i.elim0
    have hm : (fun i : Fin 0 => (i.elim0 : ℝ)) ∈ Icc l u := ⟨fun i => i.elim0, fun i => i.elim0⟩
    refine ⟨fun f g hfg => ?_, fun f g _ _ => ?_, fun a f _ => ?_, fun f _ h0 => ?_, ?_⟩
    · rw [e, e]; exact hfg _ hm
    · rw [e, e, e]
    · rw [e, e]
    · rw [e]; exact h0 _ hm
    · rw [e]
  | succ d ih =>
    have h1 := (h 0).prod (ih (tl Es) (tl l) (tl u) fun i => h i.succ) isCompact_Icc isCompact_Icc
    have h2 := h1.comp (L := Icc l u) continuous_consV.continuousOn fun p hp => consV_mem hp.1 hp.2
    have e : mE Es = fun F => Es 0 fun x => mE (tl Es) fun v => F (consV x v) := by
      funext F
      exact mE_succ Es F
    rw [e]
    exact h2

/-! ## Conditional means -/

/-- The conditional mean given the inputs with `keep`. -/
def cE (Es : Fin d → (ℝ → ℝ) → ℝ) (keep : ℕ → Bool) (F : (Fin d → ℝ) → ℝ) (x : Fin d → ℝ) : ℝ :=
  condMean (List.ofFn Es) keep (fun y => F (vec d y)) (List.ofFn x)

theorem cE_succ (Es : Fin (d + 1) → (ℝ → ℝ) → ℝ) (keep : ℕ → Bool) (F : (Fin (d + 1) → ℝ) → ℝ) (x : Fin (d + 1) → ℝ) :
    cE Es keep F x = if keep 0 then cE (tl Es) (fun k => keep (k + 1)) (fun v => F (consV (x 0) v)) (tl x)
      else Es 0 fun y => cE (tl Es) (fun k => keep (k + 1)) (fun v => F (consV y v)) (tl x) := by
  unfold cE
  rw [List.ofFn_succ, condMean, List.ofFn_succ]
  simp only [vec_cons, List.headD_cons, List.tail_cons]

theorem condMean_eq_cE (Es : Fin d → (ℝ → ℝ) → ℝ) (keep : ℕ → Bool) (f : List ℝ → ℝ) (x : Fin d → ℝ) :
    condMean (List.ofFn Es) keep f (List.ofFn x) = cE Es keep (fun v => f (List.ofFn v)) x := by
  unfold cE
  apply condMean_congr
  intro y hy
  show f y = f (List.ofFn (vec d y))
  rw [ofFn_vec y (by simpa using hy)]

theorem cE_facts (Es : Fin d → (ℝ → ℝ) → ℝ) (l u : Fin d → ℝ) (h : ∀ i, MeanOn (Es i) (Icc (l i) (u i))) (keep : ℕ → Bool) :
    (∀ x ∈ Icc l u, MeanOn (fun F => cE Es keep F x) (Icc l u)) ∧ ∀ F, ContinuousOn F (Icc l u) → ContinuousOn (cE Es keep F) (Icc l u) := by
  induction d generalizing keep with
  | zero =>
    have e : ∀ F x, cE Es keep F x = F x := by
      intro F x
      unfold cE
      rw [List.ofFn_zero, condMean]
      congr 1
      funext i
      exact i.elim0
    constructor
    · intro x hx
      simp only [e]
      exact ⟨fun f g hfg => hfg x hx, fun f g _ _ => rfl, fun a f _ => rfl, fun f _ h0 => h0 x hx, rfl⟩
    · intro F hF
      have : cE Es keep F = F := by funext x; exact e F x
      rwa [this]
  | succ d ih =>
    obtain ⟨i1, i2⟩ := ih (tl Es) (tl l) (tl u) (fun i => h i.succ) fun k => keep (k + 1)
    have hfun : ∀ F, cE Es keep F = fun x => if keep 0 then cE (tl Es) (fun k => keep (k + 1)) (fun v => F (consV (x 0) v)) (tl x)
        else Es 0 fun y => cE (tl Es) (fun k => keep (k + 1)) (fun v => F (consV y v)) (tl x) := by
      intro F
      funext x
      exact cE_succ Es keep F x
    have htail : Continuous fun (x : Fin (d + 1) → ℝ) (i : Fin d) => x i.succ := by fun_prop
    constructor
    · intro x hx
      simp only [hfun]
      cases hk : keep 0 with
      | true =>
        simp only [if_true]
        exact (i1 _ (tail_mem hx)).comp (φ := fun v => consV (x 0) v) (continuous_consV.comp (by fun_prop : Continuous fun v : Fin d → ℝ => (x 0, v))).continuousOn
          fun v hv => consV_mem (head_mem hx) hv
      | false =>
        simp only [Bool.false_eq_true, if_false]
        exact ((h 0).prod (i1 _ (tail_mem hx)) isCompact_Icc isCompact_Icc).comp (L := Icc l u) continuous_consV.continuousOn fun p hp => consV_mem hp.1 hp.2
    · intro F hF
      have hG : ContinuousOn (fun p : ℝ × (Fin d → ℝ) => F (consV p.1 p.2)) (Icc (l 0) (u 0) ×ˢ Icc (tl l) (tl u)) :=
        hF.comp continuous_consV.continuousOn fun p hp => consV_mem hp.1 hp.2
      have hsec : ∀ y ∈ Icc (l 0) (u 0), ContinuousOn (fun v : Fin d → ℝ => F (consV y v)) (Icc (tl l) (tl u)) := fun y hy =>
        hG.comp (by fun_prop : Continuous fun v : Fin d → ℝ => (y, v)).continuousOn fun v hv => ⟨hy, hv⟩
      have hH : ContinuousOn (fun p : ℝ × (Fin d → ℝ) => cE (tl Es) (fun k => keep (k + 1)) (fun v => F (consV p.1 v)) p.2)
          (Icc (l 0) (u 0) ×ˢ Icc (tl l) (tl u)) := by
        have hu := (isCompact_Icc.prod isCompact_Icc).uniformContinuousOn_of_continuous hG
        rw [Metric.uniformContinuousOn_iff_le] at hu
        rw [Metric.continuousOn_iff]
        rintro ⟨y0, v0⟩ ⟨hy0, hv0⟩ ε hε
        obtain ⟨δ, hδ, hd⟩ := hu (ε / 4) (by positivity)
        obtain ⟨δ', hδ', hd'⟩ := Metric.continuousOn_iff.1 (i2 _ (hsec y0 hy0)) v0 hv0 (ε / 2) (by positivity)
        refine ⟨min δ δ', lt_min hδ hδ', ?_⟩
        rintro ⟨y, v⟩ ⟨hy, hv⟩ hdist
        have dy : dist y y0 < min δ δ' := lt_of_le_of_lt (le_max_left _ _) hdist
        have dv : dist v v0 < min δ δ' := lt_of_le_of_lt (le_max_right _ _) hdist
        have k1 := hd' v hv (lt_of_lt_of_le dv (min_le_right _ _))
        have k2 : dist (cE (tl Es) (fun k => keep (k + 1)) (fun w => F (consV y w)) v)
            (cE (tl Es) (fun k => keep (k + 1)) (fun w => F (consV y0 w)) v) ≤ ε / 4 := by
          rw [Real.dist_eq, ← (i1 v hv).sub (hsec y hy) (hsec y0 hy0)]
          refine (i1 v hv).abs_le ((hsec y hy).sub (hsec y0 hy0)) fun w hw => ?_
          have := hd (y, w) ⟨hy, hw⟩ (y0, w) ⟨hy0, hw⟩ (by
            rw [Prod.dist_eq]; simp only [dist_self]
            exact max_le (dy.le.trans (min_le_left _ _)) hδ.le)
          rwa [Real.dist_eq] at this
        refine lt_of_le_of_lt (dist_triangle _ _ _) (lt_of_le_of_lt (add_le_add k2 k1.le) (by linarith))
      rw [hfun]
      cases hk : keep 0 with
      | true =>
        simp only [if_true]
        exact hH.comp (by fun_prop : Continuous fun x : Fin (d + 1) → ℝ => (x 0, tl x)).continuousOn
          fun x hx => ⟨head_mem hx, tail_mem hx⟩
      | false =>
        simp only [Bool.false_eq_true, if_false]
        exact ((h 0).continuousOn isCompact_Icc isCompact_Icc hH).comp htail.continuousOn fun x hx => tail_mem hx

end EQ.Stats
