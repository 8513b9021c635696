import Verif.Dist.GridProps

/-!
# Which parameters can be built (C110, C111)
-/

namespace EQ.Dist
open EQ.DistSpec EQ.DistLemmas EQ.Basis

/-- scipy reports some value for every law. -/
def StatsSet (w : World) : Prop := ∀ L, (w.stats L).mean ≠ .unset ∧ (w.stats L).variance ≠ .unset

example : StatsSet ⟨fun _ => ⟨.nan, .nan, .nan, .nan⟩, (0, 0)⟩ := fun _ => ⟨by simp, by simp⟩

/-- A parameter without end points is built whenever its distribution sets a mean, a variance and bounds. -/
theorem mkParameter_none {w : World} {name : Name} {args : Args} {d : Attrs} (h : construct w name args = .ok d)
    (hm : d.mean ≠ .unset) (hv : d.variance ≠ .unset) (hb : d.bounds ≠ none) : mkParameter w name args none = .ok d := by
  unfold mkParameter
  rw [h]
  obtain ⟨L, m, v, s, k, b, r⟩ := d
  cases m <;> simp only [ne_eq, not_true_eq_false] at hm <;> cases v <;> simp only [ne_eq, not_true_eq_false] at hv <;>
    cases b <;> simp only [ne_eq, not_true_eq_false] at hb <;> rfl

/-- A parameter that is built has a mean, a variance and bounds. -/
theorem mkParameter_set {w : World} {name : Name} {args : Args} {e : Option Endpoints} {d : Attrs}
    (h : mkParameter w name args e = .ok d) : d.mean ≠ .unset ∧ d.variance ≠ .unset ∧ d.bounds ≠ none := by
  have hc := mkParameter_ok h
  unfold mkParameter at h
  rw [hc] at h
  obtain ⟨L, m, v, s, k, b, r⟩ := d
  cases m <;> cases v <;> cases b <;> simp at h ⊢

/-- The distributions that test all their shape parameters. -/
def Tested : Name → Prop
  | .beta | .exponential | .weibull | .arcsine | .rayleigh | .chiSquared | .chi | .pareto | .gumbel | .logistic | .studentsT
  | .lognormal => True
  | _ => False

/-- **C110, distributions that test their shape parameters.** A beta, exponential, Weibull, arcsine, Rayleigh, chi-squared, chi,
Pareto, Gumbel, logistic, Student or lognormal parameter can be built if and only if its shape parameters are given and
admissible. Missing: the Gaussian, uniform, gamma, Cauchy and truncated Gaussian distributions, see
`c110_accepted_violated`. -/
theorem c110_tested_partial (w : World) (hw : StatsSet w) (name : Name) (args : Args) (hn : Tested name) :
    (∃ d, mkParameter w name args none = .ok d) ↔ Valid name args := by
  obtain ⟨A, B, lo, up⟩ := args
  constructor
  · rintro ⟨d, h⟩
    obtain ⟨s1, s2, s3⟩ := mkParameter_set h
    have h := mkParameter_ok h
    cases name <;> simp only [Tested] at hn <;> simp only [construct] at h
    · rw [← Except.ok.inj h] at s1
      cases A with
      | none => exact absurd rfl s1
      | some a =>
        cases B with
        | none => exact absurd rfl s1
        | some b =>
          by_cases hc : 1 ≤ a ∧ 1 ≤ b
          · exact ⟨a, b, rfl, rfl, hc.1, hc.2⟩
          · simp [beta, if_neg hc] at s1
    · rw [← Except.ok.inj h] at s1
      cases A with
      | none => exact absurd rfl s1
      | some a =>
        by_cases hc : 0 < a
        · exact ⟨a, rfl, hc⟩
        · simp [exponential, if_neg hc] at s1
    · rw [← Except.ok.inj h] at s1
      cases A with
      | none => exact absurd rfl s1
      | some a =>
        cases B with
        | none => exact absurd rfl s1
        | some b =>
          by_cases hc : 0 < b ∧ 0 < a
          · exact ⟨a, b, rfl, rfl, hc.2, hc.1⟩
          · simp [weibull, if_neg hc] at s1
    · trivial
    · rw [← Except.ok.inj h] at s1
      cases A with
      | none => exact absurd rfl s1
      | some a =>
        by_cases hc : 0 < a
        · exact ⟨a, rfl, hc⟩
        · simp [rayleigh, if_neg hc] at s1
    · rw [← Except.ok.inj h] at s1
      cases A with
      | none => exact absurd rfl s1
      | some a =>
        by_cases hc : 1 ≤ a
        · exact ⟨a, rfl, hc⟩
        · simp [chisquared, if_neg hc] at s1
    · rw [← Except.ok.inj h] at s1
      cases A with
      | none => exact absurd rfl s1
      | some a =>
        by_cases hc : 1 ≤ a
        · exact ⟨a, rfl, hc⟩
        · simp [chi, if_neg hc] at s1
    · rw [← Except.ok.inj h] at s1
      cases A with
      | none => exact absurd rfl s1
      | some a =>
        by_cases hc : 0 < a
        · exact ⟨a, rfl, hc⟩
        · simp [pareto, if_neg hc] at s1
    · cases B with
      | none =>
        cases A <;> simp only [gumbel, Except.ok.injEq] at h <;> rw [← h] at s1 <;> exact absurd rfl s1
      | some b =>
        by_cases hc : 0 < b
        · cases A with
          | none => simp [gumbel, if_pos hc] at h
          | some a => exact ⟨a, b, rfl, rfl, hc⟩
        · cases A <;> simp only [gumbel, if_neg hc, Except.ok.injEq] at h <;> rw [← h] at s1 <;> exact absurd rfl s1
    · cases B with
      | none =>
        cases A <;> simp only [logistic, Except.ok.injEq] at h <;> rw [← h] at s1 <;> exact absurd rfl s1
      | some b =>
        by_cases hc : 0 < b
        · cases A with
          | none => simp [logistic, if_pos hc] at h
          | some a => exact ⟨a, b, rfl, rfl, hc⟩
        · cases A <;> simp only [logistic, if_neg hc, Except.ok.injEq] at h <;> rw [← h] at s1 <;> exact absurd rfl s1
    · rw [← Except.ok.inj h] at s1
      cases A with
      | none => exact absurd rfl s1
      | some a =>
        by_cases hc : 0 < a
        · exact ⟨a, rfl, hc⟩
        · simp [studentst, if_neg hc] at s1
    · rw [← Except.ok.inj h] at s1
      cases A with
      | none => exact absurd rfl s1
      | some a =>
        by_cases hc : 0 < a
        · exact ⟨a, rfl, hc⟩
        · simp [lognormal, if_neg hc] at s1
  · intro hv
    cases name <;> simp only [Tested] at hn <;> simp only [Valid] at hv
    · obtain ⟨a, b, rfl, rfl, ha, hb⟩ := hv
      exact ⟨_, mkParameter_none rfl (by simp [beta, ha, hb]) (by simp [beta, ha, hb]) (by simp [beta, ha, hb])⟩
    · obtain ⟨r, rfl, hr⟩ := hv
      exact ⟨_, mkParameter_none rfl (by simp only [exponential, if_pos hr]; exact (hw _).1)
        (by simp only [exponential, if_pos hr]; exact (hw _).2) (by simp [exponential, hr])⟩
    · obtain ⟨s, c, rfl, rfl, hs, hc⟩ := hv
      exact ⟨_, mkParameter_none rfl (by simp [weibull, hs, hc]) (by simp [weibull, hs, hc]) (by simp [weibull, hs, hc])⟩
    · exact ⟨_, mkParameter_none rfl (by simp [chebyshev]) (by simp [chebyshev]) (by simp [chebyshev])⟩
    · obtain ⟨s, rfl, hs⟩ := hv
      exact ⟨_, mkParameter_none rfl (by simp [rayleigh, hs]) (by simp [rayleigh, hs]) (by simp [rayleigh, hs])⟩
    · obtain ⟨k, rfl, hk⟩ := hv
      exact ⟨_, mkParameter_none rfl (by simp [chisquared, hk]) (by simp [chisquared, hk]) (by simp [chisquared, hk])⟩
    · obtain ⟨k, rfl, hk⟩ := hv
      exact ⟨_, mkParameter_none rfl (by simp only [chi, if_pos hk]; exact (hw _).1)
        (by simp only [chi, if_pos hk]; exact (hw _).2) (by simp [chi, hk])⟩
    · obtain ⟨k, rfl, hk⟩ := hv
      exact ⟨_, mkParameter_none rfl (by simp only [pareto, if_pos hk]; exact (hw _).1)
        (by simp only [pareto, if_pos hk]; exact (hw _).2) (by simp [pareto, hk, fromStats])⟩
    · obtain ⟨m, s, rfl, rfl, hs⟩ := hv
      exact ⟨fromStats w.stats (.gumbelR m s) (⊥, ⊤) (m - 10, 20 + m, 50000),
        mkParameter_none (by simp [construct, gumbel, hs]) (hw _).1 (hw _).2 (by simp [fromStats])⟩
    · obtain ⟨m, s, rfl, rfl, hs⟩ := hv
      exact ⟨fromStats w.stats (.logistic m s) (⊥, ⊤) (m - 10, 20 + m, 50000),
        mkParameter_none (by simp [construct, logistic, hs]) (hw _).1 (hw _).2 (by simp [fromStats])⟩
    · obtain ⟨k, rfl, hk⟩ := hv
      exact ⟨_, mkParameter_none rfl (by simp only [studentst, if_pos hk]; exact (hw _).1)
        (by simp only [studentst, if_pos hk]; exact (hw _).2) (by simp [studentst, hk, fromStats])⟩
    · obtain ⟨k, rfl, hk⟩ := hv
      exact ⟨_, mkParameter_none rfl (by simp only [lognormal, if_pos hk]; exact (hw _).1)
        (by simp only [lognormal, if_pos hk]; exact (hw _).2) (by simp [lognormal, hk, fromStats])⟩

example : ¬ Valid .beta ⟨some (1/2), some 3, some 0, some 1⟩ := by
  rintro ⟨a, b, ha, -, h1, -⟩
  have := Option.some.inj ha
  linarith

/-- **C110 fails.** A Gaussian parameter with negative variance, or without one, is built. A gamma parameter with negative scale
is built; its mean is negative though its bounds say the parameter is not. A uniform parameter with its bounds in the wrong order is
built. A uniform parameter with a single bound is built on `[0, 1]`, ignoring the bound given. A beta parameter with a shape
parameter between 0 and 1, which the documentation allows, is refused with an `AttributeError`. -/
theorem c110_accepted_violated (w : World) :
    (∃ d, mkParameter w .gaussian ⟨some 0, some (-1), none, none⟩ none = .ok d ∧ d.variance = .num (-1)) ∧
    (∃ d, mkParameter w .gaussian ⟨some 0, none, none, none⟩ none = .ok d ∧ d.variance = .none ∧ d.law = none) ∧
    (∀ a s, 0 < a → s < 0 → ∃ d x, mkParameter w .gamma ⟨some a, some s, none, none⟩ none = .ok d ∧ d.mean = .num x ∧ x < 0 ∧
      d.bounds = some (((0 : ℝ) : EReal), ⊤)) ∧
    (∀ l u : ℝ, u < l → ∃ d, mkParameter w .uniform ⟨none, none, some l, some u⟩ none = .ok d ∧
      d.law = some (.uniform l (u - l))) ∧
    (∀ l : ℝ, ∃ d, mkParameter w .uniform ⟨none, none, some l, none⟩ none = .ok d ∧ d.mean = .num (1/2) ∧
      d.law = some (.uniform 0 1)) ∧
    (∀ a b l u, 0 < a → a < 1 → 0 < b → mkParameter w .beta ⟨some a, some b, some l, some u⟩ none = .error .attributeError) := by
  refine ⟨⟨_, rfl, rfl⟩, ⟨_, rfl, rfl, rfl⟩, fun a s ha hs => ⟨gamma (some a) (some s), a * s, ?_, ?_, ?_, ?_⟩,
    fun l u _ => ⟨_, rfl, rfl⟩, fun l => ⟨_, rfl, ?_, ?_⟩, fun a b l u ha ha1 hb => ?_⟩
  · simp [mkParameter, construct, gamma, ha]
  · simp [gamma, ha]
  · nlinarith
  · simp [gamma, ha]
  · simp [uniform]
  · simp [uniform]
  · have : ¬ (1 ≤ a ∧ 1 ≤ b) := fun h => by linarith [h.1]
    simp [mkParameter, construct, beta, this]

/-! ### End points -/

/-- Mass arbitrarily far to the left. -/
def UnboundedBelow (f : ℝ → ℝ) : Prop := ∀ M, ∃ x < M, f x ≠ 0

/-- Mass arbitrarily far to the right. -/
def UnboundedAbove (f : ℝ → ℝ) : Prop := ∀ M, ∃ x > M, f x ≠ 0

theorem ub_line {f : ℝ → ℝ} (h : ∀ x, 0 < f x) : UnboundedBelow f ∧ UnboundedAbove f :=
  ⟨fun M => ⟨M - 1, by linarith, (h _).ne'⟩, fun M => ⟨M + 1, by linarith, (h _).ne'⟩⟩

theorem ub_half {f : ℝ → ℝ} (c c' : ℝ) (h0 : ∀ x < c, f x = 0) (h : ∀ x > c', 0 < f x) :
    ¬ UnboundedBelow f ∧ UnboundedAbove f := by
  refine ⟨fun hb => ?_, fun M => ⟨max M c' + 1, ?_, (h _ ?_).ne'⟩⟩
  · obtain ⟨x, hx, hne⟩ := hb c
    exact hne (h0 x hx)
  · have := le_max_left M c'; linarith
  · have := le_max_right M c'; linarith

theorem ub_bdd {f : ℝ → ℝ} (l u : ℝ) (h0 : ∀ x < l, f x = 0) (h1 : ∀ x > u, f x = 0) :
    ¬ UnboundedBelow f ∧ ¬ UnboundedAbove f := by
  refine ⟨fun hb => ?_, fun hb => ?_⟩
  · obtain ⟨x, hx, hne⟩ := hb l
    exact hne (h0 x hx)
  · obtain ⟨x, hx, hne⟩ := hb u
    exact hne (h1 x hx)

/-- Bounds that tell on which sides the law is unbounded. -/
def BoundsRight (d : Attrs) : Prop := ∃ L lo hi, d.law = some L ∧ d.bounds = some (lo, hi) ∧
  (lo = ⊥ ↔ UnboundedBelow (density L)) ∧ (hi = ⊤ ↔ UnboundedAbove (density L))

theorem right_line {d : Attrs} {L : Law} (hL : d.law = some L) (hb : d.bounds = some (⊥, ⊤)) (h : ∀ x, 0 < density L x) :
    BoundsRight d := by
  obtain ⟨h1, h2⟩ := ub_line h
  exact ⟨L, ⊥, ⊤, hL, hb, by simp [h1], by simp [h2]⟩

theorem right_half {d : Attrs} {L : Law} (c : ℝ) (hL : d.law = some L) (hb : d.bounds = some ((c : EReal), ⊤)) (a a' : ℝ)
    (h0 : ∀ x < a, density L x = 0) (h : ∀ x > a', 0 < density L x) : BoundsRight d := by
  obtain ⟨h1, h2⟩ := ub_half a a' h0 h
  exact ⟨L, c, ⊤, hL, hb, by simp [h1], by simp [h2]⟩

theorem right_bdd {d : Attrs} {L : Law} (c c' : ℝ) (hL : d.law = some L) (hb : d.bounds = some ((c : EReal), (c' : EReal)))
    (a a' : ℝ) (h0 : ∀ x < a, density L x = 0) (h : ∀ x > a', density L x = 0) : BoundsRight d := by
  obtain ⟨h1, h2⟩ := ub_bdd a a' h0 h
  exact ⟨L, c, c', hL, hb, by simp [h1], by simp [h2]⟩

theorem bounds_right (w : World) (name : Name) (args : Args) (d : Attrs) (hn : name ≠ .truncatedGaussian)
    (hv : Valid name args) (h : construct w name args = .ok d) : BoundsRight d := by
  obtain ⟨A, B, lo, up⟩ := args
  have chiBound : ∀ k : ℝ, ∃ c : ℝ, (open Classical in (if k = 1 then ((1 / 10 ^ 15 : ℝ) : EReal) else ((0 : ℝ) : EReal))) = (c : EReal) := by
    intro k
    split_ifs
    · exact ⟨_, rfl⟩
    · exact ⟨_, rfl⟩
  cases name <;> simp only [Valid] at hv <;> simp only [construct] at h
  · obtain ⟨m, v, rfl, rfl, hv⟩ := hv
    simp only [gaussian, Except.ok.injEq] at h
    subst h
    exact right_line rfl rfl fun x => div_pos (phi_pos _) (Real.sqrt_pos.2 hv)
  · rw [← Except.ok.inj h]
    have key : ∀ l u : ℝ, l < u → BoundsRight (uniform (some l) (some u)) := by
      intro l u hlu
      have e := density_uniform l u hlu 0 0
      refine right_bdd (L := .uniform l (u - l)) (-1) 1 rfl rfl l u (fun x hx => ?_) (fun x hx => ?_)
      · rw [e]; simp only [asked]; rw [if_neg fun h => by linarith [h.1]]
      · rw [e]; simp only [asked]; rw [if_neg fun h => by linarith [h.2]]
    have h01 := key 0 1 one_pos
    cases lo with
    | none => exact h01
    | some l =>
      cases up with
      | none => exact h01
      | some u => exact key l u (hv l u rfl rfl)
  · obtain ⟨a, b, rfl, rfl, ha, hb⟩ := hv
    simp only [beta, if_pos (And.intro ha hb), Except.ok.injEq] at h
    subst h
    refine right_bdd 0 1 rfl rfl 0 1 (fun x hx => ?_) (fun x hx => ?_)
    · simp only [density]; rw [if_neg fun h => by linarith [h.1]]
    · simp only [density]; rw [if_neg fun h => by linarith [h.2]]
  · exact absurd rfl hn
  · obtain ⟨m, s, rfl, rfl, hs⟩ := hv
    simp only [cauchy, Except.ok.injEq] at h
    subst h
    refine right_line rfl rfl fun x => ?_
    simp only [density, locScale]
    positivity
  · obtain ⟨r, rfl, hr⟩ := hv
    simp only [exponential, if_pos hr, Except.ok.injEq] at h
    subst h
    refine right_half 0 rfl rfl 0 0 (fun x hx => ?_) (fun x hx => ?_)
    · rw [density_expon r hr 0 0 0]; simp only [asked]; rw [if_neg (not_le.2 hx)]
    · rw [density_expon r hr 0 0 0]; simp only [asked]; rw [if_pos (le_of_lt hx)]; positivity
  · obtain ⟨a, s, rfl, rfl, ha, hs⟩ := hv
    simp only [gamma, if_pos ha, Except.ok.injEq] at h
    subst h
    refine right_half 0 rfl rfl 0 0 (fun x hx => ?_) (fun x hx => ?_)
    · rw [density_gamma a s ha hs 0 0]; simp only [asked]; rw [if_neg (not_lt.2 hx.le)]
    · rw [density_gamma a s ha hs 0 0]; simp only [asked]; rw [if_pos hx]
      have g := Real.Gamma_pos_of_pos ha
      have h1 := Real.rpow_pos_of_pos hx (a - 1)
      have h2 := Real.rpow_pos_of_pos hs a
      positivity
  · obtain ⟨s, c, rfl, rfl, hs, hc⟩ := hv
    simp only [weibull, if_pos (And.intro hc hs), Except.ok.injEq] at h
    subst h
    refine right_half 0 rfl rfl 0 0 (fun x hx => ?_) (fun x hx => ?_)
    · rw [density_weibull s c hs 0 0]; simp only [asked]; rw [if_neg (not_lt.2 hx.le)]
    · rw [density_weibull s c hs 0 0]; simp only [asked]; rw [if_pos hx]
      have h1 := Real.rpow_pos_of_pos (div_pos hx hs) (c - 1)
      positivity
  · rw [← Except.ok.inj h]
    refine right_bdd (L := .arcsine) 0 1 rfl rfl 0 1 (fun x hx => ?_) (fun x hx => ?_)
    · simp only [density]; rw [if_neg fun h => by linarith [h.1]]
    · simp only [density]; rw [if_neg fun h => by linarith [h.2]]
  · obtain ⟨s, rfl, hs⟩ := hv
    simp only [rayleigh, if_pos hs, Except.ok.injEq] at h
    subst h
    refine right_half 0 rfl rfl 0 0 (fun x hx => ?_) (fun x hx => ?_)
    · rw [density_rayleigh s hs 0 0 0]; simp only [asked]; rw [if_neg (not_le.2 hx)]
    · rw [density_rayleigh s hs 0 0 0]; simp only [asked]; rw [if_pos (le_of_lt hx)]
      have hx : 0 < x := hx
      positivity
  · obtain ⟨k, rfl, hk⟩ := hv
    simp only [chisquared, if_pos hk, Except.ok.injEq] at h
    subst h
    obtain ⟨c, hc⟩ := chiBound k
    refine right_half c rfl (by simp only [hc]) 0 0 (fun x hx => ?_) (fun x hx => ?_)
    · simp only [density]; rw [if_neg (not_lt.2 hx.le)]
    · have hx : 0 < x := hx
      simp only [density]; rw [if_pos hx]
      have g := Real.Gamma_pos_of_pos (show 0 < k / 2 by linarith)
      have h1 := Real.rpow_pos_of_pos (half_pos hx) (k / 2 - 1)
      positivity
  · obtain ⟨k, rfl, hk⟩ := hv
    simp only [chi, if_pos hk, Except.ok.injEq] at h
    subst h
    obtain ⟨c, hc⟩ := chiBound k
    refine right_half c rfl (by simp only [hc]) 0 0 (fun x hx => ?_) (fun x hx => ?_)
    · simp only [density]; rw [if_neg (not_lt.2 hx.le)]
    · have hx : 0 < x := hx
      simp only [density]; rw [if_pos hx]
      have g := Real.Gamma_pos_of_pos (show 0 < k / 2 by linarith)
      have h1 := Real.rpow_pos_of_pos hx (k - 1)
      have h2 := Real.rpow_pos_of_pos (two_pos : (0 : ℝ) < 2) (k / 2 - 1)
      positivity
  · obtain ⟨b, rfl, hb⟩ := hv
    simp only [pareto, if_pos hb, Except.ok.injEq] at h
    subst h
    refine right_half (L := .pareto b) (999 / 1000) rfl rfl 1 1 (fun x hx => ?_) (fun x hx => ?_)
    · simp only [density]; rw [if_neg (not_le.2 hx)]
    · have hx : 1 < x := hx
      simp only [density]; rw [if_pos hx.le]
      have h1 := Real.rpow_pos_of_pos (show 0 < x by linarith) (b + 1)
      positivity
  · obtain ⟨m, s, rfl, rfl, hs⟩ := hv
    simp only [gumbel, if_pos hs, Except.ok.injEq] at h
    subst h
    refine right_line (L := .gumbelR m s) rfl rfl fun x => ?_
    simp only [density, locScale]
    positivity
  · obtain ⟨m, s, rfl, rfl, hs⟩ := hv
    simp only [logistic, if_pos hs, Except.ok.injEq] at h
    subst h
    refine right_line (L := .logistic m s) rfl rfl fun x => ?_
    simp only [density, locScale]
    positivity
  · obtain ⟨k, rfl, hk⟩ := hv
    simp only [studentst, if_pos hk, Except.ok.injEq] at h
    subst h
    refine right_line (L := .t k) rfl rfl fun x => ?_
    simp only [density]
    have g := Real.Gamma_pos_of_pos (show 0 < (k + 1) / 2 by linarith)
    have g2 := Real.Gamma_pos_of_pos (show 0 < k / 2 by linarith)
    have h1 := Real.rpow_pos_of_pos (show 0 < 1 + x ^ 2 / k by positivity) (-(k + 1) / 2)
    have h2 : 0 < √(Real.pi * k) := Real.sqrt_pos.2 (by positivity)
    positivity
  · obtain ⟨s, rfl, hs⟩ := hv
    simp only [lognormal, if_pos hs, Except.ok.injEq] at h
    subst h
    refine right_half (L := .lognorm s) 0 rfl rfl 0 0 (fun x hx => ?_) (fun x hx => ?_)
    · simp only [density]; rw [if_neg (not_lt.2 hx.le)]
    · have hx : 0 < x := hx
      simp only [density]; rw [if_pos hx]
      positivity

/-- **C111, one end point.** For every distribution other than the truncated Gaussian: a rule with the lower (upper) end point is
refused exactly if the law is unbounded below (above). Missing: rules with both end points and the truncated Gaussian
(`c111_endpoints_violated`); and the refusal is a `TypeError`, not the `ValueError` with its message. -/
theorem c111_one_end_partial (w : World) (name : Name) (args : Args) (d : Attrs) (hn : name ≠ .truncatedGaussian)
    (hv : Valid name args) (h : mkParameter w name args none = .ok d) :
    ∃ L, d.law = some L ∧
      (UnboundedBelow (density L) → mkParameter w name args (some .lower) = .error .typeError) ∧
      (¬ UnboundedBelow (density L) → mkParameter w name args (some .lower) = .ok d) ∧
      (UnboundedAbove (density L) → mkParameter w name args (some .upper) = .error .typeError) ∧
      (¬ UnboundedAbove (density L) → mkParameter w name args (some .upper) = .ok d) := by
  have hc := mkParameter_ok h
  obtain ⟨s1, s2, -⟩ := mkParameter_set h
  obtain ⟨L, lo, hi, hL, hb, h1, h2⟩ := bounds_right w name args d hn hv hc
  refine ⟨L, hL, ?_⟩
  have hmk : ∀ e, mkParameter w name args (some e) = match e with
      | .both => open Classical in if lo = ⊥ ∧ hi = ⊤ then .error .typeError else .ok d
      | .lower => open Classical in if lo = ⊥ then .error .typeError else .ok d
      | .upper => open Classical in if hi = ⊤ then .error .typeError else .ok d
      | .other => .ok d := by
    intro e
    unfold mkParameter
    rw [hc]
    obtain ⟨L', m, v, s, k, b, r⟩ := d
    simp only at hb s1 s2
    subst hb
    cases m <;> simp only [ne_eq, not_true_eq_false] at s1 <;> cases v <;> simp only [ne_eq, not_true_eq_false] at s2 <;>
      cases e <;> rfl
  refine ⟨fun hu => ?_, fun hu => ?_, fun hu => ?_, fun hu => ?_⟩
  · rw [hmk]; simp only; rw [if_pos (h1.2 hu)]
  · rw [hmk]; simp only; rw [if_neg fun hl => hu (h1.1 hl)]
  · rw [hmk]; simp only; rw [if_pos (h2.2 hu)]
  · rw [hmk]; simp only; rw [if_neg fun hl => hu (h2.1 hl)]

example (w : World) : Valid .gamma ⟨some 2, some 3, none, none⟩ ∧
    ∃ d, mkParameter w .gamma ⟨some 2, some 3, none, none⟩ none = .ok d := by
  refine ⟨⟨2, 3, rfl, rfl, by norm_num, by norm_num⟩, ?_⟩
  simp [mkParameter, construct, gamma]

/-- **C111 fails for both end points and for the truncated Gaussian.** A gamma parameter, unbounded above, accepts a rule with both
end points. A truncated Gaussian parameter, whose law is bounded, is refused the rules with end points. -/
theorem c111_endpoints_violated (w : World) (hw : StatsSet w) :
    (∀ a s : ℝ, 0 < a → 0 < s → ∃ d L, mkParameter w .gamma ⟨some a, some s, none, none⟩ (some .both) = .ok d ∧
      d.law = some L ∧ UnboundedAbove (density L)) ∧
    (∀ m v l u : ℝ, 0 < v → l < u → ∃ d L, mkParameter w .truncatedGaussian ⟨some m, some v, some l, some u⟩ none = .ok d ∧
      d.law = some L ∧ ¬ UnboundedBelow (density L) ∧ ¬ UnboundedAbove (density L) ∧
      ∀ e, e = .lower ∨ e = .upper ∨ e = .both →
        mkParameter w .truncatedGaussian ⟨some m, some v, some l, some u⟩ (some e) = .error .typeError) := by
  refine ⟨fun a s ha hs => ?_, fun m v l u hv hlu => ?_⟩
  · refine ⟨gamma (some a) (some s), .gamma a s, ?_, ?_, ?_⟩
    · simp [mkParameter, construct, gamma, ha]
    · simp [gamma, ha]
    · have hc : construct w .gamma ⟨some a, some s, none, none⟩ = .ok (gamma (some a) (some s)) := rfl
      obtain ⟨L, lo, hi, hL, hb, -, h2⟩ := bounds_right w .gamma ⟨some a, some s, none, none⟩ _ (by simp)
        ⟨a, s, rfl, rfl, ha, hs⟩ hc
      simp only [gamma, if_pos ha, Option.some.injEq, Prod.mk.injEq] at hL hb
      rw [hL]
      exact h2.1 hb.2.symm
  · set L := Law.truncnorm ((l - m) / √v) ((u - m) / √v) m (√v) with hL
    obtain ⟨w1, w2⟩ := hw L
    have hd : ∀ e, mkParameter w .truncatedGaussian ⟨some m, some v, some l, some u⟩ e =
        match e with
        | none => .ok (truncatedGaussian w.stats (some m) (some v) (some l) (some u))
        | some .other => .ok (truncatedGaussian w.stats (some m) (some v) (some l) (some u))
        | some _ => .error .typeError := by
      intro e
      simp only [mkParameter, construct, truncatedGaussian]
      rw [← hL]
      cases hm : (w.stats L).mean <;> simp only [hm, ne_eq, not_true_eq_false] at w1 <;>
        cases hvv : (w.stats L).variance <;> simp only [hvv, ne_eq, not_true_eq_false] at w2 <;>
        rcases e with _ | _ | _ | _ | _ <;> simp
    have e := density_truncnorm m v l u hv
    obtain ⟨b1, b2⟩ := ub_bdd (f := density L) l u (fun x hx => by rw [hL, e]; simp only [asked]; rw [if_neg fun h => by linarith [h.1]])
      (fun x hx => by rw [hL, e]; simp only [asked]; rw [if_neg fun h => by linarith [h.2]])
    refine ⟨_, L, hd none, rfl, b1, b2, ?_⟩
    rintro e (rfl | rfl | rfl) <;> rw [hd]

end EQ.Dist
