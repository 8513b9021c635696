import Verif.Dist.KurtosisProps
import Mathlib.Data.List.Basic

/-!
# The description of a parameter: C219
-/

namespace EQ.Dist
open EQ.Basis EQ.DistSpec EQ.DistLemmas MeasureTheory

/-! ## Model -/

/-- A piece of the text: a literal, or `str` of an attribute. -/
inductive Piece
  | txt (s : String)
  | val (v : Val)

/-- The literal each description begins with (line 36 of `chebyshev.py`, `exponential.py`, `gamma.py`, `gumbel.py`,
`logistic.py` and `studentst.py`, `gaussian.py:40`, `uniform.py:42`, `beta.py:50`, `truncated_gaussian.py:50`,
`cauchy.py:38`, `weibull.py:39`, `rayleigh.py:46`, `chisquared.py:37`, `chi.py:39`, `pareto.py:35`, `lognormal.py:35`). -/
def lead : Name → String
  | .gaussian => "is a Gaussian distribution with a mean of "
  | .uniform => "is a uniform distribution over the support "
  | .beta => "is a beta distribution is defined over a support; given here as "
  | .truncatedGaussian => "a truncated Gaussian distribution with a mean of "
  | .cauchy => "is a Cauchy distribution that by definition has an undefined mean and variance; its location parameter is "
  | .exponential => "is an exponential distribution with a rate parameter of"
  | .gamma => "is a gamma distribution with a shape parameter of "
  | .weibull => "is a Weibull distribution with a shape parameter of "
  | .arcsine => "is a Chebyshev or arcsine distribution that is characterised by its lower bound, which is"
  | .rayleigh => "is a Rayleigh distribution; characterised by its scale parameter, which has been set to "
  | .chiSquared => "is a chi-squared distribution; characterised by its degrees of freedom, which here is"
  | .chi => "is a chi distribution which is characterised by its degrees of freedom, which here is"
  | .pareto => "is a pareto distribution which is characterised by its shape parameter, which here is"
  | .gumbel => "is a Gumbel distribution is characterised by its scale parameter, which here is"
  | .logistic => "is a Logistic distribution is characterised by its scale parameter, which here is"
  | .studentsT => "is a student's t distribution; characterised by its degrees of freedom, which here is"
  | .lognormal => "is a Lognormal distribution is characterised by its shape parameter, which here is"

/-- The text after the first literal (same lines as `lead`) with the attributes the constructors store: the arguments
themselves, except for the bounds of a uniform law (`uniform.py:17-24`) and for the mean and variance of a truncated Gaussian,
which are those scipy reports for the truncated law (`truncated_gaussian.py:36-38`); if one of its arguments is missing, none
of its attributes exist. -/
noncomputable def afterLead (w : World) : Name → Args → Except Err (List Piece)
  | .gaussian, a => .ok [.val (optVal a.A), .txt " and a variance of ", .val (optVal a.B), .txt "."]
  | .uniform, a =>
    match a.lower, a.upper with
    | some l, some u => .ok [.val (.num l), .txt " to ", .val (.num u), .txt "."]
    | _, _ => .ok [.val (.num 0), .txt " to ", .val (.num 1), .txt "."]
  | .beta, a => .ok [.val (optVal a.lower), .txt ", to ", .val (optVal a.upper),
      .txt ". It has two shape parameters, given here to be ", .val (optVal a.A), .txt " and ", .val (optVal a.B), .txt "."]
  | .truncatedGaussian, a =>
    match a.A, a.B, a.lower, a.upper with
    | some m, some v, some l, some u =>
      let s := w.stats (.truncnorm ((l - m) / Real.sqrt v) ((u - m) / Real.sqrt v) m (Real.sqrt v))
      .ok [.val s.mean, .txt " and a variance of ", .val s.variance, .txt ", and a lower bound of ", .val (.num l),
        .txt " and an upper bound of ", .val (.num u), .txt "."]
    | _, _, _, _ => .error .attributeError
  | .cauchy, a => .ok [.val (optVal a.A), .txt ", and its scale parameter is ", .val (optVal a.B), .txt "."]
  | .exponential, a => .ok [.val (optVal a.A), .txt "."]
  | .gamma, a => .ok [.val (optVal a.A), .txt ", and a scale parameter of ", .val (optVal a.B), .txt "."]
  | .weibull, a => .ok [.val (optVal a.B), .txt " and a scale parameter of ", .val (optVal a.A)]
  | .arcsine, a => .ok [.val (optVal a.lower), .txt " and its upper bound, which is", .val (optVal a.upper), .txt "."]
  | .rayleigh, a => .ok [.val (optVal a.A), .txt "."]
  | .chiSquared, a => .ok [.val (optVal a.A), .txt "."]
  | .chi, a => .ok [.val (optVal a.A), .txt "."]
  | .pareto, a => .ok [.val (optVal a.A), .txt ". While the distribution can be characterized by a shape parameter and a scale parameter, in Effective Quadratures we use only the one, that is the scale parameter is set to 1. "]
  | .gumbel, a => .ok [.val (optVal a.B), .txt " and its location, given by ", .val (optVal a.A), .txt "."]
  | .logistic, a => .ok [.val (optVal a.B), .txt " and its location, given by ", .val (optVal a.A), .txt "."]
  | .studentsT, a => .ok [.val (optVal a.A), .txt "."]
  | .lognormal, a => .ok [.val (optVal a.A), .txt "."]

/-- The pieces of a text joined by `+`; `str` is Python's `str` (lines as for `lead`). -/
def render (str : Val → List Char) : List Piece → List Char
  | [] => []
  | .txt s :: l => s.toList ++ render str l
  | .val v :: l => str v ++ render str l

/-- `Parameter.get_description` (`parameter.py:197-204`) and the `get_description` of the distributions (lines as for `lead`).
Not modelled: `analytical`. -/
noncomputable def getDescription (str : Val → List Char) (w : World) (name : Name) (args : Args) : Except Err (List Char) :=
  match afterLead w name args with
  | .error e => .error e
  | .ok l => .ok (render str (.txt (lead name) :: l))

/-! ## Specification -/

/-- What Python's `str` does with `None` and with the numbers of a set `F`: different texts for different values, no blanks. -/
structure PyStr (F : Set ℝ) (str : Val → List Char) : Prop where
  zero : (0 : ℝ) ∈ F
  one : (1 : ℝ) ∈ F
  inj : ∀ x ∈ F, ∀ y ∈ F, str (.num x) = str (.num y) → x = y
  none : ∀ x ∈ F, str (.num x) ≠ str .none
  blank : ∀ x ∈ F, ' ' ∉ str (.num x)
  blank_none : ' ' ∉ str .none

/-- Every number given is in `F`. -/
def GivenIn (F : Set ℝ) (a : Args) : Prop :=
  (∀ x, a.A = some x → x ∈ F) ∧ (∀ x, a.B = some x → x ∈ F) ∧ (∀ x, a.lower = some x → x ∈ F) ∧ ∀ x, a.upper = some x → x ∈ F

/-! ## Lemmas -/

theorem lead_prefix (n n' : Name) (h : (lead n).toList <+: (lead n').toList) : n = n' := by
  cases n <;> cases n' <;> first | rfl | exact absurd h (by decide)

theorem cut_inj (c : Char) : ∀ {s s' r r' : List Char}, c ∉ s → c ∉ s' → s ++ c :: r = s' ++ c :: r' → s = s' ∧ r = r'
  | [], [], _, _, _, _, h => ⟨rfl, (List.cons_eq_cons.1 h).2⟩
  | [], x :: s', _, _, _, hs', h => absurd (by rw [(List.cons_eq_cons.1 h).1]; exact List.mem_cons_self) hs'
  | x :: s, [], _, _, hs, _, h => absurd (by rw [← (List.cons_eq_cons.1 h).1]; exact List.mem_cons_self) hs
  | x :: s, y :: s', r, r', hs, hs', h => by
    obtain ⟨h1, h2⟩ := List.cons_eq_cons.1 h
    obtain ⟨h3, h4⟩ := cut_inj c (fun m => hs (List.mem_cons_of_mem _ m)) (fun m => hs' (List.mem_cons_of_mem _ m)) h2
    exact ⟨by rw [h1, h3], h4⟩

theorem sep_inj {s s' t r r' : List Char} (ht : ' ' ∈ t) (hs : ' ' ∉ s) (hs' : ' ' ∉ s') (h : s ++ (t ++ r) = s' ++ (t ++ r')) :
    s = s' ∧ r = r' := by
  obtain ⟨p, q, rfl, hp⟩ := List.eq_append_cons_of_mem ht
  have e : (s ++ p) ++ ' ' :: (q ++ r) = (s' ++ p) ++ ' ' :: (q ++ r') := by simpa using h
  obtain ⟨e1, e2⟩ := cut_inj ' ' (by simp [hs, hp]) (by simp [hs', hp]) e
  exact ⟨List.append_cancel_right e1, List.append_cancel_left e2⟩

variable {F : Set ℝ} {str : Val → List Char}

theorem PyStr.opt (hp : PyStr F str) {x y : Option ℝ} (hx : ∀ v, x = some v → v ∈ F) (hy : ∀ v, y = some v → v ∈ F)
    (h : str (optVal x) = str (optVal y)) : x = y := by
  cases x with
  | none => cases y with
    | none => rfl
    | some b => exact absurd h.symm (hp.none b (hy b rfl))
  | some a => cases y with
    | none => exact absurd h (hp.none a (hx a rfl))
    | some b => rw [hp.inj a (hx a rfl) b (hy b rfl) h]

theorem PyStr.noBlank (hp : PyStr F str) {x : Option ℝ} (hx : ∀ v, x = some v → v ∈ F) : ' ' ∉ str (optVal x) := by
  cases x with
  | none => exact hp.blank_none
  | some a => exact hp.blank a (hx a rfl)

/-! ## Properties -/

/-- C219, the part that holds. For every law but the truncated Gaussian the description tells the law and the numbers it was
built from: a parameter with the same description has the same name and the same constructor result (law, moments, bounds,
range). Missing: the truncated Gaussian (`c219_truncated_violated`), and that the numbers in the text are true of the law
(`c219_support_violated`). -/
theorem c219_description_partial (hp : PyStr F str) (w : World) (n n' : Name) (a a' : Args) (ha : GivenIn F a) (ha' : GivenIn F a')
    (hn : n ≠ .truncatedGaussian) (t : List Char) (h : getDescription str w n a = .ok t) (h' : getDescription str w n' a' = .ok t) :
    n = n' ∧ construct w n a = construct w n' a' := by
  obtain ⟨A, B, l, u⟩ := a
  obtain ⟨A', B', l', u'⟩ := a'
  obtain ⟨hA, hB, hl, hu⟩ := ha
  obtain ⟨hA', hB', hl', hu'⟩ := ha'
  simp only at hA hB hl hu hA' hB' hl' hu'
  have hnn : n = n' := by
    unfold getDescription at h h'
    split at h
    · exact absurd h (by simp)
    split at h'
    · exact absurd h' (by simp)
    simp only [Except.ok.injEq, render] at h h'
    have p1 : (lead n).toList <+: t := ⟨_, h⟩
    have p2 : (lead n').toList <+: t := ⟨_, h'⟩
    rcases List.prefix_or_prefix_of_prefix p1 p2 with q | q
    · exact lead_prefix n n' q
    · exact (lead_prefix n' n q).symm
  subst hnn
  refine ⟨rfl, ?_⟩
  have one : ∀ {x x' : Option ℝ} (hx : ∀ v, x = some v → v ∈ F) (hx' : ∀ v, x' = some v → v ∈ F) (p q : List Char),
      p ++ (str (optVal x) ++ (q ++ [])) = t → p ++ (str (optVal x') ++ (q ++ [])) = t → x = x' := by
    intro x x' hx hx' p q e e'
    have := List.append_cancel_right (List.append_cancel_left (e.trans e'.symm))
    exact hp.opt hx hx' this
  have two : ∀ {x x' y y' : Option ℝ} (hx : ∀ v, x = some v → v ∈ F) (hx' : ∀ v, x' = some v → v ∈ F)
      (hy : ∀ v, y = some v → v ∈ F) (hy' : ∀ v, y' = some v → v ∈ F) (p q r : List Char) (hq : ' ' ∈ q),
      p ++ (str (optVal x) ++ (q ++ (str (optVal y) ++ (r ++ [])))) = t →
      p ++ (str (optVal x') ++ (q ++ (str (optVal y') ++ (r ++ [])))) = t → x = x' ∧ y = y' := by
    intro x x' y y' hx hx' hy hy' p q r hq e e'
    obtain ⟨e1, e2⟩ := sep_inj hq (hp.noBlank hx) (hp.noBlank hx') (List.append_cancel_left (e.trans e'.symm))
    exact ⟨hp.opt hx hx' e1, hp.opt hy hy' (List.append_cancel_right e2)⟩
  cases n
  case truncatedGaussian => exact absurd rfl hn
  case uniform =>
    have hl0 : ∀ v : ℝ, some (0 : ℝ) = some v → v ∈ F := fun v hv => by rw [← Option.some.inj hv]; exact hp.zero
    have hu1 : ∀ v : ℝ, some (1 : ℝ) = some v → v ∈ F := fun v hv => by rw [← Option.some.inj hv]; exact hp.one
    have key : ∀ (l u : Option ℝ), (∀ v, l = some v → v ∈ F) → (∀ v, u = some v → v ∈ F) →
        getDescription str w .uniform ⟨A, B, l, u⟩ = .ok t → ∃ x y : ℝ, x ∈ F ∧ y ∈ F ∧
          uniform l u = uniform (some x) (some y) ∧
          (lead .uniform).toList ++ (str (.num x) ++ (" to ".toList ++ (str (.num y) ++ (".".toList ++ [])))) = t := by
      intro l u hl hu h
      rcases l with _ | x <;> rcases u with _ | y <;>
        simp only [getDescription, afterLead, render, Except.ok.injEq] at h
      · exact ⟨0, 1, hp.zero, hp.one, rfl, h⟩
      · exact ⟨0, 1, hp.zero, hp.one, rfl, h⟩
      · exact ⟨0, 1, hp.zero, hp.one, rfl, h⟩
      · exact ⟨x, y, hl x rfl, hu y rfl, rfl, h⟩
    obtain ⟨x, y, hx, hy, e, k⟩ := key l u hl hu (by simpa [getDescription, afterLead] using h)
    obtain ⟨x', y', hx', hy', e', k'⟩ := key l' u' hl' hu' (by simpa [getDescription, afterLead] using h')
    obtain ⟨e1, e2⟩ := sep_inj (by decide) (hp.blank x hx) (hp.blank x' hx') (List.append_cancel_left (k.trans k'.symm))
    have e1 := hp.inj x hx x' hx' e1
    have e2 := hp.inj y hy y' hy' (List.append_cancel_right e2)
    simp only [construct, e, e', e1, e2]
  case beta =>
    simp only [getDescription, afterLead, render, Except.ok.injEq] at h h'
    obtain ⟨e1, k⟩ := sep_inj (by decide) (hp.noBlank hl) (hp.noBlank hl') (List.append_cancel_left (h.trans h'.symm))
    obtain ⟨e2, k⟩ := sep_inj (by decide) (hp.noBlank hu) (hp.noBlank hu') k
    obtain ⟨e3, k⟩ := sep_inj (by decide) (hp.noBlank hA) (hp.noBlank hA') k
    have e4 := hp.opt hB hB' (List.append_cancel_right k)
    simp only [construct, hp.opt hl hl' e1, hp.opt hu hu' e2, hp.opt hA hA' e3, e4]
  case gaussian =>
    simp only [getDescription, afterLead, render, Except.ok.injEq] at h h'
    obtain ⟨rfl, rfl⟩ := two hA hA' hB hB' _ _ _ (by decide) h h'
    rfl
  case cauchy =>
    simp only [getDescription, afterLead, render, Except.ok.injEq] at h h'
    obtain ⟨rfl, rfl⟩ := two hA hA' hB hB' _ _ _ (by decide) h h'
    rfl
  case gamma =>
    simp only [getDescription, afterLead, render, Except.ok.injEq] at h h'
    obtain ⟨rfl, rfl⟩ := two hA hA' hB hB' _ _ _ (by decide) h h'
    rfl
  case weibull =>
    simp only [getDescription, afterLead, render, Except.ok.injEq] at h h'
    obtain ⟨rfl, rfl⟩ := two hB hB' hA hA' _ _ [] (by decide) h h'
    rfl
  case arcsine =>
    simp only [getDescription, afterLead, render, Except.ok.injEq] at h h'
    obtain ⟨rfl, rfl⟩ := two hl hl' hu hu' _ _ _ (by decide) h h'
    rfl
  case gumbel =>
    simp only [getDescription, afterLead, render, Except.ok.injEq] at h h'
    obtain ⟨rfl, rfl⟩ := two hB hB' hA hA' _ _ _ (by decide) h h'
    rfl
  case logistic =>
    simp only [getDescription, afterLead, render, Except.ok.injEq] at h h'
    obtain ⟨rfl, rfl⟩ := two hB hB' hA hA' _ _ _ (by decide) h h'
    rfl
  all_goals
    simp only [getDescription, afterLead, render, Except.ok.injEq] at h h'
    obtain rfl := one hA hA' _ _ h h'
    rfl

/-- C219 is violated for the truncated Gaussian: the text gives as mean and variance those of the law after the truncation, not
those the user gave and another parameter can be built from. For a standard normal law truncated to `[0, 3]` the mean in the
text is positive. -/
theorem c219_truncated_violated (w : World) (hw : ScipyMoments w) :
    ∃ m v : ℝ, 0 < m ∧ ∀ str, getDescription str w .truncatedGaussian ⟨some 0, some 1, some 0, some 3⟩ =
      .ok ("a truncated Gaussian distribution with a mean of ".toList ++ str (.num m) ++ " and a variance of ".toList ++
        str (.num v) ++ ", and a lower bound of ".toList ++ str (.num 0) ++ " and an upper bound of ".toList ++
        str (.num 3) ++ ".".toList) := by
  obtain ⟨h1, h2, -⟩ := std_moments raw_half (div_self halfMoment_pos.ne')
  have hw := hw _ h1
  refine ⟨mean (density (.truncnorm 0 3 0 1)), variance (density (.truncnorm 0 3 0 1)), ?_, fun str => ?_⟩
  · rw [h2]
    refine div_pos ?_ halfMoment_pos
    rw [half_one]
    have : Real.exp (-9 / 2) < 1 := by rw [Real.exp_lt_one_iff]; norm_num
    linarith
  · simp only [getDescription, afterLead, Real.sqrt_one, sub_zero, div_one, hw, render, lead, List.append_assoc, List.append_nil]

/-- C219 is violated for Beta and Chebyshev parameters: the text says that the law is defined over the bounds given, but
whatever bounds from 1 on are given, the density of the law is zero everywhere between them. -/
theorem c219_support_violated (w : World) (p q l u : ℝ) (hp : 1 ≤ p) (hq : 1 ≤ q) (hl : 1 ≤ l) :
    (∃ rest L d, afterLead w .beta ⟨some p, some q, some l, some u⟩ =
        .ok (.val (.num l) :: .txt ", to " :: .val (.num u) :: rest) ∧
      construct w .beta ⟨some p, some q, some l, some u⟩ = .ok d ∧ d.law = some L ∧
      ∀ x, l ≤ x → x ≤ u → density L x = 0) ∧
    (∃ rest L d, afterLead w .arcsine ⟨none, none, some l, some u⟩ =
        .ok (.val (.num l) :: .txt " and its upper bound, which is" :: .val (.num u) :: rest) ∧
      construct w .arcsine ⟨none, none, some l, some u⟩ = .ok d ∧ d.law = some L ∧
      ∀ x, l ≤ x → x ≤ u → density L x = 0) := by
  refine ⟨⟨_, .beta p q, _, rfl, rfl, ?_, fun x hx _ => ?_⟩, ⟨_, .arcsine, _, rfl, rfl, rfl, fun x hx _ => ?_⟩⟩
  · simp only [beta]
    rw [if_pos ⟨hp, hq⟩]
  · simp only [density]
    exact if_neg fun h => by linarith [h.2]
  · simp only [density]
    exact if_neg fun h => by linarith [h.2]

/-! ## Examples -/

/-- Numerals for the natural numbers. -/
noncomputable def unary : Val → List Char
  | .num x => List.replicate (⌊x⌋₊ + 1) '1'
  | _ => "None".toList

theorem unary_ok : PyStr (Set.range fun k : ℕ => (k : ℝ)) unary where
  zero := ⟨0, by simp⟩
  one := ⟨1, by simp⟩
  inj := by
    rintro x ⟨j, rfl⟩ y ⟨k, rfl⟩ h
    have := congrArg List.length h
    simp only [unary, Nat.floor_natCast, List.length_replicate] at this
    simp only [Nat.cast_inj]
    omega
  none := by
    rintro x ⟨j, rfl⟩ h
    have h : '1' :: List.replicate j '1' = "None".toList := by
      rw [← List.replicate_succ]
      simpa only [unary, Nat.floor_natCast] using h
    have := (List.cons_eq_cons.1 (h.trans (by decide : "None".toList = 'N' :: ['o', 'n', 'e']))).1
    exact absurd this (by decide)
  blank := by
    rintro x ⟨j, rfl⟩ h
    have := List.eq_of_mem_replicate h
    exact absurd this (by decide)
  blank_none := by simp only [unary]; decide

/-- Gamma laws with shape and scale 2, 5 and 5, 2 have different descriptions. -/
example (w : World) : getDescription unary w .gamma ⟨some (2 : ℕ), some (5 : ℕ), none, none⟩ ≠
    getDescription unary w .gamma ⟨some (5 : ℕ), some (2 : ℕ), none, none⟩ := by
  intro h
  have := (c219_description_partial unary_ok w .gamma .gamma ⟨some (2 : ℕ), some (5 : ℕ), none, none⟩
    ⟨some (5 : ℕ), some (2 : ℕ), none, none⟩ ?_ ?_ (by decide) _ rfl h.symm).2
  · simp [construct, gamma] at this
  · refine ⟨?_, ?_, ?_, ?_⟩ <;> intro x hx <;> simp at hx <;> subst hx
    · exact ⟨2, by norm_num⟩
    · exact ⟨5, by norm_num⟩
  · refine ⟨?_, ?_, ?_, ?_⟩ <;> intro x hx <;> simp at hx <;> subst hx
    · exact ⟨5, by norm_num⟩
    · exact ⟨2, by norm_num⟩

end EQ.Dist
