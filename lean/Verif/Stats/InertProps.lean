import Verif.Stats.AnovaProps
import Verif.Poly.BoxFit

/-!
# Inputs without influence (C173)
-/

namespace EQ.Stats
open EQ.Param EQ.Poly EQ.Poly.Spec EQ.Sampling EQ.Sampling.Spec EQ.Stats.Spec EQ.Basis

/-! ## Specification -/

/-- The function of `d` inputs does not depend on input `i`: changing that input alone never changes the value. -/
def Inert (d i : ℕ) (f : List ℝ → ℝ) : Prop := ∀ x, x.length = d → ∀ t, f (x.set i t) = f x

/-! ## Lemmas -/

theorem law_const {P : MParam} {E : (ℝ → ℝ) → ℝ} (h : Law P E) (a : ℝ) : E (fun _ => a) = a := by
  have := law_lin h (Finset.range 1) (fun _ => a) fun _ => 0
  simpa [EQ.Poly.univ_zero] using this

theorem condMean_self {params : List MParam} {Es : List ((ℝ → ℝ) → ℝ)} (hlaw : List.Forall₂ Law params Es) (keep : ℕ → Bool) (f : List ℝ → ℝ)
    (h : ∀ i, keep i = false → Inert params.length i f) (x : List ℝ) (hx : x.length = params.length) : condMean Es keep f x = f x := by
  induction hlaw generalizing keep f x with
  | nil =>
    obtain rfl : x = [] := List.length_eq_zero_iff.1 (by simpa using hx)
    rfl
  | @cons P E Ps Es hE hEs ih =>
    cases x with
    | nil => simp at hx
    | cons y ys =>
      have hl : ys.length = Ps.length := by simpa using hx
      have htail : ∀ z, ∀ i, keep (i + 1) = false → Inert Ps.length i (fun u => f (z :: u)) := by
        intro z i hi u hu t
        have := h (i + 1) hi (z :: u) (by simp [hu]) t
        simpa using this
      rw [condMean]
      split_ifs with hk
      · simp only [List.headD_cons, List.tail_cons]
        exact ih _ _ (htail y) ys hl
      · simp only [List.tail_cons]
        have e : ∀ z, condMean Es (fun k => keep (k + 1)) (fun u => f (z :: u)) ys = f (y :: ys) := by
          intro z
          rw [ih _ _ (htail z) ys hl]
          have := h 0 (by simpa using hk) (y :: ys) (by simp [hl]) z
          simpa using this
        simp only [e]
        exact law_const hE _

theorem basisFun_set (params : List MParam) (row : List ℕ) (x : List ℝ) (i : ℕ) (t : ℝ) (h : row.getD i 0 = 0) :
    basisFun params row (x.set i t) = basisFun params row x := by
  induction params generalizing row x i with
  | nil => simp [basisFun]
  | cons P Ps ih =>
    cases row with
    | nil => cases x <;> cases i <;> simp [basisFun]
    | cons n row =>
      cases x with
      | nil => simp
      | cons y ys =>
        cases i with
        | zero =>
          have : n = 0 := by simpa using h
          subst this
          simp [basisFun, EQ.Poly.univ_zero]
        | succ i =>
          simp only [List.set_cons_succ, basisFun]
          rw [ih row ys i (by simpa using h)]

/-! ## Properties -/

/-- **C173.** Under the hypotheses of C162, the total Sobol' index of an input is zero exactly when the fit does not depend on that input. -/
theorem c173_inert (B : Expansion) (hB : Regular B) (hR : B.invR = none) (hd : 2 ≤ B.dims) (hz : B.elements.head? = some (List.replicate B.dims 0))
    (hnd : B.elements.Nodup) (Es : List ((ℝ → ℝ) → ℝ)) (hlaw : List.Forall₂ Law B.params Es) (c : List ℝ) (hc : c.length = B.elements.length)
    (h2 : 2 ≤ c.length) (f : List ℝ → ℝ) (hf : ∀ x, x.length = B.dims → B.polyfit c [x] = .ok [f x]) (hv : lawVar Es f ≠ 0) :
    ∃ s T, allSobol c B.elements B.dims none = .ok s ∧ getSobolTotal s B.dims = .ok T ∧ T.length = B.dims ∧
      ∀ i < B.dims, T.getD i 0 = 0 ↔ Inert B.dims i f := by
  obtain ⟨s, T, hs, hT, hl, hi⟩ := c162_total B hB hR hd hz hnd Es hlaw c hc h2 f hf hv
  have hvar := (c32_mean_variance_partial B hB (.inr hR) hz hnd Es hlaw c hc h2 f hf).2
  obtain ⟨s', T', hs', hT', -, L, -, hi'⟩ := c38_total c B.elements B.dims hd h2 hc hB.rows hz (lawVar Es f) hvar hv
  rw [hs] at hs'
  obtain rfl := Except.ok.inj hs'
  rw [hT] at hT'
  obtain rfl := Except.ok.inj hT'
  refine ⟨s, T, hs, hT, hl, fun i hid => ⟨fun h0 x hx t => ?_, fun hin => ?_⟩⟩
  · rw [polyfit_single B hB (.inr hR) c hc f hf x hx, polyfit_single B hB (.inr hR) c hc f hf _ (by simpa using hx),
      sum_expansion _ _ _ hc, sum_expansion _ _ _ hc]
    have hsum := (hi' i hid).2.1
    rw [h0] at hsum
    have hpos : 0 < lawVar Es f := by
      rw [variance_ok c h2] at hvar
      have h : varSum c = lawVar Es f := Except.ok.inj hvar
      exact lt_of_le_of_ne (h ▸ varSum_nonneg c) (Ne.symm hv)
    have hz0 := (Finset.sum_eq_zero_iff_of_nonneg (fun j _ => by split_ifs <;> positivity)).1 hsum.symm
    apply Finset.sum_congr rfl
    intro j hj
    by_cases hr : (B.elements.getD j []).getD i 0 = 0
    · rw [basisFun_set _ _ _ _ _ hr]
    · have := hz0 j hj
      rw [if_pos hr, div_eq_zero_iff] at this
      have := pow_eq_zero_iff (two_ne_zero) |>.1 (this.resolve_right hv)
      rw [this, zero_mul, zero_mul]
  · rw [(hi i hid).1]
    have e : prodE Es (fun x => (f x - condMean Es (fun k => k != i) f x) ^ 2) = prodE Es fun _ => 0 := by
      apply prodE_congr
      intro x hx
      rw [condMean_self hlaw _ f (fun k hk => ?_) x (by rw [hlaw.length_eq, hx])]
      · ring
      · have : k = i := by simpa using hk
        subst this
        exact hin
    rw [e]
    have e0 : ∀ (params : List MParam) (Es : List ((ℝ → ℝ) → ℝ)), List.Forall₂ Law params Es → prodE Es (fun _ => (0 : ℝ)) = 0 := by
      intro params Es h
      induction h with
      | nil => rfl
      | cons hE _ ih => rw [prodE]; simp only [ih]; exact law_const hE 0
    rw [e0 _ _ hlaw, zero_div]

/-- A fit that depends on the first of two inputs only, with a variance different from zero: the theorem says that the second total index is zero. -/
example : ∃ (P : MParam) (E : (ℝ → ℝ) → ℝ) (f : List ℝ → ℝ),
    let B : Expansion := ⟨[P, P], [[0, 0], [0, 1], [1, 0]], none⟩
    Regular B ∧ B.elements.Nodup ∧ B.elements.head? = some (List.replicate B.dims 0) ∧ List.Forall₂ Law B.params [E, E] ∧
    (∀ x, x.length = B.dims → B.polyfit [3, 0, 2] [x] = .ok [f x]) ∧ lawVar [E, E] f = 4 ∧ Inert B.dims 1 f := by
  obtain ⟨P, -, hab, -⟩ := exists_valid (jtab (1 - 1) (1 - 1) (-1) 1)
    (by norm_num [jtab, jacobiRow]) (fun k hk => beta_tab_pos one_pos one_pos (by norm_num) k hk)
    none none 0
  have hl := law_beta 1 1 (-1) 1 one_pos one_pos (by norm_num) P hab
  have hB : Regular ⟨[P, P], [[0, 0], [0, 1], [1, 0]], none⟩ := ⟨by simp, by simp [Expansion.dims], by simp [Expansion.dims], by simp [SquareOpt]⟩
  have hlaw : List.Forall₂ Law (Expansion.mk [P, P] [[0, 0], [0, 1], [1, 0]] none).params [EQ.ParamSpec.betaE 1 1 (-1) 1, EQ.ParamSpec.betaE 1 1 (-1) 1] :=
    .cons hl (.cons hl .nil)
  have hf : ∀ x, x.length = 2 → (Expansion.mk [P, P] [[0, 0], [0, 1], [1, 0]] none).polyfit [3, 0, 2] [x] =
      .ok [expansion [P, P] [[0, 0], [0, 1], [1, 0]] [3, 0, 2] x] := by
    intro x hx
    rw [polyfit_eq _ hB [3, 0, 2] (by simp) [x] (by simpa [Expansion.dims] using hx), eff_plain _ (.inr rfl)]
    rfl
  refine ⟨P, _, _, hB, by simp, by simp [Expansion.dims], hlaw, hf, ?_, ?_⟩
  · have := (c32_mean_variance_partial _ hB (.inr rfl) (by simp [Expansion.dims]) (by simp) _ hlaw [3, 0, 2] (by simp) (by simp) _ hf).2
    have h5 : variance [3, 0, 2] = .ok 4 := by norm_num [variance]
    rw [h5] at this
    exact (Except.ok.inj this).symm
  · intro x hx t
    rw [sum_expansion _ _ _ (by simp), sum_expansion _ _ _ (by simp)]
    simp only [List.length_cons, List.length_nil, Finset.sum_range_succ, Finset.sum_range_zero]
    rw [basisFun_set _ ([[0, 0], [0, 1], [1, 0]].getD (0 : ℕ) []) _ _ _ rfl, basisFun_set _ ([[0, 0], [0, 1], [1, 0]].getD (2 : ℕ) []) _ _ _ rfl]
    simp

end EQ.Stats
