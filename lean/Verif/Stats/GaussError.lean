import Verif.Stats.RateProps
import Verif.Stats.HermiteLemmas
import Mathlib.Analysis.Complex.ExponentialBounds
import Mathlib.Analysis.SpecialFunctions.Trigonometric.Chebyshev.RootsExtrema

/-!
# The error of the mean reported for a smooth model of one input (C213)
-/

namespace EQ.Stats
open EQ.Param EQ.ParamSpec EQ.Basis EQ.Basis.Spec EQ.Sampling EQ.Sampling.Spec EQ.Poly EQ.Poly.Spec EQ.Stats.Spec Set
open scoped Polynomial

/-! ## Specification -/

/-- The mean of the squared distances from the points multiplied together, `E ∏ (x - xⱼ)²`. -/
noncomputable def spread (E : (ℝ → ℝ) → ℝ) (xs : List ℝ) : ℝ := E fun x => (xs.map fun t => (x - t) ^ 2).prod

/-! ## Lemmas -/

/-- Chebyshev's polynomial for an interval, with leading coefficient 1. -/
theorem exists_chebyshev {l u : ℝ} (h : l < u) (n : ℕ) (hn : n ≠ 0) :
    ∃ p : ℝ[X], p.Monic ∧ p.natDegree = n ∧ ∀ x ∈ Icc l u, |p.eval x| ≤ 2 * ((u - l) / 4) ^ n := by
  have hul : 0 < u - l := sub_pos.2 h
  set k : ℝ := 2 * ((u - l) / 4) ^ n with hk
  have hk0 : 0 < k := by positivity
  set s : ℝ[X] := Polynomial.C (2 / (u - l)) * Polynomial.X + Polynomial.C (-(l + u) / (u - l)) with hs
  have ha : 2 / (u - l) ≠ 0 := by positivity
  have hsd : s.natDegree = 1 := Polynomial.natDegree_linear ha
  have hsl : s.leadingCoeff = 2 / (u - l) := Polynomial.leadingCoeff_linear ha
  have hT : (Polynomial.Chebyshev.T ℝ n).natDegree = n := by
    rw [Polynomial.Chebyshev.natDegree_T]; simp
  have hTl : (Polynomial.Chebyshev.T ℝ n).leadingCoeff = 2 ^ (n - 1) := by
    rw [Polynomial.Chebyshev.leadingCoeff_T]; simp
  refine ⟨Polynomial.C k * (Polynomial.Chebyshev.T ℝ n).comp s, ?_, ?_, ?_⟩
  · unfold Polynomial.Monic
    rw [Polynomial.leadingCoeff_mul, Polynomial.leadingCoeff_C, Polynomial.leadingCoeff_comp (by rw [hsd]; exact one_ne_zero), hTl, hsl, hT, hk]
    obtain ⟨m, rfl⟩ := Nat.exists_eq_succ_of_ne_zero hn
    rw [Nat.succ_sub_one, Nat.succ_eq_add_one, show 2 * ((u - l) / 4) ^ (m + 1) * (2 ^ m * (2 / (u - l)) ^ (m + 1)) = (2 * ((u - l) / 4) * (2 / (u - l))) ^ (m + 1) by rw [mul_pow, mul_pow]; ring]
    have : 2 * ((u - l) / 4) * (2 / (u - l)) = 1 := by field_simp; norm_num
    rw [this, one_pow]
  · rw [Polynomial.natDegree_C_mul hk0.ne', Polynomial.natDegree_comp, hT, hsd, mul_one]
  · intro x hx
    rw [Polynomial.eval_mul, Polynomial.eval_C, Polynomial.eval_comp, abs_mul, abs_of_pos hk0]
    have : |s.eval x| ≤ 1 := by
      simp only [hs, Polynomial.eval_add, Polynomial.eval_mul, Polynomial.eval_C, Polynomial.eval_X]
      rw [show 2 / (u - l) * x + -(l + u) / (u - l) = (2 * x - (l + u)) / (u - l) by ring, abs_div, abs_of_pos hul, div_le_one hul, abs_le]
      have := hx.1; have := hx.2
      constructor <;> linarith
    have := Polynomial.Chebyshev.abs_eval_T_real_le_one n this
    nlinarith

/-- The error of a rule that is exact up to degree `2 n - 1` with `n` points. -/
theorem gauss_error {E : (ℝ → ℝ) → ℝ} {l u : ℝ} (hlu : l < u) (hE : MeanOn E (Icc l u)) (xs ws : List ℝ) (n : ℕ) (hn : n ≠ 0) (hlen : xs.length = n) (hnd : xs.Nodup) (hin : ∀ x ∈ xs, x ∈ Icc l u)
    (hex : ∀ q : ℝ[X], q.natDegree ≤ 2 * n - 1 → ∑ j ∈ Finset.range xs.length, ws.getD j 0 * q.eval (xs.getD j 0) = E fun x => q.eval x) :
    0 ≤ spread E xs ∧ spread E xs ≤ 4 * ((u - l) / 4) ^ (2 * n) ∧
    ∀ (F : ℝ → ℝ), ContDiffOn ℝ (2 * n : ℕ) F (Icc l u) → ∀ lo hi, (∀ y ∈ Icc l u, lo ≤ iteratedDerivWithin (2 * n) F (Icc l u) y ∧ iteratedDerivWithin (2 * n) F (Icc l u) y ≤ hi) →
      lo / (2 * n).factorial * spread E xs ≤ E F - ∑ j ∈ Finset.range xs.length, ws.getD j 0 * F (xs.getD j 0) ∧
      E F - ∑ j ∈ Finset.range xs.length, ws.getD j 0 * F (xs.getD j 0) ≤ hi / (2 * n).factorial * spread E xs := by
  classical
  set S := xs.toFinset with hS
  have hcard : S.card = n := by rw [hS, List.toFinset_card_of_nodup hnd, hlen]
  have hne : S.Nonempty := Finset.card_pos.1 (by omega)
  have hmem : ∀ s ∈ S, s ∈ Icc l u := fun s hs => hin s (List.mem_toFinset.1 hs)
  have hnode : ∀ j ∈ Finset.range xs.length, xs.getD j 0 ∈ S := by
    intro j hj
    rw [getD_of_lt _ _ _ (Finset.mem_range.1 hj)]
    exact List.mem_toFinset.2 (List.getElem_mem _)
  have hprod : ∀ x, (xs.map fun t => (x - t) ^ 2).prod = (nodal S).eval x ^ 2 := by
    intro x
    rw [nodal_eval, ← Finset.prod_pow, hS, List.prod_toFinset _ hnd]
  have hsp : spread E xs = E fun x => (nodal S).eval x ^ 2 := by
    unfold spread
    simp only [hprod]
  have hcont : ∀ q : ℝ[X], ContinuousOn (fun x => q.eval x) (Icc l u) := fun q => q.differentiable.continuous.continuousOn
  have hz : ∀ s ∈ S, (nodal S).eval s = 0 := by
    intro s hs
    rw [nodal_eval]
    exact Finset.prod_eq_zero hs (sub_self s)
  refine ⟨?_, ?_, ?_⟩
  · rw [hsp]
    exact hE.nonneg _ ((hcont _).pow 2) fun x _ => sq_nonneg _
  · obtain ⟨p, p1, p2, p3⟩ := exists_chebyshev hlu n hn
    have hq : (p - nodal S).natDegree ≤ n - 1 := by
      by_cases h0 : p - nodal S = 0
      · rw [h0]; simp
      have hdeg : (p - nodal S).degree < p.degree :=
        Polynomial.degree_sub_lt_left (by rw [Polynomial.degree_eq_natDegree p1.ne_zero, Polynomial.degree_eq_natDegree (nodal_monic S).ne_zero, p2, nodal_natDegree, hcard]) p1.ne_zero (by rw [p1.leadingCoeff, (nodal_monic S).leadingCoeff])
      have := Polynomial.natDegree_lt_natDegree h0 hdeg
      omega
    have horth : E (fun x => (nodal S).eval x * (p - nodal S).eval x) = 0 := by
      have h1 := hex (nodal S * (p - nodal S)) (Polynomial.natDegree_mul_le.trans (by rw [nodal_natDegree, hcard]; omega))
      simp only [Polynomial.eval_mul] at h1
      rw [← h1]
      refine Finset.sum_eq_zero fun j hj => ?_
      rw [hz _ (hnode j hj)]; ring
    have hexp : E (fun x => p.eval x ^ 2) = E (fun x => (nodal S).eval x ^ 2) + 2 * E (fun x => (nodal S).eval x * (p - nodal S).eval x) + E (fun x => (p - nodal S).eval x ^ 2) := by
      have c1 : ContinuousOn (fun x => (nodal S).eval x ^ 2) (Icc l u) := (hcont (nodal S)).pow 2
      have c2 : ContinuousOn (fun x => (nodal S).eval x * (p - nodal S).eval x) (Icc l u) := (hcont (nodal S)).mul (hcont (p - nodal S))
      have c3 : ContinuousOn (fun x => (p - nodal S).eval x ^ 2) (Icc l u) := (hcont (p - nodal S)).pow 2
      have c4 : ContinuousOn (fun x => 2 * ((nodal S).eval x * (p - nodal S).eval x)) (Icc l u) := continuousOn_const.mul c2
      have c5 : ContinuousOn (fun x => (nodal S).eval x ^ 2 + 2 * ((nodal S).eval x * (p - nodal S).eval x)) (Icc l u) := c1.add c4
      rw [← hE.smul 2 _ c2, ← hE.add _ _ c1 c4, ← hE.add _ _ c5 c3]
      refine hE.congr _ _ fun x _ => ?_
      simp only [Polynomial.eval_sub]
      ring
    have h0 : 0 ≤ E fun x => (p - nodal S).eval x ^ 2 := hE.nonneg _ ((hcont _).pow 2) fun x _ => sq_nonneg _
    have h1 : E (fun x => p.eval x ^ 2) ≤ 4 * ((u - l) / 4) ^ (2 * n) := by
      have := hE.mono ((hcont p).pow 2) (continuousOn_const (c := 4 * ((u - l) / 4) ^ (2 * n))) fun x hx => by
        have := pow_le_pow_left₀ (abs_nonneg _) (p3 x hx) 2
        rw [sq_abs] at this
        refine this.trans (le_of_eq ?_)
        rw [mul_pow, ← pow_mul, mul_comm n 2]; norm_num
      rwa [hE.const] at this
    rw [hsp]
    linarith
  · intro F hF lo hi hb
    obtain ⟨H, k1, k2, k3⟩ := hermite_error hlu S hne hmem F (by rw [hcard]; exact hF)
    rw [hcard] at k1 k3
    have hQ : ∑ j ∈ Finset.range xs.length, ws.getD j 0 * F (xs.getD j 0) = E fun x => H.eval x := by
      rw [← hex H (by omega)]
      exact Finset.sum_congr rfl fun j hj => by rw [k2 _ (hnode j hj)]
    have hFc := hF.continuousOn
    have c1 : ContinuousOn (fun x => (nodal S).eval x ^ 2) (Icc l u) := (hcont (nodal S)).pow 2
    rw [hQ, ← hE.sub hFc (hcont H), hsp, ← hE.smul _ _ c1, ← hE.smul _ _ c1]
    have hf : (0 : ℝ) < (2 * n).factorial := by exact_mod_cast Nat.factorial_pos _
    have hd : ∀ x ∈ Icc l u, lo / (2 * n).factorial * (nodal S).eval x ^ 2 ≤ F x - H.eval x ∧ F x - H.eval x ≤ hi / (2 * n).factorial * (nodal S).eval x ^ 2 := by
      intro x hx
      obtain ⟨ξ, hξ, he⟩ := k3 x hx
      rw [he, Finset.prod_pow, ← nodal_eval]
      obtain ⟨b1, b2⟩ := hb ξ hξ
      exact ⟨mul_le_mul_of_nonneg_right (div_le_div_of_nonneg_right b1 hf.le) (sq_nonneg _), mul_le_mul_of_nonneg_right (div_le_div_of_nonneg_right b2 hf.le) (sq_nonneg _)⟩
    exact ⟨hE.mono (continuousOn_const.mul ((hcont _).pow 2)) (hFc.sub (hcont H)) fun x hx => (hd x hx).1,
      hE.mono (hFc.sub (hcont H)) (continuousOn_const.mul ((hcont _).pow 2)) fun x hx => (hd x hx).2⟩

theorem grid_one (r : LocalRule) : tensorGrid [r] = .ok (r.pts.map fun x => [x], r.wts) := by
  simp only [tensorGrid, List.foldl_cons, List.foldl_nil, EQ.Sampling.tensorStep, leftSide, rightSide, kronWeights]
  simp only [List.flatMap_cons, List.flatMap_nil, List.append_nil, List.length_cons, List.length_nil, List.replicate, List.flatten_cons,
    List.flatten_nil, Except.ok.injEq, Prod.mk.injEq]
  refine ⟨?_, ?_⟩
  · generalize r.pts = q
    induction q with
    | nil => rfl
    | cons a q ih => simpa [List.replicate_succ] using ih
  · norm_num

variable {d : ℕ}

/-- The error of the univariate rule of an input. -/
theorem local_error {P : MParam} {E : (ℝ → ℝ) → ℝ} {l u : ℝ} (hlu : l < u) (hin : Input P E l u) (o : ℕ) (ho : o ≠ 0) :
    0 ≤ spread E (P.localRule o).pts ∧ spread E (P.localRule o).pts ≤ 4 * ((u - l) / 4) ^ (2 * o + 2) ∧
    ∀ (F : ℝ → ℝ), ContDiffOn ℝ (2 * o + 2 : ℕ) F (Icc l u) →
      ∀ lo hi, (∀ y ∈ Icc l u, lo ≤ iteratedDerivWithin (2 * o + 2) F (Icc l u) y ∧ iteratedDerivWithin (2 * o + 2) F (Icc l u) y ≤ hi) →
      lo / (2 * o + 2).factorial * spread E (P.localRule o).pts ≤ E F - Stats.ruleSum (P.localRule o) F ∧
      E F - Stats.ruleSum (P.localRule o) F ≤ hi / (2 * o + 2).factorial * spread E (P.localRule o).pts := by
  have hofn : ∀ {α : Type} (a : α), List.ofFn (fun _ : Fin 1 => a) = [a] := fun a => by simp
  have hone := grid_one (P.localRule o)
  have hloc : localRules [P] [o] = [P.localRule o] := rfl
  set xs := (P.localRule o).pts with hxs
  have hlen := (localRule_length P o).1
  rw [← hxs] at hlen
  have hex : ∀ q : ℝ[X], q.natDegree ≤ 2 * (o + 1) - 1 → ∑ j ∈ Finset.range xs.length, (P.localRule o).wts.getD j 0 * q.eval (xs.getD j 0) = E fun x => q.eval x := by
    intro q hq
    have k1 := grid_poly (fun _ : Fin 1 => P) (fun _ => E) (fun _ => l) (fun _ => u) (fun _ => hin) (fun _ => o) (fun _ => ho) (Polynomial.aeval (MvPolynomial.X 0) q)
      (fun i => (degreeOf_aeval q i 0).trans (by split_ifs <;> omega))
    have k2 := range_gridSum [P] (by simp) [o] rfl _ _ (by rw [hloc]; exact hone) fun x => MvPolynomial.eval (vec 1 x) (Polynomial.aeval (MvPolynomial.X 0) q)
    simp only [hofn] at k1
    rw [k1] at k2
    simp only [eval_aeval_X] at k2
    have e3 : mE (fun _ : Fin 1 => E) (fun v => q.eval (v 0)) = E fun x => q.eval x := by
      have := prodE_eq_mE (d := 1) (fun _ => E) (fun x => q.eval (x.getD 0 0))
      simp only [hofn] at this
      have e : mE (fun _ : Fin 1 => E) (fun v => q.eval ((List.ofFn v).getD 0 0)) = prodE [E] (fun x => q.eval (x.getD 0 0)) := this.symm
      have e' : (fun v : Fin 1 → ℝ => q.eval ((List.ofFn v).getD 0 0)) = fun v => q.eval (v 0) := by funext v; simp
      rw [e'] at e
      rw [e]
      rfl
    rw [e3] at k2
    rw [← k2, List.length_map]
    refine Finset.sum_congr rfl fun j hj => ?_
    have hj' := Finset.mem_range.1 hj
    rw [getD_of_lt (xs.map _) _ _ (by simpa using hj'), getD_of_lt xs _ _ hj', List.getElem_map]
    rfl
  obtain ⟨s1, s2, s3⟩ := gauss_error hlu hin.mean xs (P.localRule o).wts (o + 1) (by omega) hlen
    ((localRule_sorted P hin.valid o).imp fun h => ne_of_lt h) (hin.pts o ho) hex
  have h22 : 2 * (o + 1) = 2 * o + 2 := by ring
  rw [h22] at s2 s3
  exact ⟨s1, s2, s3⟩

/-- The weighted sum over a grid has weights that are positive and add up to one, at points of the box. -/
theorem grid_rep (P : Fin d → MParam) (Es : Fin d → (ℝ → ℝ) → ℝ) (l u : Fin d → ℝ) (hI : ∀ i, Input (P i) (Es i) (l i) (u i)) (o : Fin d → ℕ) (ho : ∀ i, o i ≠ 0) :
    ∃ (N : ℕ) (ω : ℕ → ℝ) (v : ℕ → Fin d → ℝ), (∀ k < N, 0 ≤ ω k) ∧ ∑ k ∈ Finset.range N, ω k = 1 ∧ (∀ k < N, v k ∈ Icc l u) ∧
      ∀ F : (Fin d → ℝ) → ℝ, gridSum (localRules (List.ofFn P) (List.ofFn o)) (fun x => F (vec d x)) = ∑ k ∈ Finset.range N, ω k * F (v k) := by
  by_cases hd : d = 0
  · subst hd
    refine ⟨1, fun _ => 1, fun _ i => i.elim0, fun _ _ => zero_le_one, by simp, fun _ _ => ⟨fun i => i.elim0, fun i => i.elim0⟩, fun F => ?_⟩
    have : localRules (List.ofFn P) (List.ofFn o) = [] := by simp [localRules]
    rw [this, gridSum_nil]
    simp only [Finset.range_one, Finset.sum_singleton, one_mul]
    congr 1
    funext i
    exact i.elim0
  · have hne : List.ofFn P ≠ [] := by
      intro h; have := congrArg List.length h; simp at this; exact hd this
    have hV : ∀ Q ∈ List.ofFn P, Valid Q := by
      intro Q hQ
      obtain ⟨i, rfl⟩ := List.mem_ofFn.1 hQ
      exact (hI i).valid
    obtain ⟨pts, wts, h1, -, h3, h4, -⟩ := grid_facts (List.ofFn P) hne hV (List.ofFn o) (by simp)
    refine ⟨pts.length, fun k => wts.getD k 0, fun k => vec d (pts.getD k []), fun k hk => ?_, wts_one _ hne hV _ (by simp) pts wts h1, fun k hk => ?_, fun F => ?_⟩
    · have hk' : k < wts.length := by rw [h3]; exact hk
      show 0 ≤ wts.getD k 0
      rw [getD_of_lt _ _ _ hk']
      exact (h4 _ (List.getElem_mem _)).le
    · show vec d (pts.getD k []) ∈ _
      rw [getD_of_lt _ _ _ hk]
      exact grid_inside' hI hd o ho pts wts h1 _ (List.getElem_mem _)
    · exact (range_gridSum _ hne _ (by simp) pts wts h1 _).symm

/-- A function that has `2 oᵢ + 2` continuous derivatives in the direction `i`, the last of them between `loᵢ` and `hiᵢ`, for every `i`. -/
def SmoothBetween (l u : Fin d → ℝ) (o : Fin d → ℕ) (lo hi : Fin d → ℝ) (F : (Fin d → ℝ) → ℝ) : Prop :=
  ∀ i, ∀ v ∈ Icc l u, ContDiffOn ℝ (2 * o i + 2 : ℕ) (fun t => F (Function.update v i t)) (Icc (l i) (u i)) ∧
    ∀ y ∈ Icc (l i) (u i), lo i ≤ iteratedDerivWithin (2 * o i + 2) (fun t => F (Function.update v i t)) (Icc (l i) (u i)) y ∧
      iteratedDerivWithin (2 * o i + 2) (fun t => F (Function.update v i t)) (Icc (l i) (u i)) y ≤ hi i

theorem update_consV_succ (x : ℝ) (v : Fin d → ℝ) (i : Fin d) (t : ℝ) : Function.update (consV x v) i.succ t = consV x (Function.update v i t) := by
  funext j
  refine Fin.cases ?_ (fun j => ?_) j
  · rw [Function.update_of_ne (Fin.succ_ne_zero i).symm]; rfl
  · by_cases h : j = i
    · subst h
      rw [Function.update_self]
      show t = Function.update v j t j
      rw [Function.update_self]
    · rw [Function.update_of_ne (fun h' => h (Fin.succ_injective _ h'))]
      show v j = Function.update v i t j
      rw [Function.update_of_ne h]

theorem update_consV_zero (x : ℝ) (v : Fin d → ℝ) (t : ℝ) : Function.update (consV x v) 0 t = consV t v := by
  funext j
  refine Fin.cases ?_ (fun j => ?_) j
  · rw [Function.update_self]; rfl
  · rw [Function.update_of_ne (Fin.succ_ne_zero j)]; rfl

/-- The error of the sum over a grid. -/
theorem grid_error (P : Fin d → MParam) (Es : Fin d → (ℝ → ℝ) → ℝ) (l u : Fin d → ℝ) (hlu : ∀ i, l i < u i) (hI : ∀ i, Input (P i) (Es i) (l i) (u i)) (o : Fin d → ℕ) (ho : ∀ i, o i ≠ 0)
    (lo hi : Fin d → ℝ) (F : (Fin d → ℝ) → ℝ) (hF : ContinuousOn F (Icc l u)) (hs : SmoothBetween l u o lo hi F) :
    ∑ i, lo i / (2 * o i + 2).factorial * spread (Es i) ((P i).localRule (o i)).pts ≤ mE Es F - gridSum (localRules (List.ofFn P) (List.ofFn o)) (fun x => F (vec d x)) ∧
    mE Es F - gridSum (localRules (List.ofFn P) (List.ofFn o)) (fun x => F (vec d x)) ≤ ∑ i, hi i / (2 * o i + 2).factorial * spread (Es i) ((P i).localRule (o i)).pts := by
  induction d with
  | zero =>
    have e1 : localRules (List.ofFn P) (List.ofFn o) = [] := by simp [localRules]
    have e2 : mE Es F = F (vec 0 []) := by simp [mE, prodE]
    rw [e1, gridSum_nil, e2]
    simp
  | succ d ih =>
    obtain ⟨N, ω, v, w1, w2, w3, w4⟩ := grid_rep (tl P) (tl Es) (tl l) (tl u) (fun i => hI i.succ) (tl o) (fun i => ho i.succ)
    have hrules : localRules (List.ofFn P) (List.ofFn o) = (P 0).localRule (o 0) :: localRules (List.ofFn (tl P)) (List.ofFn (tl o)) := by
      simp [localRules, List.ofFn_succ]
    have hcx : ∀ x ∈ Icc (l 0) (u 0), ContinuousOn (fun w => F (consV x w)) (Icc (tl l) (tl u)) := fun x hx =>
      hF.comp (continuous_consV.comp (by fun_prop : Continuous fun w : Fin d → ℝ => (x, w))).continuousOn fun w hw => consV_mem hx hw
    have hcv : ∀ w ∈ Icc (tl l) (tl u), ContinuousOn (fun x => F (consV x w)) (Icc (l 0) (u 0)) := fun w hw =>
      hF.comp (continuous_consV.comp (by fun_prop : Continuous fun x : ℝ => (x, w))).continuousOn fun x hx => consV_mem hx hw
    have hE0 := (hI 0).mean
    have hEt := mE_mean (tl Es) (tl l) (tl u) fun i => (hI i.succ).mean
    -- the sum over the grid
    have hQ : gridSum (localRules (List.ofFn P) (List.ofFn o)) (fun x => F (vec (d + 1) x)) = Stats.ruleSum ((P 0).localRule (o 0)) fun x => ∑ k ∈ Finset.range N, ω k * F (consV x (v k)) := by
      rw [hrules, gridSum_cons]
      congr 1
      funext x
      rw [← w4 fun w => F (consV x w)]
      simp only [vec_cons]
    have hgc : ContinuousOn (fun x => ∑ k ∈ Finset.range N, ω k * F (consV x (v k))) (Icc (l 0) (u 0)) :=
      continuousOn_finsetSum _ fun k hk => continuousOn_const.mul (hcv _ (w3 k (Finset.mem_range.1 hk)))
    have hmc : ContinuousOn (fun x => mE (tl Es) fun w => F (consV x w)) (Icc (l 0) (u 0)) :=
      hEt.continuousOn isCompact_Icc isCompact_Icc (G := fun p => F (consV p.2 p.1))
        (hF.comp (continuous_consV.comp (by fun_prop : Continuous fun p : (Fin d → ℝ) × ℝ => (p.2, p.1))).continuousOn fun p hp => consV_mem hp.2 hp.1)
    have hsplit : mE Es F - gridSum (localRules (List.ofFn P) (List.ofFn o)) (fun x => F (vec (d + 1) x)) =
        Es 0 (fun x => mE (tl Es) (fun w => F (consV x w)) - ∑ k ∈ Finset.range N, ω k * F (consV x (v k))) +
        ∑ k ∈ Finset.range N, ω k * (Es 0 (fun x => F (consV x (v k))) - Stats.ruleSum ((P 0).localRule (o 0)) fun x => F (consV x (v k))) := by
      rw [hQ, mE_succ, hE0.sub hmc hgc, hE0.finsetSum (Finset.range N) (fun k x => ω k * F (consV x (v k))) fun k hk => continuousOn_const.mul (hcv _ (w3 k (Finset.mem_range.1 hk)))]
      have e1 : ∑ k ∈ Finset.range N, Es 0 (fun x => ω k * F (consV x (v k))) = ∑ k ∈ Finset.range N, ω k * Es 0 fun x => F (consV x (v k)) :=
        Finset.sum_congr rfl fun k hk => hE0.smul _ _ (hcv _ (w3 k (Finset.mem_range.1 hk)))
      have e2 : Stats.ruleSum ((P 0).localRule (o 0)) (fun x => ∑ k ∈ Finset.range N, ω k * F (consV x (v k))) = ∑ k ∈ Finset.range N, ω k * Stats.ruleSum ((P 0).localRule (o 0)) fun x => F (consV x (v k)) := by
        unfold Stats.ruleSum
        simp only [Finset.mul_sum]
        rw [Finset.sum_comm]
        exact Finset.sum_congr rfl fun k _ => Finset.sum_congr rfl fun c _ => by ring
      rw [e1, e2]
      simp only [mul_sub, Finset.sum_sub_distrib]
      ring
    have hfirst : ∀ x ∈ Icc (l 0) (u 0), ∑ i : Fin d, lo i.succ / (2 * o i.succ + 2).factorial * spread (Es i.succ) ((P i.succ).localRule (o i.succ)).pts ≤
          mE (tl Es) (fun w => F (consV x w)) - ∑ k ∈ Finset.range N, ω k * F (consV x (v k)) ∧
        mE (tl Es) (fun w => F (consV x w)) - ∑ k ∈ Finset.range N, ω k * F (consV x (v k)) ≤
          ∑ i : Fin d, hi i.succ / (2 * o i.succ + 2).factorial * spread (Es i.succ) ((P i.succ).localRule (o i.succ)).pts := by
      intro x hx
      have := ih (tl P) (tl Es) (tl l) (tl u) (fun i => hlu i.succ) (fun i => hI i.succ) (tl o) (fun i => ho i.succ) (tl lo) (tl hi) (fun w => F (consV x w)) (hcx x hx) (by
        intro i w hw
        have := hs i.succ (consV x w) (consV_mem hx hw)
        simp only [update_consV_succ] at this
        exact this)
      rw [w4 fun w => F (consV x w)] at this
      exact this
    have hsecond : ∀ k ∈ Finset.range N, lo 0 / (2 * o 0 + 2).factorial * spread (Es 0) ((P 0).localRule (o 0)).pts ≤
          Es 0 (fun x => F (consV x (v k))) - Stats.ruleSum ((P 0).localRule (o 0)) (fun x => F (consV x (v k))) ∧
        Es 0 (fun x => F (consV x (v k))) - Stats.ruleSum ((P 0).localRule (o 0)) (fun x => F (consV x (v k))) ≤ hi 0 / (2 * o 0 + 2).factorial * spread (Es 0) ((P 0).localRule (o 0)).pts := by
      intro k hk
      have hv := w3 k (Finset.mem_range.1 hk)
      have := hs 0 (consV (l 0) (v k)) (consV_mem ⟨le_rfl, (hlu 0).le⟩ hv)
      simp only [update_consV_zero] at this
      exact (local_error (hlu 0) (hI 0) (o 0) (ho 0)).2.2 _ this.1 _ _ this.2
    have havg : ∀ a : ℝ, ∑ k ∈ Finset.range N, ω k * a = a := fun a => by rw [← Finset.sum_mul, w2, one_mul]
    rw [hsplit, Fin.sum_univ_succ, Fin.sum_univ_succ]
    constructor
    · have h1 := hE0.mono continuousOn_const (hmc.sub hgc) fun x hx => (hfirst x hx).1
      rw [hE0.const] at h1
      have h2 := Finset.sum_le_sum fun k hk => mul_le_mul_of_nonneg_left (hsecond k hk).1 (w1 k (Finset.mem_range.1 hk))
      rw [havg] at h2
      rw [add_comm]
      exact add_le_add h1 h2
    · have h1 := hE0.mono (hmc.sub hgc) continuousOn_const fun x hx => (hfirst x hx).2
      rw [hE0.const] at h1
      have h2 := Finset.sum_le_sum fun k hk => mul_le_mul_of_nonneg_left (hsecond k hk).2 (w1 k (Finset.mem_range.1 hk))
      rw [havg] at h2
      rw [add_comm]
      exact add_le_add h2 h1

/-! ## Properties -/

/-- **C213.** One Beta-type input on `[l, u]`, order `o` of at least one, numerical integration, and a model `F` with `2 o + 2` continuous derivatives, the last of which lies between `lo` and `hi`.
The error of the mean reported lies between `lo` and `hi` times `h / (2 o + 2)!`, where `h` is the mean of `∏ (x - xⱼ)²` over the quadrature points and at most `4 ((u - l) / 4) ^ (2 o + 2)`. In
particular the mean reported is too small if the derivative is positive, and too large if it is negative. -/
theorem c213_error (P : MParam) (A B l u : ℝ) (hI : BetaInput P A B l u) (o : ℕ) (ho : o ≠ 0)
    (r : Request) (hr : lower r.name ∈ ["univariate".toList, "tensor-grid".toList, "tensor".toList]) (hro : r.orders = [o]) (F : ℝ → ℝ) (hF : ContDiffOn ℝ (2 * o + 2 : ℕ) F (Icc l u)) :
    ∃ (els : List (List ℕ)) (pts : List (List ℝ)) (wts c : List ℝ) (m h : ℝ), r.setOrders = .ok els ∧ tensorGrid (localRules [P] r.orders) = .ok (pts, wts) ∧
      Expansion.integrate ⟨[P], els, none⟩ pts wts (pts.map fun x => F (x.getD 0 0)) = .ok c ∧ mean c = .ok m ∧
      h = spread (betaE A B l u) (pts.map fun x => x.getD 0 0) ∧ 0 ≤ h ∧ h ≤ 4 * ((u - l) / 4) ^ (2 * o + 2) ∧
      ∀ lo hi, (∀ y ∈ Icc l u, lo ≤ iteratedDerivWithin (2 * o + 2) F (Icc l u) y ∧ iteratedDerivWithin (2 * o + 2) F (Icc l u) y ≤ hi) →
        lo / (2 * o + 2).factorial * h ≤ betaE A B l u F - m ∧ betaE A B l u F - m ≤ hi / (2 * o + 2).factorial * h := by
  have hin := beta_input hI.shapeA hI.shapeB hI.range hI.valid hI.recurrence
  obtain ⟨els, h1, hB, hnd, hz, h2, hbox, -⟩ := one_index P o ho r hr hro
  have hofn : ∀ {α : Type} (a : α), List.ofFn (fun _ : Fin 1 => a) = [a] := fun a => by simp
  simp only [hofn] at hB hbox
  obtain ⟨pts, wts, g1, hst⟩ := c166_moments ⟨[P], els, none⟩ hB rfl (by simp) (by simpa using hI.valid) [o] rfl hbox hnd hz h2
  obtain ⟨c, -, m, -, hc, -, hmc, -, hms, -⟩ := hst (pts.map fun x => F (x.getD 0 0)) (by simp)
  have hone := grid_one (P.localRule o)
  have hloc : localRules [P] [o] = [P.localRule o] := rfl
  rw [hloc, hone] at g1
  obtain ⟨rfl, rfl⟩ := Prod.mk.inj (Except.ok.inj g1)
  set xs := (P.localRule o).pts with hxs
  have hmap : (xs.map fun x => [x]).map (fun x => x.getD 0 0) = xs := by rw [List.map_map]; simp [Function.comp_def]
  obtain ⟨s1, s2, s3⟩ := local_error hI.range hin o ho
  have hm : m = ∑ j ∈ Finset.range xs.length, (P.localRule o).wts.getD j 0 * F (xs.getD j 0) := by
    rw [hms, List.length_map]
    refine Finset.sum_congr rfl fun j hj => ?_
    have hj' := Finset.mem_range.1 hj
    rw [getD_of_lt (List.map _ _) _ _ (by simpa using hj'), List.getElem_map, List.getElem_map, getD_of_lt xs _ _ hj']
    rfl
  refine ⟨els, _, _, c, m, spread (betaE A B l u) xs, h1, by rw [hro, hloc]; exact hone, hc, hmc, by rw [hmap], s1, s2, fun lo hi hb => ?_⟩
  rw [hm]
  exact s3 F hF lo hi hb

/-- **C213, several inputs.** Numerical integration on the tensor grid with any index set of different rows inside the orders that starts with the constant, and a continuous model that has
`2 oᵢ + 2` continuous derivatives in each input, the last of them between `loᵢ` and `hiᵢ`: the error of the mean reported lies between the sums of `loᵢ hᵢ / (2 oᵢ + 2)!` and of
`hiᵢ hᵢ / (2 oᵢ + 2)!`, with `hᵢ` as in the case of one input. -/
theorem c213_inputs (hd : d ≠ 0) (P : Fin d → MParam) (A B l u : Fin d → ℝ) (hI : ∀ i, BetaInput (P i) (A i) (B i) (l i) (u i)) (o : Fin d → ℕ) (ho : ∀ i, o i ≠ 0)
    (els : List (List ℕ)) (hB : Regular ⟨List.ofFn P, els, none⟩) (hnd : els.Nodup) (hz : els.head? = some (List.replicate d 0)) (h2 : 2 ≤ els.length)
    (hbox : ∀ row ∈ els, List.Forall₂ (· ≤ ·) row (List.ofFn o)) (f : List ℝ → ℝ) (hf : ContinuousOn (fun v => f (List.ofFn v)) (Icc l u)) (lo hi : Fin d → ℝ)
    (hs : SmoothBetween l u o lo hi fun v => f (List.ofFn v)) :
    ∃ (pts : List (List ℝ)) (wts c : List ℝ) (m : ℝ) (h : Fin d → ℝ), tensorGrid (localRules (List.ofFn P) (List.ofFn o)) = .ok (pts, wts) ∧
      Expansion.integrate ⟨List.ofFn P, els, none⟩ pts wts (pts.map f) = .ok c ∧ mean c = .ok m ∧
      (∀ i, h i = spread (betaE (A i) (B i) (l i) (u i)) ((P i).localRule (o i)).pts ∧ 0 ≤ h i ∧ h i ≤ 4 * ((u i - l i) / 4) ^ (2 * o i + 2)) ∧
      ∑ i, lo i / (2 * o i + 2).factorial * h i ≤ prodE (List.ofFn fun i => betaE (A i) (B i) (l i) (u i)) f - m ∧
      prodE (List.ofFn fun i => betaE (A i) (B i) (l i) (u i)) f - m ≤ ∑ i, hi i / (2 * o i + 2).factorial * h i := by
  set Es : Fin d → (ℝ → ℝ) → ℝ := fun i => betaE (A i) (B i) (l i) (u i) with hEs
  have hin : ∀ i, Input (P i) (Es i) (l i) (u i) := fun i => beta_input (hI i).shapeA (hI i).shapeB (hI i).range (hI i).valid (hI i).recurrence
  have hdl : (Expansion.mk (List.ofFn P) els none).dims = d := by simp [Expansion.dims]
  have hne : List.ofFn P ≠ [] := by
    intro h; have := congrArg List.length h; simp at this; exact hd this
  have hV : ∀ Q ∈ List.ofFn P, Valid Q := by
    intro Q hQ
    obtain ⟨i, rfl⟩ := List.mem_ofFn.1 hQ
    exact (hI i).valid
  obtain ⟨pts, wts, h1, hst⟩ := c166_moments ⟨List.ofFn P, els, none⟩ hB rfl hne hV (List.ofFn o) (by simp [Expansion.dims]) hbox hnd (by rw [hdl]; exact hz) h2
  obtain ⟨c, -, m, -, hc, -, hmc, -, hms, -⟩ := hst (pts.map f) (by simp)
  have hm : m = gridSum (localRules (List.ofFn P) (List.ofFn o)) (fun x => f (List.ofFn (vec d x))) := by
    rw [gridSum_congr _ _ f fun x hx => by rw [ofFn_vec x (by simpa [localRules] using hx)], ← range_gridSum _ hne _ (by simp) pts wts h1 f, hms]
    refine Finset.sum_congr rfl fun j hj => ?_
    have hj' := Finset.mem_range.1 hj
    rw [getD_map_lt f pts 0 j hj', getD_of_lt _ _ _ hj']
  refine ⟨pts, wts, c, m, fun i => spread (Es i) ((P i).localRule (o i)).pts, h1, hc, hmc, fun i => ?_, ?_⟩
  · obtain ⟨s1, s2, -⟩ := local_error (hI i).range (hin i) (o i) (ho i)
    exact ⟨rfl, s1, s2⟩
  · rw [prodE_eq_mE, hm]
    exact grid_error P Es l u (fun i => (hI i).range) hin o ho lo hi (fun v => f (List.ofFn v)) hf hs

/-- A uniform input on `[-1, 1]` with order 5 and the model `exp`: the mean reported is at most the mean of the model, and the difference is below `10 ^ (-10)`. -/
example : ∃ (P : MParam) (els : List (List ℕ)) (pts : List (List ℝ)) (wts c : List ℝ) (m : ℝ), BetaInput P 1 1 (-1) 1 ∧
    (Request.setOrders ⟨"univariate".toList, [5], 1, .linear, 1⟩) = .ok els ∧ tensorGrid (localRules [P] [5]) = .ok (pts, wts) ∧
    Expansion.integrate ⟨[P], els, none⟩ pts wts (pts.map fun x => Real.exp (x.getD 0 0)) = .ok c ∧ mean c = .ok m ∧
    0 ≤ betaE 1 1 (-1) 1 Real.exp - m ∧ betaE 1 1 (-1) 1 Real.exp - m ≤ 1 / 10 ^ 10 := by
  obtain ⟨P, hP⟩ := uniform_input
  obtain ⟨els, pts, wts, c, m, h, h1, h2, h3, h4, -, h6, h7, h8⟩ := c213_error P 1 1 (-1) 1 hP 5 (by norm_num) ⟨"univariate".toList, [5], 1, .linear, 1⟩ (by decide) rfl Real.exp
    Real.contDiff_exp.contDiffOn
  obtain ⟨k1, k2⟩ := h8 0 3 fun y hy => by
    rw [iteratedDerivWithin_eq_iteratedDeriv (uniqueDiffOn_Icc (by norm_num)) Real.contDiff_exp.contDiffAt hy, iteratedDeriv_eq_iterate, Real.iter_deriv_exp]
    have h1 := Real.exp_one_lt_d9
    have h2 : Real.exp y ≤ Real.exp 1 := Real.exp_le_exp.2 hy.2
    exact ⟨(Real.exp_pos y).le, by linarith⟩
  refine ⟨P, els, pts, wts, c, m, hP, h1, h2, h3, h4, by simpa using k1, k2.trans ?_⟩
  have : (3 : ℝ) / (2 * 5 + 2).factorial * h ≤ 3 / (2 * 5 + 2).factorial * (4 * ((1 - (-1)) / 4) ^ (2 * 5 + 2)) := mul_le_mul_of_nonneg_left h7 (by positivity)
  refine this.trans ?_
  norm_num [Nat.factorial]

/-- Two uniform inputs on `[-1, 1]`, order 1 for both, and the model `exp (x + y)`: the hypotheses of the case of several inputs are met with the bounds 0 and 9. -/
example : SmoothBetween (fun _ : Fin 2 => (-1 : ℝ)) (fun _ => 1) (fun _ => 1) (fun _ => 0) (fun _ => 9) (fun v => Real.exp (v 0 + v 1)) ∧
    ContinuousOn (fun v : Fin 2 → ℝ => Real.exp (v 0 + v 1)) (Icc (fun _ => -1) fun _ => 1) := by
  refine ⟨fun i v hv => ?_, Continuous.continuousOn (by fun_prop)⟩
  have e : ∃ b : ℝ, b ≤ 1 ∧ (fun t => Real.exp (Function.update v i t 0 + Function.update v i t 1)) = fun t => Real.exp b * Real.exp t := by
    fin_cases i
    · refine ⟨v 1, hv.2 1, ?_⟩
      funext t
      rw [← Real.exp_add]
      simp [add_comm]
    · refine ⟨v 0, hv.2 0, ?_⟩
      funext t
      rw [← Real.exp_add]
      simp
  obtain ⟨b, hb, e⟩ := e
  rw [e]
  have hcd : ContDiff ℝ (2 * 1 + 2 : ℕ) fun t => Real.exp b * Real.exp t := contDiff_const.mul Real.contDiff_exp
  refine ⟨hcd.contDiffOn, fun y hy => ?_⟩
  rw [iteratedDerivWithin_eq_iteratedDeriv (uniqueDiffOn_Icc (by norm_num)) hcd.contDiffAt hy, iteratedDeriv_const_mul_field, iteratedDeriv_eq_iterate, Real.iter_deriv_exp]
  have h1 := Real.exp_one_lt_d9
  have h2 : Real.exp y ≤ Real.exp 1 := Real.exp_le_exp.2 hy.2
  have h3 : Real.exp b ≤ Real.exp 1 := Real.exp_le_exp.2 hb
  have h4 := Real.exp_pos y
  have h5 := Real.exp_pos b
  exact ⟨by positivity, by nlinarith⟩

end EQ.Stats
