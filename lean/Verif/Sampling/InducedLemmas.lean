import Verif.Sampling.InducedStep
import Verif.Sampling.Markov
import Verif.Param.Props
import Verif.Sampling.InducedSpec

/-!
# Helper lemmas: rules and distribution functions of the induced sampler
-/

namespace EQ.Sampling
open EQ.Param EQ.Basis EQ.ParamSpec Polynomial intervalIntegral

/-- What the calls outside the library do. `eigh` and `argsort` are documented; `brentq(f, a, b, xtol=0.00005)` returns a point
of the interval within the tolerance of a root of a continuous function with a sign change, and raises `ValueError` if the
values at the ends have the same sign. -/
structure Outside.Contract (O : Outside) : Prop where
  eigh : ∀ n J, J.transpose = J → EighContract J (O.eigh n J).1 (O.eigh n J).2
  argsort : ∀ n D, ArgsortContract D (O.argsort n D)
  brentq : ∀ (f : ℝ → Except Err ℝ) (g : ℝ → ℝ) (a b : ℝ), a ≤ b → (∀ x, a ≤ x → x ≤ b → f x = .ok (g x)) →
    ContinuousOn g (Set.Icc a b) →
    (g a ≤ 0 → 0 ≤ g b → ∃ r z, O.brentq f a b = .ok r ∧ a ≤ r ∧ r ≤ b ∧ a ≤ z ∧ z ≤ b ∧ g z = 0 ∧
      |r - z| ≤ 0.00005 + 1 / 2 ^ 50 * |r|) ∧
    (0 < g a * g b → O.brentq f a b = .error .valueError)

section
variable {l u : ℝ}

theorem unif_good (hlu : l < u) : Good (jtab 0 0 l u) (betaL one_pos one_pos hlu) := by
  have h := fun m => beta_orth (A := 1) (B := 1) one_pos one_pos hlu m
  have hp := fun k hk => beta_tab_pos (A := 1) (B := 1) one_pos one_pos hlu k hk
  rw [sub_self] at h hp
  exact ⟨by simp [jtab, jacobiRow]; norm_num, hp, h⟩

theorem unif_apply (hlu : l < u) (f : ℝ[X]) : betaL one_pos one_pos hlu f = uniformE l u fun x => f.eval x := by
  rw [betaL_apply, uniformE_eq_betaE]

theorem coeffs_agree (n : ℕ) : (jacobiCoeffs 0 0 l u n).length = n + 1 ∧ Agree (jacobiCoeffs 0 0 l u n) (jtab 0 0 l u) := by
  have hl : (jacobiCoeffs 0 0 l u n).length = n + 1 := by simp [jacobiCoeffs]
  refine ⟨hl, fun k hk => ?_⟩
  rw [hl] at hk
  exact rows_jacobiCoeffs _ _ _ _ _ _ (by omega)

end

/-- A rule as good as that of Gauss. -/
structure GaussLike {n : ℕ} (R : Rule (n + 1)) (L : ℝ[X] →ₗ[ℝ] ℝ) : Prop where
  mono : StrictMono R.p
  nonneg : ∀ i, 0 ≤ R.w i
  exact : ∀ f : ℝ[X], f.natDegree ≤ 2 * n + 1 → ∑ i, R.w i * f.eval (R.p i) = L f
  inside : ∀ g : ℝ[X], g.natDegree ≤ 1 → (∀ q : ℝ[X], q ≠ 0 → 0 < L (g * (q * q))) → ∀ i, 0 < g.eval (R.p i)

theorem gaussLike_of {T : Table} {L : ℝ[X] →ₗ[ℝ] ℝ} (G : Good T L) (n : ℕ) (D : Fin (n + 1) → ℝ)
    (V : Matrix (Fin (n + 1)) (Fin (n + 1)) ℝ) (hE : EighContract (jacobiMatrix T (n + 1)) D V)
    (σ : Equiv.Perm (Fin (n + 1))) (hσ : ArgsortContract D σ) :
    GaussLike (quadratureOfEigh T D V σ) L := by
  have R := rule_eq T n (fun k h _ => G.pos k h) D V hE σ hσ
  have F := gaussFacts T n (fun k h _ => G.pos k h) D V hE
  have hp : (quadratureOfEigh T D V σ).p = D := funext fun i => (R i).1
  have hw : ∀ i, (quadratureOfEigh T D V σ).w i = 1 * (V 0 i) ^ 2 := fun i => by rw [(R i).2, G.unit]
  have hL : ∀ i j, i ≤ n → j ≤ n + 1 → L (opoly T i * opoly T j) = if i = j then 1 else 0 :=
    fun i j hi hj => G.orth (n + 1) i j (by omega) hj
  refine ⟨by rw [hp]; exact F.strict, fun i => by rw [hw]; positivity, ?_, ?_⟩
  · intro f hf
    simp only [hw, hp]
    exact gauss_exact T n (fun k h _ => G.pos k h) D V hE 1 L hL f hf
  · intro g hg hpos i
    rw [hp]
    exact node_sign T n (fun k h _ => G.pos k h) D V hE 1 one_pos L hL g hg hpos i

theorem quadratureOfEigh_congr {n : ℕ} {S T : Table} (h : S 0 = T 0) (D : Fin (n + 1) → ℝ)
    (V : Matrix (Fin (n + 1)) (Fin (n + 1)) ℝ) (σ : Equiv.Perm (Fin (n + 1))) :
    quadratureOfEigh S D V σ = quadratureOfEigh T D V σ := by
  simp only [quadratureOfEigh, h]

variable {O : Outside} (hO : O.Contract)
include hO

theorem ruleOf_ok {T : Table} {L : ℝ[X] →ₗ[ℝ] ℝ} (G : Good T L) {t : List (ℝ × ℝ)} (ha : Agree t T) (n : ℕ)
    (hn : n + 2 ≤ t.length) : ∃ R, ruleOf O t n = .ok R ∧ GaussLike R L := by
  unfold ruleOf
  rw [if_neg (by omega)]
  refine ⟨_, rfl, ?_⟩
  have hJ : jacobiMatrix (rows t) (n + 2) = jacobiMatrix T (n + 2) := jacobiMatrix_congr _ _ _ fun k hk => ha k (by omega)
  rw [quadratureOfEigh_congr (ha 0 (by omega)), hJ]
  exact gaussLike_of G (n + 1) _ _ (hO.eigh _ _ (jacobiMatrix_symm _ _)) _ (hO.argsort _ _)

theorem copyRule_ok {l u : ℝ} (hlu : l < u) (n : ℕ) : GaussLike (copyRule O l u (n + 1)) (betaL one_pos one_pos hlu) := by
  unfold copyRule
  have hJ : jacobiMatrix (rows (jacobiCoeffs 0 0 l u (n + 2))) (n + 2) = jacobiMatrix (jtab 0 0 l u) (n + 2) :=
    jacobiMatrix_congr _ _ _ fun k hk => (coeffs_agree _).2 k (by rw [(coeffs_agree _).1]; omega)
  simp only
  rw [hJ, quadratureOfEigh_congr ((coeffs_agree (n + 3)).2 0 (by rw [(coeffs_agree _).1]; omega))]
  exact gaussLike_of (unif_good hlu) (n + 1) _ _ (hO.eigh _ _ (jacobiMatrix_symm _ _)) _ (hO.argsort _ _)

/-- The zeroes are those of the monic polynomial. -/
theorem zeroes_ok (n : ℕ) : (zeroesOf O (-1) 1 n).length = n ∧
    ((zeroesOf O (-1) 1 n).map fun z => (X - C z : ℝ[X])).prod = mpoly (jtab 0 0 (-1) 1) n := by
  match n with
  | 0 => simp [zeroesOf, mpoly]
  | 1 =>
    have h0 : (onePointRule (some (-1)) (some 1) 0).1 = 0 := by
      unfold onePointRule
      simp [falsy]
      norm_num
    have ha : (jtab 0 0 (-1) 1 0).1 = 0 := by simp [jtab, jacobiRow]
    simp [zeroesOf, copyRule, h0, mpoly, ha]
  | n + 2 =>
    refine ⟨by simp [zeroesOf], ?_⟩
    have hJ : jacobiMatrix (rows (jacobiCoeffs 0 0 (-1) 1 (n + 2))) (n + 2) = jacobiMatrix (jtab 0 0 (-1) 1) (n + 2) :=
      jacobiMatrix_congr _ _ _ fun k hk => (coeffs_agree _).2 k (by rw [(coeffs_agree _).1]; omega)
    have hE := hO.eigh _ _ (jacobiMatrix_symm (jtab 0 0 (-1) 1) (n + 2))
    have hp := (unif_good (l := -1) (u := 1) (by norm_num)).pos
    have R := rule_eq (jtab 0 0 (-1) 1) (n + 1) (fun k h _ => hp k h) _ _ hE _ (hO.argsort _ _)
    rw [mpoly_eq_prod (jtab 0 0 (-1) 1) (n + 1) (fun k h _ => hp k h) _ _ hE]
    unfold zeroesOf copyRule
    rw [List.map_ofFn, List.prod_ofFn]
    refine Finset.prod_congr rfl fun k _ => ?_
    simp only [Function.comp]
    rw [hJ, quadratureOfEigh_congr ((coeffs_agree (n + 3)).2 0 (by rw [(coeffs_agree _).1]; omega)), (R k).1]

theorem sqProd_zeroes (n : ℕ) : sqProd (zeroesOf O (-1) 1 n) = mpoly (jtab 0 0 (-1) 1) n * mpoly (jtab 0 0 (-1) 1) n := by
  rw [← (zeroes_ok hO n).2, sqProd, ← List.prod_map_mul]
  simp only [sq]

omit hO in
theorem nrm_prod (T : Table) : ∀ n, ((List.range (n + 1)).map fun k => Real.log (T k).2).sum = Real.log (T 0).2 +
    ((List.range n).map fun k => Real.log (T (k + 1)).2).sum
  | 0 => by simp
  | n + 1 => by
    rw [List.range_succ, List.map_append, List.sum_append, nrm_prod T n, List.range_succ, List.map_append, List.sum_append]
    simp; ring

omit hO in
theorem kn_pow (n : ℕ) (hn : 0 < n) : 0 < knFactor (-1) 1 n ∧ knFactor (-1) 1 n ^ n = (nrm (jtab 0 0 (-1) 1) n)⁻¹ := by
  have G := unif_good (l := -1) (u := 1) (by norm_num)
  have e : knFactor (-1) 1 n = Real.exp (-1.0 / n * ((jacobiCoeffs 0 0 (-1) 1 n).map fun p => Real.log p.2).sum) := by
    rw [knFactor, if_neg (by omega)]
  refine ⟨by rw [e]; exact Real.exp_pos _, ?_⟩
  have hs : ((jacobiCoeffs 0 0 (-1) 1 n).map fun p => Real.log p.2).sum = Real.log (nrm (jtab 0 0 (-1) 1) n) := by
    unfold jacobiCoeffs
    rw [List.map_map]
    have h1 := nrm_prod (jtab 0 0 (-1) 1) n
    have h2 : ∀ m, ((List.range m).map fun k => Real.log (jtab 0 0 (-1) 1 (k + 1)).2).sum =
        Real.log (nrm (jtab 0 0 (-1) 1) m) := by
      intro m
      induction m with
      | zero => simp [nrm]
      | succ m ih =>
        rw [List.range_succ, List.map_append, List.sum_append, ih, nrm,
          Real.log_mul (G.pos _ (by omega)).ne' (nrm_pos _ G.pos m).ne']
        simp; ring
    rw [h2, G.unit, Real.log_one, zero_add] at h1
    exact h1
  rw [e, hs, ← Real.exp_nat_mul]
  have hn' : (n : ℝ) ≠ 0 := by positivity
  have : (n : ℝ) * (-1.0 / n * Real.log (nrm (jtab 0 0 (-1) 1) n)) = -Real.log (nrm (jtab 0 0 (-1) 1) n) := by
    norm_num; field_simp
  rw [this, Real.exp_neg, Real.exp_log (nrm_pos _ G.pos n)]

/-! ## The orthonormal polynomial -/

section
open Spec

omit hO

theorem uniform_expand (f : ℝ → ℝ) : uniformE (-1) 1 f = ∫ t in (-1 : ℝ)..1, f t / 2 := by
  rw [uniformE, integral_div]
  norm_num
  ring

theorem L0_apply (f : ℝ[X]) : betaL one_pos one_pos (by norm_num : (-1 : ℝ) < 1) f = ∫ t in (-1 : ℝ)..1, f.eval t / 2 := by
  rw [unif_apply, uniform_expand]

/-- The square of an orthonormal polynomial is determined. -/
theorem orthonormal_sq {n : ℕ} {P : ℝ[X]} (h : Orthonormal n P) :
    P * P = C (nrm (jtab 0 0 (-1) 1) n)⁻¹ * (mpoly (jtab 0 0 (-1) 1) n * mpoly (jtab 0 0 (-1) 1) n) := by
  have hlu : (-1 : ℝ) < 1 := by norm_num
  have G := unif_good hlu
  set T := jtab 0 0 (-1) 1 with hT
  set L := betaL one_pos one_pos hlu with hL
  obtain ⟨hm, hd⟩ := mpoly_monic T n
  have hN := nrm_pos _ G.pos n
  have hPo : ∀ Q : ℝ[X], Q.natDegree < n → L (P * Q) = 0 := by
    intro Q hQ
    rw [hL, unif_apply]
    simpa only [eval_mul] using h.orth Q hQ
  have hPn : L (P * P) = 1 := by
    rw [hL, unif_apply]
    simpa only [eval_mul, sq] using h.norm
  have hP : P = C P.leadingCoeff * mpoly T n := by
    rcases Nat.eq_zero_or_pos n with h0 | h0
    · have : P.natDegree = 0 := by rw [h.degree, h0]
      have hc := eq_C_of_natDegree_eq_zero this
      have e : mpoly T n = 1 := by rw [h0]; rfl
      rw [e, mul_one, leadingCoeff, this]
      exact hc
    · by_contra hc
      have hne : P - C P.leadingCoeff * mpoly T n ≠ 0 := sub_ne_zero.2 hc
      have hdeg : (P - C P.leadingCoeff * mpoly T n).natDegree < n := by
        have hPn0 : P ≠ 0 := by rintro rfl; simp at hPn
        have h1 : (C P.leadingCoeff * mpoly T n).degree = P.degree := by
          rw [degree_C_mul (leadingCoeff_ne_zero.2 hPn0), degree_eq_natDegree hm.ne_zero, degree_eq_natDegree hPn0, hd,
            h.degree]
        have h2 := degree_sub_lt h1.symm hPn0 (by rw [leadingCoeff_mul, leadingCoeff_C, hm.leadingCoeff, mul_one])
        have h3 := natDegree_lt_natDegree hne h2
        rwa [h.degree] at h3
      have hz : L ((P - C P.leadingCoeff * mpoly T n) * (P - C P.leadingCoeff * mpoly T n)) = 0 := by
        have e : (P - C P.leadingCoeff * mpoly T n) * (P - C P.leadingCoeff * mpoly T n) =
            P * (P - C P.leadingCoeff * mpoly T n) - P.leadingCoeff • (mpoly T n * (P - C P.leadingCoeff * mpoly T n)) := by
          rw [smul_eq_C_mul]; ring
        rw [e, map_sub, map_smul, hPo _ hdeg, G.low n _ hdeg, smul_zero, sub_zero]
      have := beta_sq_pos one_pos one_pos hlu _ hne
      exact this.ne' hz
  have hc : P.leadingCoeff * P.leadingCoeff * nrm T n = 1 := by
    have e : P * P = (P.leadingCoeff * P.leadingCoeff) • (mpoly T n * mpoly T n) := by
      rw [smul_eq_C_mul, C_mul]
      conv_lhs => rw [hP]
      ring
    rw [e, map_smul, G.sq n, smul_eq_mul] at hPn
    exact hPn
  have hc' : (nrm T n)⁻¹ = P.leadingCoeff * P.leadingCoeff := by
    rw [inv_eq_one_div, div_eq_iff hN.ne']; linarith
  rw [hc', C_mul]
  conv_lhs => rw [hP]
  ring

theorem orthonormal_exists (n : ℕ) : ∃ P, Orthonormal n P := by
  have hlu : (-1 : ℝ) < 1 := by norm_num
  have G := unif_good hlu
  obtain ⟨hm, hd⟩ := mpoly_monic (jtab 0 0 (-1) 1) n
  have hN := nrm_pos _ G.pos n
  have hs : 0 < √(nrm (jtab 0 0 (-1) 1) n) := Real.sqrt_pos.2 hN
  refine ⟨C (√(nrm (jtab 0 0 (-1) 1) n))⁻¹ * mpoly (jtab 0 0 (-1) 1) n, ?_, ?_, ?_⟩
  · rw [natDegree_C_mul (by positivity), hd]
  · intro Q hQ
    have := G.low n Q hQ
    rw [unif_apply] at this
    have h2 := congrArg (fun y => (√(nrm (jtab 0 0 (-1) 1) n))⁻¹ * y) this
    simp only [mul_zero, uniform_expand, ← integral_const_mul] at h2
    rw [uniform_expand]
    refine Eq.trans ?_ h2
    refine integral_congr fun x _ => ?_
    simp only [eval_mul, eval_C]
    ring
  · have := G.sq n
    rw [unif_apply] at this
    have h2 := congrArg (fun y => (nrm (jtab 0 0 (-1) 1) n)⁻¹ * y) this
    simp only [inv_mul_cancel₀ hN.ne', uniform_expand, ← integral_const_mul] at h2
    rw [uniform_expand]
    refine Eq.trans ?_ h2
    refine integral_congr fun x _ => ?_
    have h4 : (√(nrm (jtab 0 0 (-1) 1) n))⁻¹ ^ 2 = (nrm (jtab 0 0 (-1) 1) n)⁻¹ := by rw [inv_pow, Real.sq_sqrt hN.le]
    simp only [eval_mul, eval_C]
    rw [mul_pow, h4]
    ring

theorem orthonormal_neg {n : ℕ} {P : ℝ[X]} (h : Orthonormal n P) : Orthonormal n (P.comp (-X)) := by
  have hi : ∀ f : ℝ → ℝ, uniformE (-1) 1 f = uniformE (-1) 1 fun x => f (-x) := by
    intro f
    simp only [uniformE]
    rw [integral_comp_neg]
    simp
  refine ⟨by rw [natDegree_comp]; simp [h.degree], ?_, ?_⟩
  · intro Q hQ
    have := h.orth (Q.comp (-X)) (by rw [natDegree_comp]; simpa using hQ)
    rw [hi] at this
    simpa using this
  · have := h.norm
    rw [hi] at this
    simpa using this

theorem orthonormal_even {n : ℕ} {P : ℝ[X]} (h : Orthonormal n P) (x : ℝ) : P.eval (-x) ^ 2 = P.eval x ^ 2 := by
  have h1 := congrArg (eval x) (orthonormal_sq h)
  have h2 := congrArg (eval x) (orthonormal_sq (orthonormal_neg h))
  rw [← h1] at h2
  simpa [sq] using h2

theorem inducedF_eq_cdf (P : ℝ[X]) (x : ℝ) : inducedF P x = Markov.cdf (fun t => P.eval t ^ 2 / 2) x := rfl

theorem density_cont (P : ℝ[X]) : Continuous fun t => P.eval t ^ 2 / 2 := by fun_prop

theorem inducedF_one {n : ℕ} {P : ℝ[X]} (h : Orthonormal n P) : inducedF P 1 = 1 := by
  rw [inducedF, ← uniform_expand]; exact h.norm

theorem inducedF_reflect {n : ℕ} {P : ℝ[X]} (h : Orthonormal n P) (x : ℝ) : inducedF P x = 1 - inducedF P (-x) := by
  have hc := density_cont P
  have h1 := inducedF_one h
  have h2 : inducedF P (-x) = ∫ t in x..1, P.eval t ^ 2 / 2 := by
    rw [inducedF]
    have := integral_comp_neg (a := x) (b := 1) fun t => P.eval t ^ 2 / 2
    rw [← this]
    refine integral_congr fun t _ => ?_
    beta_reduce
    rw [orthonormal_even h]
  have h3 := integral_add_adjacent_intervals (μ := MeasureTheory.volume) (a := -1) (b := x) (c := 1)
    (hc.intervalIntegrable _ _) (hc.intervalIntegrable _ _)
  rw [h2]
  rw [inducedF] at h1 ⊢
  linarith

/-! ## The distribution function computed by the code -/

theorem sqProd_scale (s : ℝ) (hs : s ≠ 0) (t : ℝ) : ∀ zs : List ℝ,
    (sqProd (zs.map fun z => (z + 1) / s - 1)).eval t * (s ^ 2) ^ zs.length = (sqProd zs).eval (s * t + (s - 1))
  | [] => by simp [sqProd]
  | z :: zs => by
    have ih := sqProd_scale s hs t zs
    have e1 : sqProd (z :: zs) = (X - C z) ^ 2 * sqProd zs := by simp [sqProd]
    have e2 : sqProd ((z :: zs).map fun z => (z + 1) / s - 1) = (X - C ((z + 1) / s - 1)) ^ 2 *
      sqProd (zs.map fun z => (z + 1) / s - 1) := by simp [sqProd]
    rw [e1, e2, eval_mul, eval_mul, ← ih, List.length_cons, pow_succ]
    have e3 : eval t ((X - C ((z + 1) / s - 1)) ^ 2) * s ^ 2 = eval (s * t + (s - 1)) ((X - C z) ^ 2) := by
      rw [eval_pow, eval_pow, eval_sub, eval_sub, eval_X, eval_X, eval_C, eval_C]
      field_simp; ring
    rw [← e3]
    generalize eval t (sqProd _) = A
    ring

theorem sqProd_integral (x : ℝ) (hx : -1 < x) (zs : List ℝ) :
    betaL one_pos one_pos (by norm_num : (-1 : ℝ) < 1) (sqProd (zs.map fun z => 2 / (x + 1) * (z + 1) - 1)) *
      (((x + 1) / 2) ^ 2) ^ zs.length * ((x + 1) / 2) = ∫ t in (-1 : ℝ)..x, (sqProd zs).eval t / 2 := by
  have hs : (x + 1) / 2 ≠ 0 := by
    have : 0 < x + 1 := by linarith
    positivity
  have e : ∀ z : ℝ, 2 / (x + 1) * (z + 1) - 1 = (z + 1) / ((x + 1) / 2) - 1 := fun z => by
    have : x + 1 ≠ 0 := by linarith
    field_simp
  simp only [e]
  rw [L0_apply, ← integral_mul_const, mul_comm]
  have h := mul_integral_comp_mul_add (a := -1) (b := 1) (c := (x + 1) / 2) (d := (x + 1) / 2 - 1)
    (f := fun t => (sqProd zs).eval t / 2)
  have h1 : (x + 1) / 2 * (-1) + ((x + 1) / 2 - 1) = -1 := by ring
  have h2 : (x + 1) / 2 * 1 + ((x + 1) / 2 - 1) = x := by ring
  rw [h1, h2] at h
  rw [← h]
  congr 1
  refine integral_congr fun t _ => ?_
  rw [← sqProd_scale _ hs]
  ring

end

theorem evalValue_ok {T : Table} {L : ℝ[X] →ₗ[ℝ] ℝ} (G : Good T L) {t : List (ℝ × ℝ)} (ha : Agree t T)
    (hn : 12 ≤ t.length) (x : ℝ) (hx : -1 < x) (lf : ℝ) :
    evalValue O x t lf = .ok (Real.exp lf * ((x + 1) / 2)) := by
  obtain ⟨R, h1, h2⟩ := ruleOf_ok hO G ha 10 hn
  have hw : ∑ i, R.w i = 1 := by
    have := h2.exact 1 (by simp)
    simpa [G.one] using this
  have hpos : 0 < (x + 1) / 2 := by linarith
  have hx' : ((x + 1.0) / 2.0 : ℝ) = (x + 1) / 2 := by norm_num
  have hG : Real.Gamma 2 = 1 := by
    have := Real.Gamma_nat_eq_factorial 1
    simpa [one_add_one_eq_two] using this
  simp only [evalValue, h1, pow_zero, mul_one, hw, Real.Gamma_one, hG, hx']
  norm_num
  rw [Real.exp_add, Real.exp_log hpos]

/-- Left of the median. -/
theorem cdf_left (n N : ℕ) (hN : 2 * n + 12 ≤ N) {P : ℝ[X]} (h : Spec.Orthonormal n P) (x : ℝ) (hx : -1 < x) :
    ∃ t lf, evalLoop (knFactor (-1) 1 n) x (jacobiCoeffs 0 0 (-1) 1 N) 0 ((zeroesOf O (-1) 1 n).take n) = .ok (t, lf) ∧
      evalValue O x t lf = .ok (Spec.inducedF P x) := by
  have hlu : (-1 : ℝ) < 1 := by norm_num
  have G := unif_good hlu
  obtain ⟨hl, ha⟩ := coeffs_agree (l := -1) (u := 1) N
  obtain ⟨hz1, hz2⟩ := zeroes_ok hO n
  have htake : (zeroesOf O (-1) 1 n).take n = zeroesOf O (-1) 1 n := List.take_of_length_le (by omega)
  have hN0 := nrm_pos _ G.pos n
  have hI := sqProd_integral x hx (zeroesOf O (-1) 1 n)
  have hF : Spec.inducedF P x = (nrm (jtab 0 0 (-1) 1) n)⁻¹ * ∫ t in (-1 : ℝ)..x, (sqProd (zeroesOf O (-1) 1 n)).eval t / 2 := by
    rw [Spec.inducedF, ← integral_const_mul]
    refine integral_congr fun t _ => ?_
    have := congrArg (eval t) (orthonormal_sq h)
    rw [← sqProd_zeroes hO] at this
    simp only [eval_mul, eval_C] at this
    rw [sq, this]
    ring
  rw [htake]
  rcases Nat.eq_zero_or_pos n with h0 | h0
  · subst h0
    refine ⟨jacobiCoeffs 0 0 (-1) 1 N, 0, rfl, ?_⟩
    rw [evalValue_ok hO G ha (by omega) x hx, hF, ← hI]
    simp [zeroesOf, sqProd, G.one, nrm]
  · obtain ⟨k1, k2⟩ := kn_pow n h0
    obtain ⟨t, T', L', lf', e1, e2, e3, e4, e5, e6⟩ := evalLoop_ok (knFactor (-1) 1 n) x k1 hx (zeroesOf O (-1) 1 n) 0 G ha
      (by omega)
    refine ⟨t, lf', e1, ?_⟩
    have hs : 0 < (x + 1) / 2 := by linarith
    rw [evalValue_ok hO e4 e3 (by omega) x hx, hF, ← hI, e6, zero_add, Real.exp_log (by positivity), ← k2, mul_pow, hz1]
    congr 1
    ring

omit hO in
theorem pyInt_zero {x : ℝ} (h1 : -1 < x) (h2 : x < 1) : pyInt x = 0 := by
  unfold pyInt
  by_cases h : 0 ≤ x
  · rw [if_pos h, Int.floor_eq_zero_iff]; exact ⟨h, h2⟩
  · rw [if_neg h, Int.ceil_eq_zero_iff]
    exact ⟨h1, by linarith⟩

theorem cdf_ok (n N : ℕ) (hN : 2 * n + 12 ≤ N) {P : ℝ[X]} (h : Spec.Orthonormal n P) (x : ℝ) (h1 : -1 ≤ x) (h2 : x ≤ 1) :
    inducedCdf O n (zeroesOf O (-1) 1 n) (jacobiCoeffs 0 0 (-1) 1 N) (knFactor (-1) 1 n) x = .ok (Spec.inducedF P x) := by
  unfold inducedCdf
  rcases eq_or_lt_of_le h2 with e | h2'
  · subst e
    have : pyInt 1 = 1 := by simp [pyInt]
    rw [if_pos this, inducedF_one h]
  rcases eq_or_lt_of_le h1 with e | h1'
  · subst e
    have : pyInt (-1) = -1 := by
      have : ¬ (0 : ℝ) ≤ -1 := by norm_num
      rw [pyInt, if_neg this]
      exact_mod_cast Int.ceil_intCast (R := ℝ) (-1)
    rw [if_neg (by rw [this]; norm_num), if_pos this]
    simp [Spec.inducedF]
  rw [if_neg (by rw [pyInt_zero h1' h2']; norm_num), if_neg (by rw [pyInt_zero h1' h2']; norm_num)]
  have hm : (if n > 0 then ((0 : ℝ) ^ 2 - 0 ^ 2) / (2 * n + 0 + 0) ^ 2 else 2.0 / (1.0 + (0 + 1.0) / (0 + 1.0)) - 1.0) = 0 := by
    split <;> norm_num
  rw [hm]
  by_cases hx : x > 0
  · obtain ⟨t, lf, e1, e2⟩ := cdf_left hO n N hN h (-x) (by linarith)
    simp only [hx, decide_true, if_true, e1, e2]
    rw [inducedF_reflect h x]
  · obtain ⟨t, lf, e1, e2⟩ := cdf_left hO n N hN h x h1'
    simp only [hx, decide_false, Bool.false_eq_true, if_false, e1, e2]

end EQ.Sampling
