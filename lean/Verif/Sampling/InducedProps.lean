import Verif.Sampling.InducedLemmas
import Verif.Sampling.SampleProps

/-!
# Properties of the univariate induced sampler (C129-C131)
-/

namespace EQ.Sampling
open EQ.Param EQ.Basis EQ.ParamSpec Polynomial intervalIntegral Spec

/-! ## The contract of the outside calls can be met -/

open Classical in
theorem exact_contract_exists : ∃ O : Outside, O.Contract ∧ ∀ f a b r, O.brentq f a b = .ok r → f r = .ok 0 := by
  have he : ∀ (n : ℕ) (J : Matrix (Fin n) (Fin n) ℝ), ∃ DV : (Fin n → ℝ) × Matrix (Fin n) (Fin n) ℝ,
      J.transpose = J → EighContract J DV.1 DV.2 := by
    intro n J
    by_cases h : J.transpose = J
    · obtain ⟨D, V, h'⟩ := eigh_exists J h
      exact ⟨(D, V), fun _ => h'⟩
    · exact ⟨(0, 0), fun h' => absurd h' h⟩
  have hs : ∀ (n : ℕ) (D : Fin n → ℝ), ∃ σ, ArgsortContract D σ := fun n D => ⟨Tuple.sort D, ⟨Tuple.monotone_sort D⟩⟩
  choose eigh heigh using he
  choose srt hsrt using hs
  have hb : ∀ (f : ℝ → Except Err ℝ) (a b : ℝ), ∃ y : Except Err ℝ, (∀ r, y = .ok r → f r = .ok 0) ∧ ∀ (g : ℝ → ℝ), a ≤ b →
      (∀ x, a ≤ x → x ≤ b → f x = .ok (g x)) → ContinuousOn g (Set.Icc a b) →
      (g a ≤ 0 → 0 ≤ g b → ∃ r z, y = .ok r ∧ a ≤ r ∧ r ≤ b ∧ a ≤ z ∧ z ≤ b ∧ g z = 0 ∧
        |r - z| ≤ 0.00005 + 1 / 2 ^ 50 * |r|) ∧ (0 < g a * g b → y = .error .valueError) := by
    intro f a b
    by_cases h : ∃ z, a ≤ z ∧ z ≤ b ∧ f z = .ok 0
    · obtain ⟨z, h1, h2, h3⟩ := h
      by_cases hq : ∃ va vb, f a = .ok va ∧ f b = .ok vb ∧ 0 < va * vb
      · obtain ⟨va, vb, q1, q2, q3⟩ := hq
        refine ⟨.error .valueError, fun _ h => (by cases h), fun g hab hf _ => ⟨fun ha hb => ?_, fun _ => rfl⟩⟩
        have e1 := (hf a le_rfl hab).symm.trans q1
        have e2 := (hf b hab le_rfl).symm.trans q2
        injection e1 with e1
        injection e2 with e2
        rw [← e1, ← e2] at q3
        exact absurd q3 (not_lt.2 (mul_nonpos_of_nonpos_of_nonneg ha hb))
      · refine ⟨.ok z, fun r h => (by injection h with h; rw [← h]; exact h3), fun g hab hf _ => ⟨fun _ _ => ⟨z, z, rfl, h1, h2, h1, h2, ?_, ?_⟩, fun hp => ?_⟩⟩
        · have := (hf z h1 h2).symm.trans h3
          injection this
        · rw [sub_self, abs_zero]; positivity
        · exact absurd ⟨_, _, hf a le_rfl hab, hf b hab le_rfl, hp⟩ hq
    · refine ⟨.error .valueError, fun _ h => (by cases h), fun g hab hf hc => ⟨fun ha hb => ?_, fun _ => rfl⟩⟩
      obtain ⟨z, hz, hz0⟩ := intermediate_value_Icc hab hc ⟨ha, hb⟩
      exact absurd ⟨z, hz.1, hz.2, by rw [hf z hz.1 hz.2, hz0]⟩ h
  choose bq hbq using hb
  exact ⟨⟨eigh, srt, bq⟩, ⟨heigh, hsrt, fun f g a b => (hbq f a b).2 g⟩, fun f a b => (hbq f a b).1⟩

theorem contract_exists : ∃ O : Outside, O.Contract := exact_contract_exists.imp fun _ h => h.1

variable {O : Outside} (hO : O.Contract)
include hO

/-! ## C129: the distribution function -/

/-- The distribution function the sampler inverts is exactly that of the law with density `P² / 2`, `P` the orthonormal
polynomial of the order asked for, at every point of `[-1, 1]` and for every order up to the largest order of the basis. -/
theorem c129_cdf_exact (order maxOrder : ℕ) (h : order ≤ maxOrder) (P : ℝ[X]) (hP : Orthonormal order P) (x : ℝ)
    (h1 : -1 ≤ x) (h2 : x ≤ 1) :
    inducedCdf O order (zeroesOf O (-1) 1 order) (jacobiCoeffs 0 0 (-1) 1 (2 * maxOrder + 0 + 12)) (knFactor (-1) 1 order) x =
      .ok (inducedF P x) :=
  cdf_ok hO order _ (by omega) hP x h1 h2

omit hO in
/-- The polynomial `√3 x` is orthonormal of degree one, and the function is `(x³ + 1) / 2`. -/
theorem orthonormal_one : Orthonormal 1 (C √3 * X) := by
  refine ⟨by rw [natDegree_C_mul_X]; positivity, ?_, ?_⟩
  · intro Q hQ
    have h0 : Q.natDegree = 0 := by omega
    rw [eq_C_of_natDegree_eq_zero h0, uniform_expand]
    have : ∀ t : ℝ, eval t (C √3 * X) * eval t (C (Q.coeff 0)) / 2 = √3 * Q.coeff 0 / 2 * t := fun t => by
      simp; ring
    rw [integral_congr fun t _ => this t, integral_const_mul, integral_id]
    norm_num
  · rw [uniform_expand]
    have : ∀ t : ℝ, eval t (C √3 * X) ^ 2 / 2 = 3 / 2 * t ^ 2 := fun t => by
      simp [mul_pow]; ring
    simp only [this, integral_const_mul, integral_pow]
    norm_num

example : inducedCdf O 1 (zeroesOf O (-1) 1 1) (jacobiCoeffs 0 0 (-1) 1 (2 * 4 + 0 + 12)) (knFactor (-1) 1 1) (1 / 2) =
    .ok (9 / 16) := by
  rw [c129_cdf_exact hO 1 4 (by norm_num) _ orthonormal_one _ (by norm_num) (by norm_num)]
  congr 1
  rw [inducedF]
  have : ∀ t : ℝ, eval t (C √3 * X) ^ 2 / 2 = 3 / 2 * t ^ 2 := fun t => by
    simp [mul_pow]; ring
  simp only [this, integral_const_mul, integral_pow]
  norm_num

/-! ## C130: the samples are the quantiles -/

omit hO

theorem bisect_spec (v : ℝ) : ∀ l : List ℝ, (∀ j, j < bisectLeft l v → l.getD j 0 < v) ∧
    (bisectLeft l v < l.length → v ≤ l.getD (bisectLeft l v) 0) ∧ bisectLeft l v ≤ l.length
  | [] => by simp [bisectLeft]
  | a :: l => by
    obtain ⟨i1, i2, i3⟩ := bisect_spec v l
    unfold bisectLeft at *
    by_cases h : a < v
    · rw [List.takeWhile_cons_of_pos (by simpa using h)]
      simp only [List.length_cons]
      refine ⟨fun j hj => ?_, fun hl => ?_, by omega⟩
      · cases j with
        | zero => simpa using h
        | succ j => rw [List.getD_cons_succ]; exact i1 j (by omega)
      · rw [List.getD_cons_succ]; exact i2 (by omega)
    · rw [List.takeWhile_cons_of_neg (by simpa using h)]
      simpa using h

theorem points_getD {N : ℕ} (p : Fin N → ℝ) (j : ℕ) (hj : j < N) : (-1 :: List.ofFn p).getD (j + 1) 0 = p ⟨j, hj⟩ := by
  rw [List.getD_cons_succ, List.getD_eq_getElem?_getD, List.getElem?_eq_getElem (by simpa using hj), Option.getD_some,
    List.getElem_ofFn]

theorem bounds_getD {m : ℕ} (w : Fin (m + 1) → ℝ) (j : ℕ) (hj : j ≤ m + 1) :
    (0 :: cumsum (List.ofFn w)).getD j 0 = Markov.psum w j := by
  have hs : ∀ k, ((List.ofFn w).take k).sum = Markov.psum w k := by
    intro k
    rw [List.sum_take_ofFn, Markov.psum, Finset.sum_filter]
  cases j with
  | zero => simp [Markov.psum]
  | succ j =>
    rw [List.getD_cons_succ, ← hs, cumsum, List.getD_eq_getElem?_getD,
      List.getElem?_eq_getElem (by rw [List.length_map, List.length_range, List.length_ofFn]; omega), Option.getD_some,
      List.getElem_map, List.getElem_range]

theorem bounds_length {N : ℕ} (w : Fin N → ℝ) : (0 :: cumsum (List.ofFn w)).length = N + 1 := by simp [cumsum]

/-- A bracket taken from the cumulative sums of a rule with the inequalities of Markov. -/
theorem bracket_ok (F : ℝ → ℝ) (R : Rule 400) (hF0 : F (-1) = 0) (hF1 : F 1 = 1)
    (hp : StrictMono R.p) (hin : ∀ i, -1 < R.p i ∧ R.p i < 1) (hsum : ∑ i, R.w i = 1)
    (hm : ∀ k : Fin 400, Markov.psum (m := 399) R.w k ≤ F (R.p k) ∧ F (R.p k) ≤ Markov.psum (m := 399) R.w (k + 1)) (v : ℝ)
    (h0 : 0 ≤ v) (h1 : v ≤ 1) (b : ℝ × ℝ)
    (hb : b = bracket (-1 :: List.ofFn R.p) (bisectLeft (0 :: cumsum (List.ofFn R.w)) v)) :
    -1 ≤ b.1 ∧ b.1 ≤ b.2 ∧ b.2 ≤ 1 ∧ F b.1 ≤ v ∧ v ≤ F b.2 := by
  obtain ⟨s1, s2, s3⟩ := bisect_spec v (0 :: cumsum (List.ofFn R.w))
  generalize bisectLeft (0 :: cumsum (List.ofFn R.w)) v = i at *
  rw [bounds_length] at s2 s3
  have hlast : Markov.psum (m := 399) R.w 400 = 1 := by
    rw [← hsum, Markov.psum]
    exact Finset.sum_congr rfl fun i _ => if_pos i.2
  have hi : i ≤ 400 := by
    by_contra hc
    have := s1 400 (by omega)
    rw [bounds_getD _ _ le_rfl, hlast] at this
    linarith
  have hlow : ∀ j (hj : j < 400), j + 2 ≤ i → F (R.p ⟨j, hj⟩) ≤ v := by
    intro j hj hji
    have := s1 (j + 1) (by omega)
    rw [bounds_getD _ _ (by omega)] at this
    exact (hm ⟨j, hj⟩).2.trans this.le
  have hup : ∀ hj : i < 400, v ≤ F (R.p ⟨i, hj⟩) := by
    intro hj
    have := s2 (by omega)
    rw [bounds_getD _ _ (by omega)] at this
    exact this.trans (hm ⟨i, hj⟩).1
  unfold bracket at hb
  by_cases c1 : 399 ≤ i
  · rw [if_pos c1] at hb
    obtain ⟨j, rfl⟩ : ∃ j, i = j + 2 := ⟨i - 2, by omega⟩
    rw [show j + 2 - 1 = j + 1 by omega, points_getD _ j (by omega)] at hb
    subst hb
    exact ⟨(hin _).1.le, (hin _).2.le, le_rfl, hlow j (by omega) le_rfl, by rw [hF1]; exact h1⟩
  rw [if_neg c1] at hb
  by_cases c2 : i = 0
  · subst c2
    rw [if_pos rfl, points_getD _ 0 (by omega)] at hb
    subst hb
    exact ⟨le_rfl, (hin _).1.le, (hin _).2.le, by rw [hF0]; exact h0, hup (by omega)⟩
  rw [if_neg c2, points_getD _ i (by omega)] at hb
  rcases Nat.lt_or_ge i 2 with c3 | c3
  · obtain rfl : i = 1 := by omega
    simp only [Nat.sub_self, List.getD_cons_zero] at hb
    subst hb
    exact ⟨le_rfl, (hin _).1.le, (hin _).2.le, by rw [hF0]; exact h0, hup (by omega)⟩
  · obtain ⟨j, rfl⟩ : ∃ j, i = j + 2 := ⟨i - 2, by omega⟩
    rw [show j + 2 - 1 = j + 1 by omega, points_getD _ j (by omega)] at hb
    subst hb
    exact ⟨(hin _).1.le, hp.monotone (by simp), (hin _).2.le, hlow j (by omega) le_rfl, hup (by omega)⟩

include hO

/-- The rule of the induced law. -/
theorem inducedRule_ok (n : ℕ) {P : ℝ[X]} (hP : Orthonormal n P) : ∃ R, inducedRule O (-1) 1 n = .ok R ∧ StrictMono R.p ∧
    (∀ i, 0 ≤ R.w i) ∧ (∀ i, -1 < R.p i ∧ R.p i < 1) ∧
    ∀ q : ℝ[X], q.natDegree ≤ 2 * 399 + 1 → ∑ i, R.w i * q.eval (R.p i) = ∫ x in (-1 : ℝ)..1, q.eval x * (P.eval x ^ 2 / 2) := by
  have hlu : (-1 : ℝ) < 1 := by norm_num
  have G := unif_good hlu
  have hN := nrm_pos _ G.pos n
  have key : ∀ {L' : ℝ[X] →ₗ[ℝ] ℝ} {R : Rule 400}, GaussLike R L' →
      (∀ f, L' f = betaL one_pos one_pos hlu (P * P * f)) → StrictMono R.p ∧
      (∀ i, 0 ≤ R.w i) ∧ (∀ i, -1 < R.p i ∧ R.p i < 1) ∧
      ∀ q : ℝ[X], q.natDegree ≤ 2 * 399 + 1 →
        ∑ i, R.w i * q.eval (R.p i) = ∫ x in (-1 : ℝ)..1, q.eval x * (P.eval x ^ 2 / 2) := by
    intro L' R hR hL'
    have hP0 : P ≠ 0 := by
      rintro rfl
      have := hP.norm
      simp [uniformE] at this
    refine ⟨hR.mono, hR.nonneg, fun i => ⟨?_, ?_⟩, ?_⟩
    · have := hR.inside (X - C (-1)) (natDegree_X_sub_C _).le (fun q hq => by
        rw [hL', show P * P * ((X - C (-1)) * (q * q)) = (X - C (-1)) * ((P * q) * (P * q)) by ring]
        exact beta_pos_lower one_pos one_pos hlu _ (mul_ne_zero hP0 hq)) i
      simp at this
      linarith
    · have := hR.inside (C 1 - X) (by compute_degree) (fun q hq => by
        rw [hL', show P * P * ((C 1 - X) * (q * q)) = (C 1 - X) * ((P * q) * (P * q)) by ring]
        exact beta_pos_upper one_pos one_pos hlu _ (mul_ne_zero hP0 hq)) i
      simp at this
      linarith
    · intro q hq
      rw [hR.exact q hq, hL', L0_apply]
      refine integral_congr fun t _ => ?_
      simp only [eval_mul]
      ring
  have hPP := orthonormal_sq hP
  unfold inducedRule
  by_cases h0 : n = 0
  · rw [if_pos h0]
    subst h0
    refine ⟨_, rfl, key (copyRule_ok hO hlu 398) fun f => ?_⟩
    rw [hPP]
    simp [nrm, mpoly]
  · rw [if_neg h0]
    obtain ⟨hl, ha⟩ := coeffs_agree (l := -1) (u := 1) (n * 2 + 400 - 1)
    obtain ⟨hz1, hz2⟩ := zeroes_ok hO n
    obtain ⟨t, T', L', e1, e2, e3, e4, e5, e6⟩ := modifyAll_ok (zeroesOf O (-1) 1 n) G ha (by omega)
    obtain ⟨R, r1, r2⟩ := ruleOf_ok hO e4 e3 398 (by omega)
    rw [e1]
    refine ⟨R, r1, key r2 fun f => ?_⟩
    have := e6 f
    rw [sqProd_zeroes hO, G.sq n] at this
    rw [hPP, mul_assoc, ← smul_eq_C_mul, map_smul, ← this, smul_eq_mul]
    field_simp

/-- Every value of `[0, 1]` is turned into a point of `[-1, 1]` that agrees with a quantile of the induced law up to the
tolerance of the solver; no exception is raised. -/
theorem c130_quantile (order maxOrder : ℕ) (h : order ≤ maxOrder) (P : ℝ[X]) (hP : Orthonormal order P) (v : ℝ)
    (h0 : 0 ≤ v) (h1 : v ≤ 1) :
    ∃ r z, inverseInduced O (-1) 1 maxOrder order v = .ok r ∧ -1 ≤ r ∧ r ≤ 1 ∧ -1 ≤ z ∧ z ≤ 1 ∧ inducedF P z = v ∧
      |r - z| ≤ 0.00005 + 1 / 2 ^ 50 := by
  obtain ⟨R, e, hp, hw, hin, hex⟩ := inducedRule_ok hO order hP
  have hρ := density_cont P
  have hpos : ∀ t, 0 ≤ P.eval t ^ 2 / 2 := fun t => by positivity
  have hm := fun k => Markov.markov (m := 399) R.p R.w _ hρ hpos hp (fun i => ⟨(hin i).1.le, (hin i).2.le⟩) hw hex k
  have hsum : ∑ i, R.w i = 1 := by
    have := hex 1 (by simp)
    simp only [eval_one, mul_one, one_mul] at this
    rw [this]
    exact inducedF_one hP
  obtain ⟨b1, b2, b3, b4, b5⟩ := bracket_ok (inducedF P) R (by simp [inducedF]) (inducedF_one hP) hp hin hsum hm v h0 h1 _ rfl
  unfold inverseInduced
  rw [e]
  simp only
  generalize bracket (-1 :: List.ofFn R.p) (bisectLeft (0 :: cumsum (List.ofFn R.w)) v) = b at *
  have hc : Continuous (inducedF P) := Markov.cdf_cont _ hρ
  obtain ⟨r, z, q1, q2, q3, q4, q5, q6, q7⟩ := (hO.brentq (fun x =>
    match inducedCdf O order (zeroesOf O (-1) 1 order) (jacobiCoeffs 0 0 (-1) 1 (2 * maxOrder + 0 + 12))
      (knFactor (-1) 1 order) x with
      | .error e => .error e
      | .ok F => .ok (F - v)) (fun x => inducedF P x - v) b.1 b.2 b2
      (fun x hx1 hx2 => by
        rw [c129_cdf_exact hO order maxOrder h P hP x (by linarith) (by linarith)])
      (by fun_prop)).1 (by linarith) (by linarith)
  refine ⟨r, z, q1, by linarith, by linarith, by linarith, by linarith, by linarith, q7.trans ?_⟩
  have : |r| ≤ 1 := abs_le.2 ⟨by linarith, by linarith⟩
  have h3 : (1 : ℝ) / 2 ^ 50 * |r| ≤ 1 / 2 ^ 50 * 1 := mul_le_mul_of_nonneg_left this (by positivity)
  linarith

/-- A whole sample: as many points as values, in the same order. -/
theorem c130_sample (name : String) (hname : name = "Uniform" ∨ name = "uniform") (order maxOrder : ℕ)
    (h : order ≤ maxOrder) (P : ℝ[X]) (hP : Orthonormal order P) (vs : List ℝ) (hv : ∀ v ∈ vs, 0 ≤ v ∧ v ≤ 1) :
    ∃ rs, univariateSampling O name (-1) 1 maxOrder order vs = .ok (some rs) ∧
      List.Forall₂ (fun v r => -1 ≤ r ∧ r ≤ 1 ∧ ∃ z, -1 ≤ z ∧ z ≤ 1 ∧ inducedF P z = v ∧ |r - z| ≤ 0.00005 + 1 / 2 ^ 50)
        vs rs := by
  have : ∃ rs, vs.mapM (inverseInduced O (-1) 1 maxOrder order) = .ok rs ∧
      List.Forall₂ (fun v r => -1 ≤ r ∧ r ≤ 1 ∧ ∃ z, -1 ≤ z ∧ z ≤ 1 ∧ inducedF P z = v ∧ |r - z| ≤ 0.00005 + 1 / 2 ^ 50)
        vs rs := by
    induction vs with
    | nil => exact ⟨[], rfl, .nil⟩
    | cons v vs ih =>
      obtain ⟨rs, i1, i2⟩ := ih fun w hw => hv w (by simp [hw])
      obtain ⟨h0, h1⟩ := hv v (by simp)
      obtain ⟨r, z, q1, q2, q3, q4, q5, q6, q7⟩ := c130_quantile hO order maxOrder h P hP v h0 h1
      refine ⟨r :: rs, ?_, .cons ⟨q2, q3, z, q4, q5, q6, q7⟩ i2⟩
      rw [List.mapM_cons, q1, i1]
      rfl
  obtain ⟨rs, e, hr⟩ := this
  exact ⟨rs, by rw [univariateSampling, if_pos hname, e], hr⟩

/-- For the first order the quantile of `v` is the cube root of `2 v - 1`; a value of `7 / 16` lands within the tolerance of
`-1 / 2`. -/
example : ∃ r, inverseInduced O (-1) 1 3 1 (7 / 16) = .ok r ∧ |r + 1 / 2| ≤ 0.0001 := by
  obtain ⟨r, z, e, -, -, -, -, hz, hr⟩ := c130_quantile hO 1 3 (by norm_num) _ orthonormal_one (7 / 16)
    (by norm_num) (by norm_num)
  have hF : inducedF (C √3 * X) z = (z ^ 3 + 1) / 2 := by
    rw [inducedF]
    have : ∀ t : ℝ, eval t (C √3 * X) ^ 2 / 2 = 3 / 2 * t ^ 2 := fun t => by
      simp [mul_pow]; ring
    simp only [this, integral_const_mul, integral_pow]
    norm_num
  rw [hF] at hz
  have hz' : z = -(1 / 2) := by
    have h1 : (z + 1 / 2) * (z ^ 2 - z / 2 + 1 / 4) = 0 := by nlinarith
    rcases mul_eq_zero.1 h1 with h | h
    · linarith
    · nlinarith [sq_nonneg (z - 1 / 4)]
  refine ⟨r, e, ?_⟩
  rw [hz', sub_neg_eq_add] at hr
  refine hr.trans ?_
  norm_num

/-- The values used in the examples exist: there are orthonormal polynomials of every degree. -/
example : ∃ rs, univariateSampling O "Uniform" (-1) 1 5 4 [0, 1 / 3, 1] = .ok (some rs) ∧ rs.length = 3 := by
  obtain ⟨P, hP⟩ := orthonormal_exists 4
  obtain ⟨rs, e, hr⟩ := c130_sample hO "Uniform" (by simp) 4 5 (by norm_num) P hP [0, 1 / 3, 1]
    (by intro v hv; simp at hv; rcases hv with h | h | h <;> rw [h] <;> norm_num)
  exact ⟨rs, e, hr.length_eq.symm⟩

/-! ## C131: other uniform laws -/

omit hO in
theorem one_sub_pow (n : ℕ) : (∫ x in (0 : ℝ)..1, (1 - x) ^ n) = 1 / (n + 1) := by
  rw [integral_comp_sub_left (fun x : ℝ => x ^ n) 1, integral_pow]
  simp

omit hO in
theorem unif01 (f : ℝ[X]) : betaL one_pos one_pos (zero_lt_one (α := ℝ)) f = ∫ x in (0 : ℝ)..1, f.eval x := by
  rw [unif_apply, uniformE]
  simp

/-- The nodes of the 400-point rule of the uniform law on `[0, 1]` are in `(0, 1)`, in increasing order; the first weight is
below `0.01`. -/
theorem rule01 : StrictMono (copyRule O 0 1 399).p ∧ (∀ i, 0 < (copyRule O 0 1 399).p i ∧ (copyRule O 0 1 399).p i < 1) ∧
    (copyRule O 0 1 399).w 0 ≤ 0.01 ∧ ∑ i, (copyRule O 0 1 399).w i = 1 ∧ ∀ i, 0 ≤ (copyRule O 0 1 399).w i := by
  have h := copyRule_ok hO (zero_lt_one (α := ℝ)) 398
  generalize copyRule O 0 1 399 = R at h ⊢
  have hin : ∀ i, 0 < R.p i ∧ R.p i < 1 := by
    intro i
    constructor
    · have := h.inside (X - C 0) (natDegree_X_sub_C _).le (fun q hq => beta_pos_lower one_pos one_pos zero_lt_one q hq) i
      simpa using this
    · have := h.inside (C 1 - X) (by compute_degree) (fun q hq => beta_pos_upper one_pos one_pos zero_lt_one q hq) i
      simpa using this
  have hsum : ∑ i, R.w i = 1 := by
    have := h.exact 1 (by simp)
    rw [unif01] at this
    simpa using this
  have hdeg : ((C 1 - X : ℝ[X]) ^ 400).natDegree ≤ 400 := by
    refine natDegree_pow_le.trans ?_
    have : (C 1 - X : ℝ[X]).natDegree ≤ 1 := by compute_degree
    omega
  have hA : ∑ i, R.w i * (1 - R.p i) ^ 400 = 1 / 401 := by
    have := h.exact ((C 1 - X) ^ 400) (hdeg.trans (by norm_num))
    rw [unif01] at this
    simp only [eval_pow, eval_sub, eval_C, eval_X] at this
    rw [this, one_sub_pow]
    norm_num
  have hB : ∑ i, R.w i * (1 - R.p i) ^ 401 = 1 / 402 := by
    have := h.exact ((C 1 - X) ^ 400 * (C 1 - X)) (by
      refine natDegree_mul_le.trans ?_
      have : (C 1 - X : ℝ[X]).natDegree ≤ 1 := by compute_degree
      omega)
    rw [unif01] at this
    simp only [← pow_succ, eval_pow, eval_sub, eval_C, eval_X] at this
    rw [this, one_sub_pow]
    norm_num
  have hx0 : R.p 0 ≤ 1 / 402 := by
    have h1 : ∑ i, R.w i * (1 - R.p i) ^ 401 ≤ ∑ i, R.w i * (1 - R.p i) ^ 400 * (1 - R.p 0) := by
      refine Finset.sum_le_sum fun i _ => ?_
      rw [pow_succ, ← mul_assoc]
      refine mul_le_mul_of_nonneg_left ?_ (mul_nonneg (h.nonneg i) (pow_nonneg (by linarith [(hin i).2]) _))
      have := h.mono.monotone (Fin.zero_le i)
      linarith
    rw [← Finset.sum_mul, hA, hB] at h1
    linarith
  have hw0 : R.w 0 * (1 - R.p 0) ^ 400 ≤ 1 / 401 := by
    rw [← hA]
    exact Finset.single_le_sum (f := fun i => R.w i * (1 - R.p i) ^ 400)
      (fun i _ => mul_nonneg (h.nonneg i) (pow_nonneg (by linarith [(hin i).2]) _)) (Finset.mem_univ 0)
  have hb : (1 / 4 : ℝ) ≤ (1 - R.p 0) ^ 400 := by
    have h1 : (1 : ℝ) + (100 : ℕ) * (-(1 / 402)) ≤ (1 + -(1 / 402)) ^ 100 := one_add_mul_le_pow (by norm_num) 100
    have h2 : (3 / 4 : ℝ) ≤ (1 - R.p 0) ^ 100 := by
      have h3 : ((1 : ℝ) + -(1 / 402)) ^ 100 ≤ (1 - R.p 0) ^ 100 := pow_le_pow_left₀ (by norm_num) (by linarith) _
      refine le_trans ?_ (h1.trans h3)
      norm_num
    have h4 : (3 / 4 : ℝ) ^ 4 ≤ ((1 - R.p 0) ^ 100) ^ 4 := pow_le_pow_left₀ (by norm_num) h2 4
    rw [← pow_mul] at h4
    norm_num at h4
    linarith
  refine ⟨h.mono, hin, ?_, hsum, h.nonneg⟩
  have := mul_le_mul_of_nonneg_left hb (h.nonneg 0)
  norm_num
  linarith

/-- For order zero the function inverted is that of the uniform law on `[-1, 1]`, whatever the law of the parameter. -/
theorem cdf_order_zero (l u : ℝ) (hlu : l < u) (N : ℕ) (hN : 12 ≤ N) (k x : ℝ) (h1 : -1 < x) (h2 : x ≤ 1) (zs : List ℝ) :
    inducedCdf O 0 zs (jacobiCoeffs 0 0 l u N) k x = .ok ((x + 1) / 2) := by
  unfold inducedCdf
  rcases eq_or_lt_of_le h2 with e | h2'
  · subst e
    have : pyInt 1 = 1 := by simp [pyInt]
    rw [if_pos this]
    norm_num
  rw [if_neg (by rw [pyInt_zero h1 h2']; norm_num), if_neg (by rw [pyInt_zero h1 h2']; norm_num)]
  obtain ⟨hl, ha⟩ := coeffs_agree (l := l) (u := u) N
  have hm : (if 0 > 0 then ((0 : ℝ) ^ 2 - 0 ^ 2) / (2 * (0 : ℕ) + 0 + 0) ^ 2 else 2.0 / (1.0 + (0 + 1.0) / (0 + 1.0)) - 1.0) = 0 := by
    norm_num
  rw [hm]
  by_cases hx : x > 0
  · simp only [hx, decide_true, if_true, List.take_zero, evalLoop,
      evalValue_ok hO (unif_good hlu) ha (by omega) (-x) (by linarith), Real.exp_zero]
    congr 1
    ring
  · simp only [hx, decide_false, Bool.false_eq_true, if_false, List.take_zero, evalLoop,
      evalValue_ok hO (unif_good hlu) ha (by omega) x h1, Real.exp_zero, one_mul]

/-- The sampler does not work for a uniform parameter on `[0, 1]`: order zero, nearly every second value makes the root solver
raise `ValueError`. -/
theorem c131_uniform01_violated (maxOrder : ℕ) (v : ℝ) (h0 : 0.01 < v) (h1 : v ≤ 1 / 2) :
    inverseInduced O 0 1 maxOrder 0 v = .error .valueError := by
  obtain ⟨hp, hin, hw, hsum, hnn⟩ := rule01 hO
  unfold inverseInduced inducedRule
  rw [if_pos rfl]
  simp only
  generalize copyRule O 0 1 399 = R at *
  obtain ⟨s1, s2, s3⟩ := bisect_spec v (0 :: cumsum (List.ofFn R.w))
  have hb : ∃ b, bracket (-1 :: List.ofFn R.p) (bisectLeft (0 :: cumsum (List.ofFn R.w)) v) = b ∧ 0 < b.1 ∧ b.1 ≤ b.2 ∧ b.2 ≤ 1 := by
    generalize bisectLeft (0 :: cumsum (List.ofFn R.w)) v = i at *
    rw [bounds_length] at s2 s3
    have hlast : Markov.psum (m := 399) R.w 400 = 1 := by
      rw [← hsum, Markov.psum]
      exact Finset.sum_congr rfl fun i _ => if_pos i.2
    have hi : i ≤ 400 := by
      by_contra hc
      have := s1 400 (by omega)
      rw [bounds_getD (m := 399) _ _ le_rfl, hlast] at this
      linarith
    have hi2 : 2 ≤ i := by
      by_contra hc
      have hs := s2 (by omega)
      rw [bounds_getD (m := 399) _ _ (by omega)] at hs
      have hle : Markov.psum (m := 399) R.w i ≤ R.w 0 := by
        unfold Markov.psum
        rw [Fin.sum_univ_succ]
        have : ∑ j : Fin 399, (if ((j.succ : Fin 400) : ℕ) < i then R.w j.succ else 0) = 0 :=
          Finset.sum_eq_zero fun j _ => if_neg (by rw [Fin.val_succ]; omega)
        rw [this, add_zero]
        by_cases c : ((0 : Fin 400) : ℕ) < i
        · rw [if_pos c]
        · rw [if_neg c]; exact hnn 0
      linarith
    obtain ⟨j, rfl⟩ : ∃ j, i = j + 2 := ⟨i - 2, by omega⟩
    refine ⟨_, rfl, ?_⟩
    unfold bracket
    by_cases c1 : 399 ≤ j + 2
    · rw [if_pos c1, show j + 2 - 1 = j + 1 by omega, points_getD _ j (by omega)]
      exact ⟨(hin _).1, (hin _).2.le, le_rfl⟩
    · rw [if_neg c1, if_neg (by omega), show j + 2 - 1 = j + 1 by omega, points_getD _ j (by omega), points_getD _ (j + 2) (by omega)]
      exact ⟨(hin _).1, hp.monotone (by simp), (hin _).2.le⟩
  obtain ⟨b, hb, b1, b2, b3⟩ := hb
  rw [hb]
  refine (hO.brentq _ (fun x => (x + 1) / 2 - v) b.1 b.2 b2 (fun x hx1 hx2 => ?_) (by fun_prop)).2 ?_
  · rw [cdf_order_zero hO 0 1 zero_lt_one _ (by omega) _ x (by linarith) (by linarith)]
  · exact mul_pos (by linarith) (by linarith)

/-- The same for a whole sample. -/
theorem c131_sample01_violated (maxOrder : ℕ) (v : ℝ) (vs : List ℝ) (h0 : 0.01 < v) (h1 : v ≤ 1 / 2) :
    univariateSampling O "Uniform" 0 1 maxOrder 0 (v :: vs) = .error .valueError := by
  rw [univariateSampling, if_pos (Or.inl rfl), List.mapM_cons, c131_uniform01_violated hO maxOrder v h0 h1]
  rfl

example : univariateSampling O "Uniform" 0 1 7 0 [1 / 4, 3 / 4] = .error .valueError :=
  c131_sample01_violated hO 7 _ _ (by norm_num) (by norm_num)

omit hO in
/-- Every other name of distribution gives nothing, with no exception. -/
theorem c131_unsupported_violated (O : Outside) (name : String) (h : name ≠ "Uniform" ∧ name ≠ "uniform") (l u : ℝ)
    (maxOrder order : ℕ) (vs : List ℝ) : univariateSampling O name l u maxOrder order vs = .ok none := by
  rw [univariateSampling, if_neg (by rintro (h' | h'); exacts [h.1 h', h.2 h'])]

omit hO in
example (O : Outside) : univariateSampling O "Gaussian" 0 1 3 2 [1 / 2] = .ok none :=
  c131_unsupported_violated O _ ⟨by decide, by decide⟩ _ _ _ _ _

omit hO

theorem uniform_affine (l u : ℝ) (hlu : l < u) (f : ℝ → ℝ) :
    uniformE (-1) 1 (fun t => f ((u - l) / 2 * t + (u + l) / 2)) = uniformE l u f := by
  have h := mul_integral_comp_mul_add (a := -1) (b := 1) (c := (u - l) / 2) (d := (u + l) / 2) (f := f)
  rw [show (u - l) / 2 * -1 + (u + l) / 2 = l by ring, show (u - l) / 2 * 1 + (u + l) / 2 = u by ring] at h
  rw [uniformE, uniformE, ← h]
  have : u - l ≠ 0 := by linarith
  field_simp
  ring

theorem affine_degree (l u : ℝ) (hlu : l < u) (P : ℝ[X]) :
    (P.comp (C ((u - l) / 2) * X + C ((u + l) / 2))).natDegree = P.natDegree := by
  rw [natDegree_comp, natDegree_linear (by linarith : (u - l) / 2 ≠ 0), mul_one]

theorem orthonormal_affine (l u : ℝ) (hlu : l < u) {n : ℕ} {P : ℝ[X]} (h : OrthonormalOn l u n P) :
    Orthonormal n (P.comp (C ((u - l) / 2) * X + C ((u + l) / 2))) := by
  have hne : u - l ≠ 0 := by linarith
  refine ⟨by rw [affine_degree l u hlu, h.degree], ?_, ?_⟩
  · intro Q hQ
    have h2 : (Q.comp (C (2 / (u - l)) * X + C (-(u + l) / (u - l)))).natDegree < n := by
      rw [natDegree_comp, natDegree_linear (by positivity), mul_one]
      exact hQ
    have h1 := h.orth _ h2
    rw [← uniform_affine l u hlu] at h1
    rw [← h1]
    congr 1
    funext t
    have e : 2 / (u - l) * ((u - l) / 2 * t + (u + l) / 2) + -(u + l) / (u - l) = t := by
      field_simp
      ring
    simp only [eval_comp, eval_add, eval_mul, eval_C, eval_X, e]
  · have h1 := h.norm
    rw [← uniform_affine l u hlu] at h1
    refine Eq.trans ?_ h1
    congr 1
    funext t
    simp

theorem inducedOn_affine (l u : ℝ) (hlu : l < u) (P : ℝ[X]) (z : ℝ) :
    inducedOn l u P ((u - l) / 2 * z + (u + l) / 2) = inducedF (P.comp (C ((u - l) / 2) * X + C ((u + l) / 2))) z := by
  have h := mul_integral_comp_mul_add (a := -1) (b := z) (c := (u - l) / 2) (d := (u + l) / 2)
    (f := fun t => P.eval t ^ 2 / (u - l))
  rw [show (u - l) / 2 * -1 + (u + l) / 2 = l by ring] at h
  rw [inducedOn, ← h, inducedF, ← integral_const_mul]
  refine integral_congr fun t _ => ?_
  have hne : u - l ≠ 0 := by linarith
  simp only [eval_comp, eval_add, eval_mul, eval_C, eval_X]
  field_simp

include hO

/-- With `ray`, the mesh of uniform parameters of which the first has the bounds `-1` and `1` (the others have any bounds): every
coordinate of every point is in the support of its parameter and agrees, up to the tolerance of the solver, with a quantile of
the law induced by the orthonormal polynomial of the row of the index set. -/
theorem c131_mesh_partial (I : List (List ℕ)) (ratio : ℕ) (hr : 0 < ratio) (u : List (List ℝ)) (maxOrder : ℕ)
    (hmax : ∀ row ∈ I, ∀ a ∈ row, a ≤ maxOrder) (hu : ∀ i j, 0 ≤ entry u i j ∧ entry u i j ≤ 1)
    (lo up : List ℝ) (hlen : lo.length = up.length) (hlu : ∀ j < lo.length, lo.getD j 0 < up.getD j 0)
    (hI : ∀ row ∈ I, row.length = lo.length)
    (inv : ℕ → ℝ → ℝ) (hinv : ∀ n ≤ maxOrder, ∀ v, 0 ≤ v → v ≤ 1 → inverseInduced O (-1) 1 maxOrder n v = .ok (inv n v))
    (i : ℕ) (hi : i < I.length * ratio) (j : ℕ) (hj : j < lo.length) (P : ℝ[X])
    (hP : OrthonormalOn (lo.getD j 0) (up.getD j 0) ((I.getD (i / ratio) []).getD j 0) P) :
    ∃ z, lo.getD j 0 ≤ z ∧ z ≤ up.getD j 0 ∧ inducedOn (lo.getD j 0) (up.getD j 0) P z = entry u i j ∧
      let x := entry (inducedPoints true inv I ratio u maxOrder (List.zipWith (fun l u => (u - l) / 2) lo up)
        (List.zipWith (fun l u => (l + u) / 2) lo up)) i j
      lo.getD j 0 ≤ x ∧ x ≤ up.getD j 0 ∧ |x - z| ≤ (up.getD j 0 - lo.getD j 0) / 2 * (0.00005 + 1 / 2 ^ 50) := by
  have hrow : i / ratio < I.length := Nat.div_lt_of_lt_mul (by rw [mul_comm]; exact hi)
  have hmem : I.getD (i / ratio) [] ∈ I := by
    rw [List.getD_eq_getElem?_getD, List.getElem?_eq_getElem hrow]
    exact List.getElem_mem hrow
  have hjr : j < (I.getD (i / ratio) []).length := by rw [hI _ hmem]; exact hj
  have hord : (I.getD (i / ratio) []).getD j 0 ≤ maxOrder := by
    refine hmax _ hmem _ ?_
    generalize I.getD (i / ratio) [] = row at hjr ⊢
    rw [List.getD_eq_getElem?_getD, List.getElem?_eq_getElem hjr]
    exact List.getElem_mem hjr
  have hz : ∀ f : ℝ → ℝ → ℝ, (List.zipWith f lo up).getD j 0 = f (lo.getD j 0) (up.getD j 0) := by
    intro f
    have hj' : j < up.length := by omega
    simp [List.getD_eq_getElem?_getD, List.getElem?_zipWith, List.getElem?_eq_getElem hj, List.getElem?_eq_getElem hj']
  have hx := (c27_induced_partial inv I ratio hr u maxOrder (List.zipWith (fun l u => (u - l) / 2) lo up)
    (List.zipWith (fun l u => (l + u) / 2) lo up) hmax).2 i hi j hjr
  have hl := hlu j hj
  obtain ⟨h0, h1⟩ := hu i j
  obtain ⟨r, z, q1, q2, q3, q4, q5, q6, q7⟩ := c130_quantile hO _ maxOrder hord _ (orthonormal_affine _ _ hl hP) _ h0 h1
  rw [hinv _ hord _ h0 h1] at q1
  injection q1 with q1
  simp only
  rw [hx, hz, hz, q1]
  generalize lo.getD j 0 = l at *
  generalize up.getD j 0 = b at *
  refine ⟨(b - l) / 2 * z + (b + l) / 2, by nlinarith, by nlinarith, by rw [inducedOn_affine _ _ hl, q6], by nlinarith,
    by nlinarith, ?_⟩
  rw [show (b - l) / 2 * r + (l + b) / 2 - ((b - l) / 2 * z + (b + l) / 2) = (b - l) / 2 * (r - z) by ring, abs_mul,
    abs_of_pos (by linarith)]
  exact mul_le_mul_of_nonneg_left q7 (by linarith)

/-- The function `inv` asked for exists. -/
example : ∃ inv : ℕ → ℝ → ℝ, ∀ n ≤ 3, ∀ v, 0 ≤ v → v ≤ 1 → inverseInduced O (-1) 1 3 n v = .ok (inv n v) := by
  have : ∀ n v, ∃ r, n ≤ 3 → 0 ≤ v → v ≤ 1 → inverseInduced O (-1) 1 3 n v = .ok r := by
    intro n v
    by_cases h : n ≤ 3 ∧ 0 ≤ v ∧ v ≤ 1
    · obtain ⟨P, hP⟩ := orthonormal_exists n
      obtain ⟨r, z, e, -⟩ := c130_quantile hO n 3 h.1 P hP v h.2.1 h.2.2
      exact ⟨r, fun _ _ _ => e⟩
    · exact ⟨0, fun a b c => absurd ⟨a, b, c⟩ h⟩
  choose inv hinv using this
  exact ⟨inv, fun n hn v h0 h1 => hinv n v hn h0 h1⟩

omit hO in
/-- On `[0, 4]` the polynomial of degree one is `√3 (x - 2) / 2`. -/
example : OrthonormalOn 0 4 1 (C (√3 / 2) * X + C (-√3)) := by
  refine ⟨natDegree_linear (by positivity), ?_, ?_⟩
  · intro Q hQ
    have h0 : Q.natDegree = 0 := by omega
    rw [eq_C_of_natDegree_eq_zero h0, uniformE]
    have : ∀ t : ℝ, eval t (C (√3 / 2) * X + C (-√3)) * eval t (C (Q.coeff 0)) = √3 * Q.coeff 0 / 2 * (t - 2) := fun t => by
      simp; ring
    rw [integral_congr fun t _ => this t, integral_const_mul, integral_sub (by simp) (by simp), integral_id]
    norm_num
  · rw [uniformE]
    have : ∀ t : ℝ, eval t (C (√3 / 2) * X + C (-√3)) ^ 2 = 3 / 4 * (t - 2) ^ 2 := fun t => by
      have h3 : (√3 : ℝ) ^ 2 = 3 := Real.sq_sqrt (by norm_num)
      simp
      linear_combination (t / 2 - 1) ^ 2 * h3
    rw [integral_congr fun t _ => this t, integral_const_mul, integral_comp_sub_right (fun x : ℝ => x ^ 2), integral_pow]
    norm_num

end EQ.Sampling
