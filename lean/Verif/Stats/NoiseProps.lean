import Verif.Poly.EquivFit

/-!
# Noise in the outputs (C183) and weights of the samples (C184)
-/

namespace EQ.Stats
open EQ.Param EQ.Poly EQ.Poly.Spec EQ.Sampling EQ.Sampling.Spec EQ.Stats.Spec EQ.Basis

/-! ## Lemmas -/

/-- The difference of the lengths of two vectors is at most the length of their difference. -/
theorem sqrt_sub_le (n : ℕ) (a b : ℕ → ℝ) (ε : ℝ) (hε : 0 ≤ ε) (h : ∑ i ∈ Finset.range n, (a i - b i) ^ 2 ≤ ε ^ 2) :
    |√(∑ i ∈ Finset.range n, a i ^ 2) - √(∑ i ∈ Finset.range n, b i ^ 2)| ≤ ε := by
  apply abs_le_of_sq_le_sq _ hε
  refine le_trans ?_ h
  have hc := Real.sum_mul_le_sqrt_mul_sqrt (Finset.range n) a b
  have ha := Real.sq_sqrt (Finset.sum_nonneg fun i (_ : i ∈ Finset.range n) => sq_nonneg (a i))
  have hb := Real.sq_sqrt (Finset.sum_nonneg fun i (_ : i ∈ Finset.range n) => sq_nonneg (b i))
  have e : ∑ i ∈ Finset.range n, (a i - b i) ^ 2 = ∑ i ∈ Finset.range n, a i ^ 2 - 2 * ∑ i ∈ Finset.range n, a i * b i + ∑ i ∈ Finset.range n, b i ^ 2 := by
    rw [Finset.mul_sum, ← Finset.sum_sub_distrib, ← Finset.sum_add_distrib]
    exact Finset.sum_congr rfl fun i _ => by ring
  rw [e, sub_sq, ha, hb]
  linarith

/-! ## Properties -/

/-- **C183.** Numerical integration on the tensor grid of the orders, with any index set of different rows inside the orders that starts with the constant.
If the outputs lie between `a` and `b`, so does the mean, and the variance is at most `(b - a)² / 4`. If two sets of outputs differ by at most `ε` at every
point, then so do the two means, the two standard deviations, and the two polynomials in mean square. -/
theorem c183_integration (B : Expansion) (hB : Regular B) (hR : B.invR = none) (hne : B.params ≠ []) (hP : ∀ P ∈ B.params, Valid P) (orders : List ℕ)
    (ho : orders.length = B.dims) (hbox : ∀ row ∈ B.elements, List.Forall₂ (· ≤ ·) row orders) (hnd : B.elements.Nodup)
    (hz : B.elements.head? = some (List.replicate B.dims 0)) (h2 : 2 ≤ B.elements.length) (Es : List ((ℝ → ℝ) → ℝ)) (hlaw : List.Forall₂ Law B.params Es) :
    ∃ pts wts, tensorGrid (localRules B.params orders) = .ok (pts, wts) ∧
      ∀ ys zs : List ℝ, ys.length = pts.length → zs.length = pts.length → ∃ (c e : List ℝ) (f g : List ℝ → ℝ) (m m' v v' : ℝ),
        B.integrate pts wts ys = .ok c ∧ B.integrate pts wts zs = .ok e ∧
        (∀ x, x.length = B.dims → B.polyfit c [x] = .ok [f x]) ∧ (∀ x, x.length = B.dims → B.polyfit e [x] = .ok [g x]) ∧
        mean c = .ok m ∧ mean e = .ok m' ∧ variance c = .ok v ∧ variance e = .ok v' ∧
        (∀ a b, (∀ y ∈ ys, a ≤ y ∧ y ≤ b) → a ≤ m ∧ m ≤ b ∧ v ≤ (b - a) ^ 2 / 4) ∧
        ∀ ε, (∀ j < pts.length, |ys.getD j 0 - zs.getD j 0| ≤ ε) →
          |m - m'| ≤ ε ∧ |√v - √v'| ≤ ε ∧ prodE Es (fun x => (f x - g x) ^ 2) ≤ ε ^ 2 := by
  obtain ⟨pts, wts, h1, -, h3, h4, h5, horth, hfit⟩ := grid_fit B hB hR hne hP orders ho hbox hnd
  refine ⟨pts, wts, h1, fun ys zs hy hzl => ?_⟩
  obtain ⟨c, hc, hcl, hcr⟩ := hfit ys hy
  obtain ⟨e, he, hel, her⟩ := hfit zs hzl
  have h0 : ∀ j < pts.length, basisFun B.params (B.elements.getD 0 []) (pts.getD j []) = 1 := by
    intro j hj
    rw [getD_zero_of_head hz, getD_of_lt _ _ _ hj]
    exact Sampling.basisFun_zero B.params _ (h5 _ (List.getElem_mem _))
  have hw : ∀ j ∈ Finset.range pts.length, 0 ≤ wts.getD j 0 := by
    intro j hj
    rw [getD_of_lt _ _ _ (by rw [h3]; exact Finset.mem_range.1 hj)]
    exact (h4 _ (List.getElem_mem _)).le
  have hw1 : ∑ j ∈ Finset.range pts.length, wts.getD j 0 = 1 := by
    have := horth 0 (by omega) 0 (by omega)
    rw [if_pos rfl] at this
    rw [← this]
    apply Finset.sum_congr rfl
    intro j hj
    rw [h0 j (Finset.mem_range.1 hj), mul_one, mul_one]
  have hmean : ∀ (c ys : List ℝ), (∀ r < B.elements.length, c.getD r 0 = ∑ j ∈ Finset.range pts.length, wts.getD j 0 *
      (basisFun B.params (B.elements.getD r []) (pts.getD j []) * ys.getD j 0)) → c.getD 0 0 = ∑ j ∈ Finset.range pts.length, wts.getD j 0 * ys.getD j 0 := by
    intro c ys hcr
    rw [hcr 0 (by omega)]
    apply Finset.sum_congr rfl
    intro j hj
    rw [h0 j (Finset.mem_range.1 hj), one_mul]
  have hpf : ∀ z : List ℝ, z.length = B.elements.length → ∀ x, x.length = B.dims → B.polyfit z [x] = .ok [expansion B.params B.elements z x] := by
    intro z hz x hx
    rw [polyfit_eq B hB z hz [x] (by simpa using hx), eff_none B hR]
    rfl
  have hmn : ∀ z : List ℝ, z.length = B.elements.length → mean z = .ok (z.getD 0 0) := by
    intro z hz
    cases z with
    | nil => simp at hz; omega
    | cons a l => rfl
  -- Bessel's inequality
  have bessel : ∀ (c : ℕ → ℝ) (y : ℕ → ℝ), (∀ r < B.elements.length, c r = ∑ j ∈ Finset.range pts.length, wts.getD j 0 *
      (basisFun B.params (B.elements.getD r []) (pts.getD j []) * y j)) → ∑ r ∈ Finset.range B.elements.length, c r ^ 2 ≤
      ∑ j ∈ Finset.range pts.length, wts.getD j 0 * y j ^ 2 := by
    intro c y hcy
    have := pythagoras pts.length B.elements.length (fun j => wts.getD j 0) y
      (fun r j => basisFun B.params (B.elements.getD r []) (pts.getD j [])) horth c c hcy
    simp only [sub_self, ne_eq, OfNat.ofNat_ne_zero, not_false_eq_true, zero_pow, Finset.sum_const_zero, add_zero] at this
    have h := Finset.sum_nonneg fun j (hj : j ∈ Finset.range pts.length) => mul_nonneg (hw j hj)
      (sq_nonneg (∑ r ∈ Finset.range B.elements.length, c r * basisFun B.params (B.elements.getD r []) (pts.getD j []) - y j))
    linarith
  obtain ⟨n, hn⟩ : ∃ n, B.elements.length = n + 1 := ⟨B.elements.length - 1, by omega⟩
  refine ⟨c, e, expansion B.params B.elements c, expansion B.params B.elements e, c.getD 0 0, e.getD 0 0, varSum c, varSum e, hc, he, hpf c hcl, hpf e hel,
    hmn c hcl, hmn e hel, variance_ok c (by omega), variance_ok e (by omega), fun a b hab => ?_, fun ε hε => ?_⟩
  · have hj : ∀ j ∈ Finset.range pts.length, a ≤ ys.getD j 0 ∧ ys.getD j 0 ≤ b := by
      intro j hj
      rw [getD_of_lt _ _ _ (by rw [hy]; exact Finset.mem_range.1 hj)]
      exact hab _ (List.getElem_mem _)
    have e1 := hmean c ys hcr
    have la : a ≤ c.getD 0 0 := by
      rw [e1, ← mul_one a, ← hw1, Finset.mul_sum]
      exact Finset.sum_le_sum fun j h => by rw [mul_comm]; exact mul_le_mul_of_nonneg_left (hj j h).1 (hw j h)
    have lb : c.getD 0 0 ≤ b := by
      rw [e1, ← mul_one b, ← hw1, Finset.mul_sum]
      exact Finset.sum_le_sum fun j h => by rw [mul_comm b]; exact mul_le_mul_of_nonneg_left (hj j h).2 (hw j h)
    refine ⟨la, lb, ?_⟩
    have hb := bessel (fun r => c.getD r 0) (fun j => ys.getD j 0) hcr
    rw [hn, Finset.sum_range_succ', ← varSum_range c n (by omega)] at hb
    have hq : 0 ≤ ∑ j ∈ Finset.range pts.length, wts.getD j 0 * ((ys.getD j 0 - a) * (b - ys.getD j 0)) :=
      Finset.sum_nonneg fun j h => mul_nonneg (hw j h) (mul_nonneg (sub_nonneg.2 (hj j h).1) (sub_nonneg.2 (hj j h).2))
    have eq : ∑ j ∈ Finset.range pts.length, wts.getD j 0 * ((ys.getD j 0 - a) * (b - ys.getD j 0)) =
        (a + b) * ∑ j ∈ Finset.range pts.length, wts.getD j 0 * ys.getD j 0 - a * b * ∑ j ∈ Finset.range pts.length, wts.getD j 0 -
          ∑ j ∈ Finset.range pts.length, wts.getD j 0 * ys.getD j 0 ^ 2 := by
      rw [Finset.mul_sum, Finset.mul_sum, ← Finset.sum_sub_distrib, ← Finset.sum_sub_distrib]
      exact Finset.sum_congr rfl fun j _ => by ring
    rw [eq, ← e1, hw1] at hq
    nlinarith [sq_nonneg (2 * c.getD 0 0 - a - b)]
  · have hpos : 0 < pts.length := by
      by_contra h
      have : pts.length = 0 := by omega
      rw [this] at hw1
      simp at hw1
    have hε0 : 0 ≤ ε := (abs_nonneg _).trans (hε 0 hpos)
    have hsum : ∑ r ∈ Finset.range B.elements.length, (c.getD r 0 - e.getD r 0) ^ 2 ≤ ε ^ 2 := by
      refine (bessel (fun r => c.getD r 0 - e.getD r 0) (fun j => ys.getD j 0 - zs.getD j 0) fun r hr => ?_).trans ?_
      · rw [hcr r hr, her r hr, ← Finset.sum_sub_distrib]
        exact Finset.sum_congr rfl fun j _ => by ring
      · rw [← one_mul (ε ^ 2), ← hw1, Finset.sum_mul]
        refine Finset.sum_le_sum fun j h => mul_le_mul_of_nonneg_left ?_ (hw j h)
        exact sq_le_sq' (by have := (abs_le.1 (hε j (Finset.mem_range.1 h))).1; linarith) (abs_le.1 (hε j (Finset.mem_range.1 h))).2
    refine ⟨?_, ?_, ?_⟩
    · apply abs_le_of_sq_le_sq _ hε0
      refine le_trans ?_ hsum
      exact Finset.single_le_sum (f := fun r => (c.getD r 0 - e.getD r 0) ^ 2) (fun _ _ => sq_nonneg _) (Finset.mem_range.2 (by omega))
    · rw [varSum_range c n (by omega), varSum_range e n (by omega)]
      apply sqrt_sub_le n _ _ ε hε0
      refine le_trans ?_ hsum
      rw [hn, Finset.sum_range_succ']
      exact le_add_of_nonneg_right (sq_nonneg _)
    · refine le_trans (le_of_eq ?_) hsum
      have := (expansion_moments B.params Es hlaw B.elements hB.ne hB.rows hnd hz (fun r => c.getD r 0 - e.getD r 0) (fun r => c.getD r 0 - e.getD r 0)).2
      refine Eq.trans ?_ (this.trans (Finset.sum_congr rfl fun r _ => (sq _).symm))
      apply prodE_congr
      intro x _
      rw [sum_expansion _ _ _ hcl, sum_expansion _ _ _ hel, ← Finset.sum_sub_distrib, sq]
      simp only [sub_mul]

/-- **C183.** Least squares: if two sets of outputs are given at the same points with the same weights, the weighted squared distance of the two fits at the
points is at most the weighted squared distance of the outputs. -/
theorem c183_least_squares (B : Expansion) (hB : Regular B) (hR : B.invR = none) (pts : List (List ℝ)) (wts ys zs : List ℝ) (h₁ : Sample B.dims pts wts ys)
    (h₂ : Sample B.dims pts wts zs) (c e : List ℝ) (f₁ : LsqFit B pts wts ys c) (f₂ : LsqFit B pts wts zs e) :
    ∃ us vs, B.polyfit c pts = .ok us ∧ B.polyfit e pts = .ok vs ∧ us.length = pts.length ∧ vs.length = pts.length ∧
      ∑ j ∈ Finset.range pts.length, wts.getD j 0 * (us.getD j 0 - vs.getD j 0) ^ 2 ≤ ∑ j ∈ Finset.range pts.length, wts.getD j 0 * (ys.getD j 0 - zs.getD j 0) ^ 2 := by
  have hc := ((fitted_iff B hB h₁ c).1 f₁).1
  have he := ((fitted_iff B hB h₂ e).1 f₂).1
  refine ⟨_, _, by rw [polyfit_eq B hB c hc pts h₁.size, eff_none B hR], by rw [polyfit_eq B hB e he pts h₁.size, eff_none B hR], by simp, by simp, ?_⟩
  let z : List ℝ := (List.range B.elements.length).map fun s => c.getD s 0 - e.getD s 0
  have hz : z.length = B.elements.length := by simp [z]
  have hzx : ∀ x, expansion B.params B.elements z x = expansion B.params B.elements c x - expansion B.params B.elements e x := by
    intro x
    rw [expansion_range, sum_expansion _ _ _ hc, sum_expansion _ _ _ he, ← Finset.sum_sub_distrib]
    exact Finset.sum_congr rfl fun _ _ => sub_mul ..
  have o₁ := fitted_orth B hB h₁ c f₁ z hz
  have o₂ := fitted_orth B hB h₂ e f₂ z hz
  rw [eff_none B hR, eff_none B hR] at o₁ o₂
  have hw : ∀ j ∈ Finset.range pts.length, 0 ≤ wts.getD j 0 := by
    intro j hj
    rw [getD_of_lt _ _ _ (by rw [h₁.wlen]; exact Finset.mem_range.1 hj)]
    exact (h₁.pos _ (List.getElem_mem _)).le
  have hr : 0 ≤ ∑ j ∈ Finset.range pts.length, wts.getD j 0 * ((ys.getD j 0 - zs.getD j 0) -
      (expansion B.params B.elements c (pts.getD j []) - expansion B.params B.elements e (pts.getD j []))) ^ 2 :=
    Finset.sum_nonneg fun j hj => mul_nonneg (hw j hj) (sq_nonneg _)
  have hs : ∑ j ∈ Finset.range pts.length, wts.getD j 0 * (ys.getD j 0 - zs.getD j 0) ^ 2 -
      ∑ j ∈ Finset.range pts.length, wts.getD j 0 * (expansion B.params B.elements c (pts.getD j []) - expansion B.params B.elements e (pts.getD j [])) ^ 2 =
      ∑ j ∈ Finset.range pts.length, wts.getD j 0 * ((ys.getD j 0 - zs.getD j 0) -
      (expansion B.params B.elements c (pts.getD j []) - expansion B.params B.elements e (pts.getD j []))) ^ 2 := by
    have := congrArg₂ (fun a b : ℝ => -2 * a + 2 * b) o₁ o₂
    simp only [Finset.mul_sum, ← Finset.sum_add_distrib] at this
    rw [← sub_eq_zero, ← Finset.sum_sub_distrib, ← Finset.sum_sub_distrib]
    refine Eq.trans (Finset.sum_congr rfl fun j _ => ?_) (this.trans (by norm_num))
    rw [hzx]
    ring
  have e1 : ∑ j ∈ Finset.range pts.length, wts.getD j 0 * ((pts.map (expansion B.params B.elements c)).getD j 0 - (pts.map (expansion B.params B.elements e)).getD j 0) ^ 2 =
      ∑ j ∈ Finset.range pts.length, wts.getD j 0 * (expansion B.params B.elements c (pts.getD j []) - expansion B.params B.elements e (pts.getD j [])) ^ 2 := by
    apply Finset.sum_congr rfl
    intro j hj
    have hj := Finset.mem_range.1 hj
    rw [getD_map_lt _ _ _ _ hj, getD_map_lt _ _ _ _ hj, getD_of_lt _ _ _ hj]
  rw [e1]
  linarith

/-- Two uniform inputs, linear in each: the hypotheses of C183. -/
example : ∃ (P : MParam) (E : (ℝ → ℝ) → ℝ), Valid P ∧ Law P E ∧ Regular (Expansion.mk [P, P] [[0, 0], [0, 1], [1, 0], [1, 1]] none) ∧
    List.Forall₂ Law [P, P] [E, E] ∧ ∀ row ∈ [[0, 0], [0, 1], [1, 0], [1, 1]], List.Forall₂ (· ≤ ·) row [1, 1] := by
  obtain ⟨P, hv, hab, -⟩ := exists_valid (jtab (1 - 1) (1 - 1) (-1) 1)
    (by norm_num [jtab, jacobiRow]) (fun k hk => beta_tab_pos one_pos one_pos (by norm_num) k hk)
    none none 0
  have hl := law_beta 1 1 (-1) 1 one_pos one_pos (by norm_num) P hab
  exact ⟨P, _, hv, hl, ⟨by simp, by simp [Expansion.dims], by simp [Expansion.dims], by simp [SquareOpt]⟩, .cons hl (.cons hl .nil), by simp⟩

end EQ.Stats

namespace EQ.Poly
open EQ.Param EQ.Basis EQ.Sampling EQ.Sampling.Spec EQ.Poly.Spec EQ.Stats

/-! ## Weights of the samples -/

theorem misfit_cons (x : List ℝ) (w y : ℝ) (pts : List (List ℝ)) (wts ys : List ℝ) (f : List ℝ → ℝ) :
    misfit (x :: pts) (w :: wts) (y :: ys) f = w * (f x - y) ^ 2 + misfit pts wts ys f := by
  unfold misfit
  rw [List.length_cons, Finset.sum_range_succ']
  simp [add_comm]

theorem misfit_scale (a : ℝ) (pts : List (List ℝ)) (wts ys : List ℝ) (hw : wts.length = pts.length) (f : List ℝ → ℝ) :
    misfit pts (wts.map (a * ·)) ys f = a * misfit pts wts ys f := by
  unfold misfit
  rw [Finset.mul_sum]
  apply Finset.sum_congr rfl
  intro j hj
  have hj : j < wts.length := by rw [hw]; exact Finset.mem_range.1 hj
  rw [getD_map_lt _ _ _ _ hj, getD_of_lt _ _ _ hj, mul_assoc]

/-- Fits depend on the weighted squared error only up to an increasing function. -/
theorem lsq_congr (B : Expansion) (hB : Regular B) {pts pts' : List (List ℝ)} {wts ys wts' ys' : List ℝ} (h : Sample B.dims pts wts ys) (h' : Sample B.dims pts' wts' ys')
    (a b : ℝ) (ha : 0 < a) (hm : ∀ f, misfit pts' wts' ys' f = a * misfit pts wts ys f + b) (c : List ℝ) : LsqFit B pts' wts' ys' c ↔ LsqFit B pts wts ys c := by
  rw [fitted_iff B hB h, fitted_iff B hB h']
  simp only [hm, add_le_add_iff_right, mul_le_mul_iff_right₀ ha]

/-- **C184.** Least squares depends on the weights only through their ratios: multiplying all of them by a positive number changes nothing. -/
theorem c184_scale (B : Expansion) (hB : Regular B) (pts : List (List ℝ)) (wts ys : List ℝ) (h : Sample B.dims pts wts ys) (a : ℝ) (ha : 0 < a) (c : List ℝ) :
    LsqFit B pts (wts.map (a * ·)) ys c ↔ LsqFit B pts wts ys c := by
  refine lsq_congr B hB h ⟨h.size, by simpa using h.wlen, ?_, h.ylen⟩ a 0 ha (fun f => by rw [misfit_scale a pts wts ys h.wlen, add_zero]) c
  intro w hw
  obtain ⟨u, hu, rfl⟩ := List.mem_map.1 hw
  exact mul_pos ha (h.pos u hu)

/-- **C184.** Two samples at the same point count as one with the sum of the weights and the weighted mean of the outputs. In particular a sample that is
repeated counts twice. -/
theorem c184_repeated (B : Expansion) (hB : Regular B) (x : List ℝ) (w₁ w₂ y₁ y₂ : ℝ) (pts : List (List ℝ)) (wts ys : List ℝ)
    (h : Sample B.dims (x :: x :: pts) (w₁ :: w₂ :: wts) (y₁ :: y₂ :: ys)) (c : List ℝ) :
    LsqFit B (x :: x :: pts) (w₁ :: w₂ :: wts) (y₁ :: y₂ :: ys) c ↔ LsqFit B (x :: pts) ((w₁ + w₂) :: wts) ((w₁ * y₁ + w₂ * y₂) / (w₁ + w₂) :: ys) c := by
  have p1 := h.pos w₁ (by simp)
  have p2 := h.pos w₂ (by simp)
  have h' : Sample B.dims (x :: pts) ((w₁ + w₂) :: wts) ((w₁ * y₁ + w₂ * y₂) / (w₁ + w₂) :: ys) := by
    refine ⟨fun z hz => h.size z (List.mem_cons_of_mem _ hz), by simpa using h.wlen, ?_, by simpa using h.ylen⟩
    intro w hw
    rcases List.mem_cons.1 hw with rfl | hw
    · exact add_pos p1 p2
    · exact h.pos w (by simp [hw])
  refine lsq_congr B hB h' h 1 (w₁ * w₂ / (w₁ + w₂) * (y₁ - y₂) ^ 2) one_pos (fun f => ?_) c
  rw [misfit_cons, misfit_cons, misfit_cons, one_mul]
  field_simp
  ring

/-- **C184.** A further sample on the fit does not change it: coefficients that fit the data, and take the value of the new sample at its point, fit all,
and any coefficients that fit all fit the old data and take that value too. -/
theorem c184_on_fit (B : Expansion) (hB : Regular B) (x : List ℝ) (w y : ℝ) (pts : List (List ℝ)) (wts ys : List ℝ) (h : Sample B.dims pts wts ys)
    (hx : x.length = B.dims) (hw : 0 < w) (c : List ℝ) (hc : LsqFit B pts wts ys c) (hy : B.polyfit c [x] = .ok [y]) :
    LsqFit B (x :: pts) (w :: wts) (y :: ys) c ∧ ∀ e, LsqFit B (x :: pts) (w :: wts) (y :: ys) e → LsqFit B pts wts ys e ∧ B.polyfit e [x] = .ok [y] := by
  have h' : Sample B.dims (x :: pts) (w :: wts) (y :: ys) := by
    refine ⟨?_, by simpa using h.wlen, ?_, by simpa using h.ylen⟩
    · intro z hz
      rcases List.mem_cons.1 hz with rfl | hz
      · exact hx
      · exact h.size z hz
    · intro u hu
      rcases List.mem_cons.1 hu with rfl | hu
      · exact hw
      · exact h.pos u hu
  rw [fitted_iff B hB h] at hc
  have hval : ∀ z : List ℝ, z.length = B.elements.length → B.polyfit z [x] = .ok [expansion B.params B.elements (B.eff z) x] := fun z hz =>
    polyfit_eq B hB z hz [x] (by simpa using hx)
  have hy' : expansion B.params B.elements (B.eff c) x = y := by
    rw [hval c hc.1] at hy
    simpa using hy
  have hcc : misfit (x :: pts) (w :: wts) (y :: ys) (expansion B.params B.elements (B.eff c)) = misfit pts wts ys (expansion B.params B.elements (B.eff c)) := by
    rw [misfit_cons, hy']
    ring
  refine ⟨(fitted_iff B hB h' c).2 ⟨hc.1, fun z hz => ?_⟩, fun e he => ?_⟩
  · rw [hcc, misfit_cons]
    have := hc.2 z hz
    have := mul_nonneg hw.le (sq_nonneg (expansion B.params B.elements (B.eff z) x - y))
    linarith
  · rw [fitted_iff B hB h'] at he
    have h1 := he.2 c hc.1
    rw [hcc, misfit_cons] at h1
    have h2 := hc.2 e he.1
    have h3 := mul_nonneg hw.le (sq_nonneg (expansion B.params B.elements (B.eff e) x - y))
    refine ⟨(fitted_iff B hB h e).2 ⟨he.1, fun z hz => ?_⟩, ?_⟩
    · have := hc.2 z hz
      linarith
    · have h4 : w * (expansion B.params B.elements (B.eff e) x - y) ^ 2 = 0 := by linarith
      have h5 := (mul_eq_zero.1 h4).resolve_left hw.ne'
      rw [hval e he.1, sub_eq_zero.1 (pow_eq_zero_iff two_ne_zero |>.1 h5)]

/-- The mean of the outputs is a fit of the constant to two repeated samples with weights one and three: the hypotheses of C184. -/
example : ∃ P : MParam, Regular (Expansion.mk [P] [[0]] none) ∧ Sample 1 [[1], [1]] [1, 3] [0, 4] ∧ LsqFit (Expansion.mk [P] [[0]] none) [[1], [1]] [1, 3] [0, 4] [3] ∧
    (Expansion.mk [P] [[0]] none).polyfit [3] [[2]] = .ok [3] := by
  have hB : Regular (Expansion.mk [(exists_uniform.choose)] [[0]] none) := ⟨by simp, by simp [Expansion.dims], fun _ => ⟨0, rfl⟩, by simp [SquareOpt]⟩
  have hs : Sample (Expansion.mk [(exists_uniform.choose)] [[0]] none).dims [[1], [1]] [1, 3] [0, 4] := ⟨by simp [Expansion.dims], by simp, by simp, by simp⟩
  have hx : ∀ (a : ℝ) (x : List ℝ), x.length = 1 → expansion [(exists_uniform.choose)] [[0]] [a] x = a := by
    intro a x hx
    rw [sum_expansion _ _ _ (by simp)]
    have : basisFun [exists_uniform.choose] [0] x = 1 := Sampling.basisFun_zero [exists_uniform.choose] x (by simpa using hx)
    simp [this]
  refine ⟨_, hB, hs, (fitted_iff _ hB hs _).2 ⟨by simp, fun z hz => ?_⟩, ?_⟩
  · obtain ⟨a, rfl⟩ := List.length_eq_one_iff.1 (by simpa using hz)
    rw [eff_none _ rfl, eff_none _ rfl, misfit_cons, misfit_cons, misfit_cons, misfit_cons, hx _ _ (by simp), hx _ _ (by simp)]
    simp only [misfit, List.length_nil, Finset.range_zero, Finset.sum_empty]
    nlinarith [sq_nonneg (a - 3)]
  · rw [polyfit_eq _ hB _ (by simp) _ (by simp [Expansion.dims]), eff_none _ rfl]
    simp [hx]

end EQ.Poly
