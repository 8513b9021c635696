import Verif.Stats.NoiseProps

/-!
# The influence of one output on a least-squares fit (C228)
-/

namespace EQ.Poly
open EQ.Param EQ.Basis EQ.Sampling EQ.Sampling.Spec EQ.Poly.Spec EQ.Stats

theorem expansion_diff (B : Expansion) {c e : List ℝ} (hc : c.length = B.elements.length) (he : e.length = B.elements.length) :
    ∃ z : List ℝ, z.length = B.elements.length ∧ ∀ x, expansion B.params B.elements z x =
      expansion B.params B.elements e x - expansion B.params B.elements c x := by
  refine ⟨(List.range B.elements.length).map fun s => e.getD s 0 - c.getD s 0, by simp, fun x => ?_⟩
  rw [expansion_range, sum_expansion _ _ _ hc, sum_expansion _ _ _ he, ← Finset.sum_sub_distrib]
  exact Finset.sum_congr rfl fun s _ => by ring

/-- **C228.** If the output `y` of one sample is replaced by `y'`, the fit at that sample moves in the same direction and by at most
as much: `p` and `p'` being the fitted values, `(p' - p)² ≤ (p' - p) (y' - y)`. -/
theorem c228_influence (B : Expansion) (hB : Regular B) (hR : B.invR = none) (x : List ℝ) (w y y' : ℝ) (pts : List (List ℝ)) (wts ys : List ℝ)
    (h : Sample B.dims (x :: pts) (w :: wts) (y :: ys)) (c c' : List ℝ) (f : LsqFit B (x :: pts) (w :: wts) (y :: ys) c)
    (f' : LsqFit B (x :: pts) (w :: wts) (y' :: ys) c') :
    ∃ p p', B.polyfit c [x] = .ok [p] ∧ B.polyfit c' [x] = .ok [p'] ∧ (p' - p) ^ 2 ≤ (p' - p) * (y' - y) ∧
      0 ≤ (p' - p) * (y' - y) ∧ |p' - p| ≤ |y' - y| := by
  have h' : Sample B.dims (x :: pts) (w :: wts) (y' :: ys) := ⟨h.size, h.wlen, h.pos, by simpa using h.ylen⟩
  have l := ((fitted_iff B hB h c).1 f).1
  have l' := ((fitted_iff B hB h' c').1 f').1
  have hx : ∀ z ∈ [x], z.length = B.dims := by
    intro z hz
    rw [List.mem_singleton.1 hz]
    exact h.size x (List.mem_cons_self ..)
  obtain ⟨z, hz, hd⟩ := expansion_diff B l l'
  have o := fitted_orth B hB h c f z hz
  have o' := fitted_orth B hB h' c' f' z hz
  simp only [eff_none B hR] at o o'
  simp only [hd] at o o'
  rw [List.length_cons, Finset.sum_range_succ'] at o o'
  simp only [List.getD_cons_zero, List.getD_cons_succ] at o o'
  have hw : 0 < w := h.pos w (List.mem_cons_self ..)
  have hrest : 0 ≤ ∑ j ∈ Finset.range pts.length, wts.getD j 0 * (expansion B.params B.elements c' (pts.getD j []) -
      expansion B.params B.elements c (pts.getD j [])) ^ 2 := by
    refine Finset.sum_nonneg fun j hj => mul_nonneg ?_ (sq_nonneg _)
    have hl : wts.length = pts.length := by simpa using h.wlen
    have hj' : j < wts.length := by rw [hl]; exact Finset.mem_range.1 hj
    rw [getD_of_lt _ _ _ hj']
    exact (h.pos _ (List.mem_cons_of_mem _ (List.getElem_mem _))).le
  have e := congrArg₂ (fun a b => a - b) o' o
  rw [add_sub_add_comm, ← Finset.sum_sub_distrib, sub_zero] at e
  have e2 : ∑ j ∈ Finset.range pts.length, (wts.getD j 0 * ((expansion B.params B.elements c' (pts.getD j []) - ys.getD j 0) *
        (expansion B.params B.elements c' (pts.getD j []) - expansion B.params B.elements c (pts.getD j []))) -
      wts.getD j 0 * ((expansion B.params B.elements c (pts.getD j []) - ys.getD j 0) *
        (expansion B.params B.elements c' (pts.getD j []) - expansion B.params B.elements c (pts.getD j [])))) =
      ∑ j ∈ Finset.range pts.length, wts.getD j 0 * (expansion B.params B.elements c' (pts.getD j []) -
        expansion B.params B.elements c (pts.getD j [])) ^ 2 := Finset.sum_congr rfl fun j _ => by ring
  rw [e2] at e
  refine ⟨expansion B.params B.elements c x, expansion B.params B.elements c' x, ?_, ?_, ?_⟩
  · rw [polyfit_eq B hB c l [x] hx, eff_none B hR]; rfl
  · rw [polyfit_eq B hB c' l' [x] hx, eff_none B hR]; rfl
  · generalize expansion B.params B.elements c x = p at e ⊢
    generalize expansion B.params B.elements c' x = p' at e ⊢
    have key : (p' - p) ^ 2 ≤ (p' - p) * (y' - y) := by
      have : w * ((p' - p) * ((p' - p) - (y' - y))) ≤ 0 := by
        have e3 : w * ((p' - p) * ((p' - p) - (y' - y))) = w * ((p' - y') * (p' - p)) - w * ((p - y) * (p' - p)) := by ring
        rw [e3]
        linarith
      have := nonpos_of_mul_nonpos_right this hw
      nlinarith
    refine ⟨key, (sq_nonneg _).trans key, ?_⟩
    by_cases h0 : p' - p = 0
    · rw [h0, abs_zero]; exact abs_nonneg _
    · have hp : 0 < |p' - p| := abs_pos.2 h0
      have h1 : |p' - p| * |p' - p| ≤ |p' - p| * |y' - y| := by
        rw [← abs_mul, ← abs_mul, abs_of_nonneg (mul_self_nonneg _)]
        refine le_trans ?_ (le_abs_self _)
        nlinarith
      exact le_of_mul_le_mul_left h1 hp

/-- **C228, a sample left out.** The value `p` of the fit to all samples lies between the output `y` of a sample and the value `q`
there of a fit made without that sample; the fit therefore never deviates more from an output than a fit that has not seen it. -/
theorem c228_left_out (B : Expansion) (hB : Regular B) (hR : B.invR = none) (x : List ℝ) (w y : ℝ) (pts : List (List ℝ)) (wts ys : List ℝ)
    (h : Sample B.dims (x :: pts) (w :: wts) (y :: ys)) (c e : List ℝ) (f : LsqFit B (x :: pts) (w :: wts) (y :: ys) c)
    (g : LsqFit B pts wts ys e) :
    ∃ p q, B.polyfit c [x] = .ok [p] ∧ B.polyfit e [x] = .ok [q] ∧ p ∈ Set.uIcc q y ∧ |p - y| ≤ |q - y| := by
  have hs : Sample B.dims pts wts ys := ⟨fun z hz => h.size z (List.mem_cons_of_mem _ hz), by simpa using h.wlen,
    fun v hv => h.pos v (List.mem_cons_of_mem _ hv), by simpa using h.ylen⟩
  have hx := h.size x (List.mem_cons_self ..)
  have le := ((fitted_iff B hB hs e).1 g).1
  have hq := polyfit_eq B hB e le [x] (by simpa using hx)
  simp only [List.map_cons, List.map_nil] at hq
  generalize expansion B.params B.elements (B.eff e) x = q at hq
  have g' := (c184_on_fit B hB x w q pts wts ys hs hx (h.pos w (List.mem_cons_self ..)) e g hq).1
  have hs' : Sample B.dims (x :: pts) (w :: wts) (q :: ys) := ⟨h.size, h.wlen, h.pos, by simpa using h.ylen⟩
  obtain ⟨p1, p, e1, e2, k1, k2, k3⟩ := c228_influence B hB hR x w q y pts wts ys hs' e c g' f
  rw [hq] at e1
  obtain rfl : q = p1 := by simpa using Except.ok.inj e1
  have hmem : p ∈ Set.uIcc q y := by
    rw [Set.mem_uIcc]
    rcases le_total q y with hqy | hqy
    · left
      have h1 : 0 ≤ p - q := by
        by_contra hn
        push Not at hn
        have hne : p - q ≠ 0 := by intro h0; linarith
        have : (p - q) ^ 2 > 0 := by positivity
        nlinarith
      refine ⟨by linarith, ?_⟩
      rw [abs_of_nonneg h1, abs_of_nonneg (by linarith)] at k3
      linarith
    · right
      have h1 : p - q ≤ 0 := by
        by_contra hn
        push Not at hn
        have hne : p - q ≠ 0 := by intro h0; linarith
        have : (p - q) ^ 2 > 0 := by positivity
        nlinarith
      refine ⟨?_, by linarith⟩
      rw [abs_of_nonpos h1, abs_of_nonpos (by linarith)] at k3
      linarith
  refine ⟨p, q, e2, hq, hmem, ?_⟩
  rw [Set.mem_uIcc] at hmem
  rcases hmem with ⟨a, b⟩ | ⟨a, b⟩
  · rw [abs_of_nonpos (by linarith), abs_of_nonpos (by linarith)]; linarith
  · rw [abs_of_nonneg (by linarith), abs_of_nonneg (by linarith)]; linarith

/-- The hypotheses hold for constants fitted to the outputs 0 and 4 with weights 1 and 3 (the fit is 3) and to the output 4 alone. -/
example : ∃ P : MParam, Regular (Expansion.mk [P] [[0]] none) ∧ Sample 1 [[1], [2]] [1, 3] [0, 4] ∧
    LsqFit (Expansion.mk [P] [[0]] none) [[1], [2]] [1, 3] [0, 4] [3] ∧ LsqFit (Expansion.mk [P] [[0]] none) [[2]] [3] [4] [4] ∧
    LsqFit (Expansion.mk [P] [[0]] none) [[1], [2]] [1, 3] [8, 4] [5] := by
  have hB : Regular (Expansion.mk [(exists_uniform.choose)] [[0]] none) := ⟨by simp, by simp [Expansion.dims], fun _ => ⟨0, rfl⟩, by simp [SquareOpt]⟩
  have hs : ∀ y, Sample (Expansion.mk [(exists_uniform.choose)] [[0]] none).dims [[1], [2]] [1, 3] [y, 4] := fun y =>
    ⟨by simp [Expansion.dims], by simp, by simp, by simp⟩
  have hs1 : Sample (Expansion.mk [(exists_uniform.choose)] [[0]] none).dims [[2]] [3] [4] := ⟨by simp [Expansion.dims], by simp, by simp, by simp⟩
  have hx : ∀ (a : ℝ) (x : List ℝ), x.length = 1 → expansion [(exists_uniform.choose)] [[0]] [a] x = a := by
    intro a x hx
    rw [sum_expansion _ _ _ (by simp)]
    have : basisFun [exists_uniform.choose] [0] x = 1 := Sampling.basisFun_zero [exists_uniform.choose] x (by simpa using hx)
    simp [this]
  have two : ∀ y : ℝ, LsqFit (Expansion.mk [exists_uniform.choose] [[0]] none) [[1], [2]] [1, 3] [y, 4] [(y + 12) / 4] := by
    refine fun y => (fitted_iff _ hB (hs y) _).2 ⟨by simp, fun z hz => ?_⟩
    obtain ⟨a, rfl⟩ := List.length_eq_one_iff.1 (by simpa using hz)
    rw [eff_none _ rfl, eff_none _ rfl, misfit_cons, misfit_cons, misfit_cons, misfit_cons, hx _ _ (by simp), hx _ _ (by simp),
      hx _ _ (by simp), hx _ _ (by simp)]
    simp only [misfit, List.length_nil, Finset.range_zero, Finset.sum_empty]
    nlinarith [sq_nonneg (a - (y + 12) / 4)]
  refine ⟨_, hB, hs 0, by have := two 0; norm_num at this; exact this, (fitted_iff _ hB hs1 _).2 ⟨by simp, fun z hz => ?_⟩,
    by have := two 8; norm_num at this; exact this⟩
  obtain ⟨a, rfl⟩ := List.length_eq_one_iff.1 (by simpa using hz)
  rw [eff_none _ rfl, eff_none _ rfl, misfit_cons, misfit_cons, hx _ _ (by simp), hx _ _ (by simp)]
  simp only [misfit, List.length_nil, Finset.range_zero, Finset.sum_empty]
  nlinarith [sq_nonneg (a - 4)]

end EQ.Poly
