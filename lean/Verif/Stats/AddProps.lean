import Verif.Stats.InfluenceProps

/-!
# More weight, repeated samples and further samples (C232)
-/

namespace EQ.Poly
open EQ.Param EQ.Basis EQ.Sampling EQ.Sampling.Spec EQ.Poly.Spec EQ.Stats

/-- **C232, weights.** If the weight of one sample is raised, the fit comes no further from its output, and fits the other samples no better: `p` and `p'` are the fitted
values there before and after. -/
theorem c232_weight (B : Expansion) (hB : Regular B) (x : List ℝ) (w w' y : ℝ) (hw : w < w') (pts : List (List ℝ)) (wts ys : List ℝ)
    (h : Sample B.dims (x :: pts) (w :: wts) (y :: ys)) (c c' : List ℝ) (f : LsqFit B (x :: pts) (w :: wts) (y :: ys) c)
    (f' : LsqFit B (x :: pts) (w' :: wts) (y :: ys) c') :
    ∃ p p' v v', B.polyfit c [x] = .ok [p] ∧ B.polyfit c' [x] = .ok [p'] ∧ |p' - y| ≤ |p - y| ∧ B.polyfit c pts = .ok (pts.map v) ∧
      B.polyfit c' pts = .ok (pts.map v') ∧ misfit pts wts ys v ≤ misfit pts wts ys v' := by
  have h' : Sample B.dims (x :: pts) (w' :: wts) (y :: ys) := by
    refine ⟨h.size, by simpa using h.wlen, fun u hu => ?_, h.ylen⟩
    rcases List.mem_cons.1 hu with rfl | hu
    · exact (h.pos w (List.mem_cons_self ..)).trans hw
    · exact h.pos u (List.mem_cons_of_mem _ hu)
  obtain ⟨l, m⟩ := (fitted_iff B hB h c).1 f
  obtain ⟨l', m'⟩ := (fitted_iff B hB h' c').1 f'
  have hx := h.size x (List.mem_cons_self ..)
  have hp : ∀ z ∈ pts, z.length = B.dims := fun z hz => h.size z (List.mem_cons_of_mem _ hz)
  have a := m c' l'
  have b := m' c l
  rw [misfit_cons, misfit_cons] at a b
  have key : (expansion B.params B.elements (B.eff c') x - y) ^ 2 ≤ (expansion B.params B.elements (B.eff c) x - y) ^ 2 := by
    have hd : 0 < w' - w := sub_pos.2 hw
    have : (w' - w) * (expansion B.params B.elements (B.eff c') x - y) ^ 2 ≤ (w' - w) * (expansion B.params B.elements (B.eff c) x - y) ^ 2 := by
      rw [sub_mul, sub_mul]; linarith
    exact le_of_mul_le_mul_left this hd
  refine ⟨_, _, _, _, polyfit_eq B hB c l [x] (by simpa using hx), polyfit_eq B hB c' l' [x] (by simpa using hx), sq_le_sq.1 key,
    polyfit_eq B hB c l pts hp, polyfit_eq B hB c' l' pts hp, ?_⟩
  have hw0 : 0 < w := h.pos w (List.mem_cons_self ..)
  have := mul_le_mul_of_nonneg_left key hw0.le
  linarith

/-- **C232, repetition.** If a sample is given twice, the fit comes no further from its output. -/
theorem c232_repeated (B : Expansion) (hB : Regular B) (x : List ℝ) (w y : ℝ) (pts : List (List ℝ)) (wts ys : List ℝ)
    (h : Sample B.dims (x :: pts) (w :: wts) (y :: ys)) (c c' : List ℝ) (f : LsqFit B (x :: pts) (w :: wts) (y :: ys) c)
    (f' : LsqFit B (x :: x :: pts) (w :: w :: wts) (y :: y :: ys) c') :
    ∃ p p', B.polyfit c [x] = .ok [p] ∧ B.polyfit c' [x] = .ok [p'] ∧ |p' - y| ≤ |p - y| := by
  have hw := h.pos w (List.mem_cons_self ..)
  have h2 : Sample B.dims (x :: x :: pts) (w :: w :: wts) (y :: y :: ys) := by
    refine ⟨fun z hz => ?_, by simpa using h.wlen, fun u hu => ?_, by simpa using h.ylen⟩
    · rcases List.mem_cons.1 hz with rfl | hz
      · exact h.size _ (List.mem_cons_self ..)
      · exact h.size z hz
    · rcases List.mem_cons.1 hu with rfl | hu
      · exact hw
      · exact h.pos u hu
  have g := (c184_repeated B hB x w w y y pts wts ys h2 c').1 f'
  have e : (w * y + w * y) / (w + w) = y := by
    have : w ≠ 0 := hw.ne'
    field_simp
  rw [e] at g
  obtain ⟨p, p', -, -, h1, h2, h3, -⟩ := c232_weight B hB x w (w + w) y (by linarith) pts wts ys h c c' f g
  exact ⟨p, p', h1, h2, h3⟩

/-- **C232, a further sample.** The weighted sum of the squared errors of a least-squares fit never falls when a sample is added, and rises by at most the weighted squared error that
the old fit makes at the new sample. -/
theorem c232_added (B : Expansion) (hB : Regular B) (x : List ℝ) (w y : ℝ) (pts : List (List ℝ)) (wts ys : List ℝ)
    (h : Sample B.dims (x :: pts) (w :: wts) (y :: ys)) (c c' : List ℝ) (f : LsqFit B pts wts ys c) (f' : LsqFit B (x :: pts) (w :: wts) (y :: ys) c') :
    ∃ q v v', B.polyfit c [x] = .ok [q] ∧ B.polyfit c pts = .ok (pts.map v) ∧ B.polyfit c' (x :: pts) = .ok ((x :: pts).map v') ∧
      misfit pts wts ys v ≤ misfit (x :: pts) (w :: wts) (y :: ys) v' ∧
      misfit (x :: pts) (w :: wts) (y :: ys) v' ≤ misfit pts wts ys v + w * (q - y) ^ 2 := by
  have hs : Sample B.dims pts wts ys := ⟨fun z hz => h.size z (List.mem_cons_of_mem _ hz), by simpa using h.wlen,
    fun v hv => h.pos v (List.mem_cons_of_mem _ hv), by simpa using h.ylen⟩
  obtain ⟨l, m⟩ := (fitted_iff B hB hs c).1 f
  obtain ⟨l', m'⟩ := (fitted_iff B hB h c').1 f'
  have hx := h.size x (List.mem_cons_self ..)
  refine ⟨_, _, _, polyfit_eq B hB c l [x] (by simpa using hx), polyfit_eq B hB c l pts hs.size, polyfit_eq B hB c' l' (x :: pts) h.size, ?_, ?_⟩
  · have hw := h.pos w (List.mem_cons_self ..)
    rw [misfit_cons]
    have := m c' l'
    have : 0 ≤ w * (expansion B.params B.elements (B.eff c') x - y) ^ 2 := by positivity
    linarith
  · have := m' c l
    rw [misfit_cons x w y pts wts ys (expansion B.params B.elements (B.eff c))] at this
    linarith

/-- Constants: the outputs 0 and 4 with weights 1 and 3 are fitted by 3, with weights 4 and 3 by `12 / 7`, the first repeated by `12 / 5`, the second alone by 4. -/
example : ∃ P : MParam, Regular (Expansion.mk [P] [[0]] none) ∧ Sample 1 [[1], [2]] [1, 3] [0, 4] ∧
    LsqFit (Expansion.mk [P] [[0]] none) [[1], [2]] [1, 3] [0, 4] [3] ∧ LsqFit (Expansion.mk [P] [[0]] none) [[1], [2]] [4, 3] [0, 4] [12 / 7] ∧
    LsqFit (Expansion.mk [P] [[0]] none) [[1], [1], [2]] [1, 1, 3] [0, 0, 4] [12 / 5] ∧ LsqFit (Expansion.mk [P] [[0]] none) [[2]] [3] [4] [4] := by
  have hB : Regular (Expansion.mk [(exists_uniform.choose)] [[0]] none) := ⟨by simp, by simp [Expansion.dims], fun _ => ⟨0, rfl⟩, by simp [SquareOpt]⟩
  have hx : ∀ (a : ℝ) (x : List ℝ), x.length = 1 → expansion [(exists_uniform.choose)] [[0]] [a] x = a := by
    intro a x hx
    rw [sum_expansion _ _ _ (by simp)]
    have : basisFun [exists_uniform.choose] [0] x = 1 := Sampling.basisFun_zero [exists_uniform.choose] x (by simpa using hx)
    simp [this]
  have he : ∀ c, (Expansion.mk [(exists_uniform.choose)] [[0]] none).eff c = c := eff_none _ rfl
  have h0 : ∀ f, misfit [] [] [] f = 0 := fun f => by simp [misfit]
  have hs : ∀ w : ℝ, 0 < w → Sample (Expansion.mk [(exists_uniform.choose)] [[0]] none).dims [[1], [2]] [w, 3] [0, 4] := fun w hw =>
    ⟨by simp [Expansion.dims], by simp, by simp [hw], by simp⟩
  have hs1 : Sample (Expansion.mk [(exists_uniform.choose)] [[0]] none).dims [[2]] [3] [4] := ⟨by simp [Expansion.dims], by simp, by simp, by simp⟩
  have hs3 : Sample (Expansion.mk [(exists_uniform.choose)] [[0]] none).dims [[1], [1], [2]] [1, 1, 3] [0, 0, 4] :=
    ⟨by simp [Expansion.dims], by simp, by simp, by simp⟩
  refine ⟨_, hB, hs 1 one_pos, (fitted_iff _ hB (hs 1 one_pos) _).2 ⟨by simp, fun z hz => ?_⟩, (fitted_iff _ hB (hs 4 (by norm_num)) _).2 ⟨by simp, fun z hz => ?_⟩,
    (fitted_iff _ hB hs3 _).2 ⟨by simp, fun z hz => ?_⟩, (fitted_iff _ hB hs1 _).2 ⟨by simp, fun z hz => ?_⟩⟩ <;>
  obtain ⟨a, rfl⟩ := List.length_eq_one_iff.1 (by simpa using hz) <;>
  simp only [he, misfit_cons, h0, hx _ [1] rfl, hx _ [2] rfl]
  · nlinarith [sq_nonneg (a - 3)]
  · nlinarith [sq_nonneg (a - 12 / 7)]
  · nlinarith [sq_nonneg (a - 12 / 5)]
  · nlinarith [sq_nonneg (a - 4)]

end EQ.Poly
