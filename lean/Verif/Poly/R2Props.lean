import Verif.Poly.EquivFit
import Verif.Data.ScoreProps

/-!
# The training score of a least-squares fit (C198)
-/

namespace EQ.Poly
open EQ.Param EQ.Basis EQ.Sampling EQ.Sampling.Spec EQ.Poly.Spec EQ.Stats EQ.Data

/-- A list as the vector of its first `n` entries: outputs and predictions handed to `score` (`poly.py:835-837`). -/
def vecOf (l : List ℝ) (n : ℕ) : Fin n → ℝ := fun i => l.getD i 0

theorem const_row (B : Expansion) (hR : B.invR = none) (h0 : List.replicate B.dims 0 ∈ B.elements) :
    ∃ z : List ℝ, z.length = B.elements.length ∧ ∀ x, x.length = B.dims → expansion B.params B.elements (B.eff z) x = 1 := by
  obtain ⟨z, hz, he⟩ := embed B.params [List.replicate B.dims 0] B.elements (by simpa using h0) [1] rfl
  refine ⟨z, hz, fun x hx => ?_⟩
  rw [eff_none B hR, he x, sum_expansion _ _ _ rfl]
  simp only [List.length_cons, List.length_nil, zero_add, Finset.sum_range_one, List.getD_cons_zero, one_mul]
  exact Sampling.basisFun_zero B.params x hx

theorem polyfit_vec (B : Expansion) (hB : Regular B) {pts : List (List ℝ)} (hs : ∀ x ∈ pts, x.length = B.dims) (c : List ℝ) (hc : c.length = B.elements.length) :
    ∃ ps, B.polyfit c pts = .ok ps ∧ ps.length = pts.length ∧ ∀ j < pts.length, ps.getD j 0 = expansion B.params B.elements (B.eff c) (pts.getD j []) := by
  refine ⟨_, polyfit_eq B hB c hc pts hs, by simp, fun j hj => ?_⟩
  rw [getD_of_lt _ _ _ (by simpa using hj), List.getElem_map, getD_of_lt _ _ _ hj]

/-- The residuals of the fit sum to zero and are orthogonal to the predictions. -/
theorem residuals (B : Expansion) (hB : Regular B) (hR : B.invR = none) (h0 : List.replicate B.dims 0 ∈ B.elements) {pts : List (List ℝ)} {wts ys : List ℝ}
    (hs : Sample B.dims pts wts ys) (w : ℝ) (hw : ∀ v ∈ wts, v = w) {c : List ℝ} (f : LsqFit B pts wts ys c) {ps : List ℝ} (hp : B.polyfit c pts = .ok ps) :
    ∑ i, (vecOf ps pts.length i - vecOf ys pts.length i) = 0 ∧ ∑ i, (vecOf ps pts.length i - vecOf ys pts.length i) * vecOf ps pts.length i = 0 := by
  have hc := ((fitted_iff B hB hs c).1 f).1
  obtain ⟨ps', hp', -, hv⟩ := polyfit_vec B hB hs.size c hc
  rw [hp] at hp'
  obtain rfl := Except.ok.inj hp'
  have key : ∀ z : List ℝ, z.length = B.elements.length →
      ∑ i : Fin pts.length, (vecOf ps pts.length i - vecOf ys pts.length i) * expansion B.params B.elements (B.eff z) (pts.getD i []) = 0 := by
    intro z hz
    have o := fitted_orth B hB hs c f z hz
    rw [← Fin.sum_univ_eq_sum_range (fun j => wts.getD j 0 * ((expansion B.params B.elements (B.eff c) (pts.getD j []) - ys.getD j 0) *
      expansion B.params B.elements (B.eff z) (pts.getD j [])))] at o
    by_cases h : pts.length = 0
    · exact Fintype.sum_eq_zero _ fun i => absurd i.2 (by omega)
    have hwp : 0 < w := by
      have hl := hs.wlen
      have : wts[0]'(by omega) ∈ wts := List.getElem_mem _
      rw [← hw _ this]
      exact hs.pos _ this
    have e : ∀ i : Fin pts.length, wts.getD i 0 * ((expansion B.params B.elements (B.eff c) (pts.getD i []) - ys.getD i 0) *
        expansion B.params B.elements (B.eff z) (pts.getD i [])) = w * ((vecOf ps pts.length i - vecOf ys pts.length i) * expansion B.params B.elements (B.eff z) (pts.getD i [])) := by
      intro i
      have hi : (i : ℕ) < wts.length := by rw [hs.wlen]; exact i.2
      rw [getD_of_lt wts _ _ hi, hw _ (List.getElem_mem _)]
      unfold vecOf
      rw [hv i i.2]
    rw [Finset.sum_congr rfl fun i _ => e i, ← Finset.mul_sum] at o
    exact (mul_eq_zero.1 o).resolve_left hwp.ne'
  obtain ⟨z, hz, h1⟩ := const_row B hR h0
  refine ⟨?_, ?_⟩
  · rw [← key z hz]
    apply Finset.sum_congr rfl
    intro i _
    rw [h1 _ (by rw [getD_of_lt _ _ _ i.2]; exact hs.size _ (List.getElem_mem _)), mul_one]
  · rw [← key c hc]
    apply Finset.sum_congr rfl
    intro i _
    rw [← hv i i.2]
    rfl

theorem cov_pos_of_ne {n : ℕ} (y : Fin n → ℝ) (i j : Fin n) (h : y i ≠ y j) : 0 < cov y y := by
  rcases (cov_self_nonneg y).lt_or_eq with h' | h'
  · exact h'
  · have hn : 0 < n := i.pos
    have := (cov_self_eq_zero hn y).1 h'.symm
    exact absurd (this i j) h

/-- **C198.** The training `r2` of a least-squares fit with equal weights whose basis contains the constant is the fraction of the variance of the outputs that the fit explains: one minus the sum of squared
residuals over the sum of squared deviations from the mean. -/
theorem c198_r2 (B : Expansion) (hB : Regular B) (hR : B.invR = none) (h0 : List.replicate B.dims 0 ∈ B.elements) (pts : List (List ℝ)) (wts ys : List ℝ)
    (hs : Sample B.dims pts wts ys) (w : ℝ) (hw : ∀ v ∈ wts, v = w) (hy : ∃ a ∈ ys, ∃ b ∈ ys, a ≠ b) (c : List ℝ) (f : LsqFit B pts wts ys c) (X : Option (ℕ × ℕ)) :
    ∃ ps, B.polyfit c pts = .ok ps ∧ score (vecOf ys pts.length) (vecOf ps pts.length) .r2 X =
      .ok (1 - (∑ j ∈ Finset.range pts.length, (ys.getD j 0 - ps.getD j 0) ^ 2) /
        ∑ j ∈ Finset.range pts.length, (ys.getD j 0 - (∑ k ∈ Finset.range pts.length, ys.getD k 0) / pts.length) ^ 2) := by
  have hc := ((fitted_iff B hB hs c).1 f).1
  obtain ⟨ps, hp, -, -⟩ := polyfit_vec B hB hs.size c hc
  obtain ⟨r1, r2⟩ := residuals B hB hR h0 hs w hw f hp
  obtain ⟨a, ha, b, hb, hab⟩ := hy
  obtain ⟨i, hi, rfl⟩ := List.getElem_of_mem ha
  obtain ⟨j, hj, rfl⟩ := List.getElem_of_mem hb
  have hl := hs.ylen
  have hcov : 0 < cov (vecOf ys pts.length) (vecOf ys pts.length) := by
    apply cov_pos_of_ne _ ⟨i, by omega⟩ ⟨j, by omega⟩
    unfold vecOf
    rw [getD_of_lt _ _ _ hi, getD_of_lt _ _ _ hj]
    exact hab
  refine ⟨ps, hp, ?_⟩
  have := r2_explained (by omega) _ _ r1 r2 hcov
  simp only [score]
  rw [this]
  unfold Data.mean vecOf
  rw [← Fin.sum_univ_eq_sum_range (fun j => (ys.getD j 0 - ps.getD j 0) ^ 2), ← Fin.sum_univ_eq_sum_range (fun k => ys.getD k 0),
    ← Fin.sum_univ_eq_sum_range (fun j => (ys.getD j 0 - (∑ k : Fin pts.length, ys.getD k 0) / pts.length) ^ 2)]

/-- **C198, enlarged.** A larger basis never lowers the training `r2`. -/
theorem c198_enlarged (B B' : Expansion) (hB : Regular B) (hB' : Regular B') (hR : B.invR = none) (hR' : B'.invR = none) (hp : B'.params = B.params)
    (h0 : List.replicate B.dims 0 ∈ B.elements) (hsub : B.elements ⊆ B'.elements) (pts : List (List ℝ)) (wts ys : List ℝ) (hs : Sample B.dims pts wts ys)
    (w : ℝ) (hw : ∀ v ∈ wts, v = w) (hy : ∃ a ∈ ys, ∃ b ∈ ys, a ≠ b) (c c' : List ℝ) (f : LsqFit B pts wts ys c) (f' : LsqFit B' pts wts ys c') (X X' : Option (ℕ × ℕ)) :
    ∃ ps ps' r r', B.polyfit c pts = .ok ps ∧ B'.polyfit c' pts = .ok ps' ∧ score (vecOf ys pts.length) (vecOf ps pts.length) .r2 X = .ok r ∧
      score (vecOf ys pts.length) (vecOf ps' pts.length) .r2 X' = .ok r' ∧ r ≤ r' := by
  have hd : B'.dims = B.dims := by unfold Expansion.dims; rw [hp]
  have hs' : Sample B'.dims pts wts ys := by rw [hd]; exact hs
  obtain ⟨ps, e, es⟩ := c198_r2 B hB hR h0 pts wts ys hs w hw hy c f X
  obtain ⟨ps', e', es'⟩ := c198_r2 B' hB' hR' (by rw [hd]; exact hsub h0) pts wts ys hs' w hw hy c' f' X'
  refine ⟨ps, ps', _, _, e, e', es, es', ?_⟩
  have l := ((fitted_iff B hB hs c).1 f).1
  have l' := ((fitted_iff B' hB' hs' c').1 f').1
  obtain ⟨g, g', hg, hg', hm⟩ := c171_enlarged B B' hB hB' hR hR' hp hsub pts wts ys hs c c' f f'
  obtain ⟨q, eq, -, hv⟩ := polyfit_vec B hB hs.size c l
  rw [e] at eq
  obtain rfl := Except.ok.inj eq
  obtain ⟨q', eq', -, hv'⟩ := polyfit_vec B' hB' hs'.size c' l'
  rw [e'] at eq'
  obtain rfl := Except.ok.inj eq'
  have hge : ∀ j < pts.length, g (pts.getD j []) = ps.getD j 0 := by
    intro j hj
    have hx : (pts.getD j []).length = B.dims := by rw [getD_of_lt _ _ _ hj]; exact hs.size _ (List.getElem_mem _)
    have := hg _ hx
    rw [polyfit_eq B hB c l _ (by simpa using hx)] at this
    rw [hv j hj]
    simpa using (Except.ok.inj this).symm
  have hge' : ∀ j < pts.length, g' (pts.getD j []) = ps'.getD j 0 := by
    intro j hj
    have hx : (pts.getD j []).length = B.dims := by rw [getD_of_lt _ _ _ hj]; exact hs.size _ (List.getElem_mem _)
    have := hg' _ hx
    rw [polyfit_eq B' hB' c' l' _ (by simpa [hd] using hx)] at this
    rw [hv' j hj]
    simpa using (Except.ok.inj this).symm
  by_cases h : pts.length = 0
  · simp [h]
  have hl := hs.wlen
  have hwp : 0 < w := by
    have : wts[0]'(by omega) ∈ wts := List.getElem_mem _
    rw [← hw _ this]
    exact hs.pos _ this
  have hmis : ∀ (q : List ℝ) (F : List ℝ → ℝ), (∀ j < pts.length, F (pts.getD j []) = q.getD j 0) →
      misfit pts wts ys F = w * ∑ j ∈ Finset.range pts.length, (ys.getD j 0 - q.getD j 0) ^ 2 := by
    intro q F hF
    unfold misfit
    rw [Finset.mul_sum]
    apply Finset.sum_congr rfl
    intro j hj
    rw [Finset.mem_range] at hj
    rw [hF j hj, getD_of_lt wts _ _ (by omega), hw _ (List.getElem_mem _)]
    ring
  rw [hmis ps g hge, hmis ps' g' hge'] at hm
  have hm' := le_of_mul_le_mul_left hm hwp
  have hnn : 0 ≤ ∑ j ∈ Finset.range pts.length, (ys.getD j 0 - (∑ k ∈ Finset.range pts.length, ys.getD k 0) / pts.length) ^ 2 :=
    Finset.sum_nonneg fun j _ => sq_nonneg _
  exact sub_le_sub_left (div_le_div_of_nonneg_right hm' hnn) _

/-- A sample of three points and the basis `1, x` meet the conditions. -/
example : ∃ B : Expansion, Regular B ∧ B.invR = none ∧ List.replicate B.dims 0 ∈ B.elements ∧ Sample B.dims [[0], [1], [-1]] [1/3, 1/3, 1/3] [3, 5, 4] ∧
    (∀ v ∈ [1/3, 1/3, (1/3 : ℝ)], v = 1/3) ∧ (∃ a ∈ [3, 5, (4 : ℝ)], ∃ b ∈ [3, 5, (4 : ℝ)], a ≠ b) ∧ ∃ c, LsqFit B [[0], [1], [-1]] [1/3, 1/3, 1/3] [3, 5, 4] c := by
  have hB : Regular (Expansion.mk [exists_uniform.choose] [[0], [1]] none) :=
    ⟨by simp, by simp [Expansion.dims], fun _ => ⟨1, rfl⟩, by simp [SquareOpt]⟩
  have hs : Sample 1 [[0], [1], [-1]] [1/3, 1/3, 1/3] [3, 5, 4] := ⟨by simp, by simp, by simp, by simp⟩
  obtain ⟨M, hM, -⟩ := getPoly_dot _ hB [[0], [1], [-1]] hs.size
  refine ⟨_, hB, rfl, ?_, hs, by simp, ⟨3, by simp, 5, by simp, by norm_num⟩, _, M, hM, (exists_lstsq _ _ _).choose_spec⟩
  simp [Expansion.dims]

end EQ.Poly
