import Verif.Stats.GridProps

/-!
# How least-squares fits depend on the data (C169–C171)
-/

namespace EQ.Poly
open EQ.Param EQ.Basis EQ.Sampling EQ.Sampling.Spec EQ.Poly.Spec EQ.Stats

/-! ## Specification -/

/-- `c` are coefficients that least squares may store for the given sample (`poly.py:489-507`, `solver.py:91-97`): the system is built from the mesh and
solved by a routine that meets the contract of `lstsq`. -/
def LsqFit (B : Expansion) (pts : List (List ℝ)) (wts ys : List ℝ) (c : List ℝ) : Prop :=
  ∃ M, B.getPoly none pts = .ok M ∧ LstsqContract (designMatrix M wts) (rhs wts ys) M.length c

/-- A sample: points of the right size, as many positive weights and outputs. -/
structure Sample (d : ℕ) (pts : List (List ℝ)) (wts ys : List ℝ) : Prop where
  size : ∀ x ∈ pts, x.length = d
  wlen : wts.length = pts.length
  pos : ∀ w ∈ wts, 0 < w
  ylen : ys.length = pts.length

/-- Only the zero polynomial of the index set vanishes at all points. -/
def Determined (B : Expansion) (pts : List (List ℝ)) : Prop :=
  ∀ z : List ℝ, z.length = B.elements.length → B.polyfit z pts = .ok (pts.map fun _ => 0) → z = List.replicate B.elements.length 0

/-! ## Lemmas -/

theorem fitted_iff (B : Expansion) (hB : Regular B) {pts : List (List ℝ)} {wts ys : List ℝ} (hs : Sample B.dims pts wts ys) (c : List ℝ) :
    LsqFit B pts wts ys c ↔ c.length = B.elements.length ∧ ∀ z : List ℝ, z.length = B.elements.length →
      misfit pts wts ys (expansion B.params B.elements (B.eff c)) ≤ misfit pts wts ys (expansion B.params B.elements (B.eff z)) := by
  obtain ⟨M, hM, hMl, hdot⟩ := getPoly_dot B hB pts hs.size
  have hpos : ∀ w ∈ wts, 0 ≤ w := fun w h => (hs.pos w h).le
  have hr : ∀ z : List ℝ, z.length = B.elements.length → sqResidual (designMatrix M wts) (rhs wts ys) z =
      misfit pts wts ys (expansion B.params B.elements (B.eff z)) := fun z hz =>
    sqResidual_eq M pts wts ys hs.wlen hpos hs.ylen z (by rw [hz, hMl]) _ (hdot z hz)
  constructor
  · rintro ⟨M', hM', hc, hmin⟩
    rw [hM] at hM'
    obtain rfl := Except.ok.inj hM'
    refine ⟨hc.trans hMl, fun z hz => ?_⟩
    rw [← hr c (hc.trans hMl), ← hr z hz]
    exact hmin z (hz.trans hMl.symm)
  · rintro ⟨hc, hmin⟩
    refine ⟨M, hM, hc.trans hMl.symm, fun z hz => ?_⟩
    rw [hr c hc, hr z (hz.trans hMl)]
    exact hmin z (hz.trans hMl)

/-- The residual is orthogonal to the index set. -/
theorem fitted_orth (B : Expansion) (hB : Regular B) {pts : List (List ℝ)} {wts ys : List ℝ} (hs : Sample B.dims pts wts ys) (c : List ℝ)
    (h : LsqFit B pts wts ys c) (z : List ℝ) (hz : z.length = B.elements.length) :
    ∑ j ∈ Finset.range pts.length, wts.getD j 0 * ((expansion B.params B.elements (B.eff c) (pts.getD j []) - ys.getD j 0) *
      expansion B.params B.elements (B.eff z) (pts.getD j [])) = 0 := by
  obtain ⟨M, hM, hc⟩ := h
  obtain ⟨M', hM', hls⟩ := c31_least_squares B hB pts hs.size wts ys hs.wlen hs.pos hs.ylen
  rw [hM] at hM'
  obtain rfl := Except.ok.inj hM'
  obtain ⟨fit, hf, -, ho, -⟩ := hls c hc
  have hcl : c.length = B.elements.length := ((fitted_iff B hB hs c).1 ⟨M, hM, hc⟩).1
  have hfe : ∀ z : List ℝ, z.length = B.elements.length → ∀ x ∈ pts, fit z x = expansion B.params B.elements (B.eff z) x := by
    intro z hz x hx
    have := hf z hz [x] (by simpa using hs.size x hx)
    rw [polyfit_eq B hB z hz [x] (by simpa using hs.size x hx)] at this
    simpa using (Except.ok.inj this).symm
  refine Eq.trans ?_ (ho z hz)
  apply Finset.sum_congr rfl
  intro j hj
  have hm : pts.getD j [] ∈ pts := by rw [getD_of_lt _ _ _ (Finset.mem_range.1 hj)]; exact List.getElem_mem _
  rw [hfe c hcl _ hm, hfe z hz _ hm]

/-- Linear combinations of expansions. -/
theorem expansion_range (params : List MParam) (els : List (List ℕ)) (g : ℕ → ℝ) (x : List ℝ) :
    expansion params els ((List.range els.length).map g) x = ∑ s ∈ Finset.range els.length, g s * basisFun params (els.getD s []) x := by
  rw [sum_expansion _ _ _ (by simp)]
  apply Finset.sum_congr rfl
  intro s hs
  rw [getD_map_lt _ _ _ _ (by simpa using hs)]
  simp

/-! ## Properties -/

/-- **C169.** Least squares is linear in the outputs: the fit to `α y₁ + β y₂ + γ` takes at the sample points the value `α f₁ + β f₂ + γ` of the fits to
`y₁` and `y₂`. If the sample determines the polynomials of the index set, the coefficients themselves combine in this way, so the polynomials do
everywhere. -/
theorem c169_linear (B : Expansion) (hB : Regular B) (hR : B.invR = none) (hz : B.elements.head? = some (List.replicate B.dims 0))
    (pts : List (List ℝ)) (wts y₁ y₂ : List ℝ) (h₁ : Sample B.dims pts wts y₁) (h₂ : Sample B.dims pts wts y₂) (α β γ : ℝ)
    (c₁ c₂ c₃ : List ℝ) (f₁ : LsqFit B pts wts y₁ c₁) (f₂ : LsqFit B pts wts y₂ c₂)
    (f₃ : LsqFit B pts wts (List.zipWith (fun a b => α * a + β * b + γ) y₁ y₂) c₃) :
    (∃ v₁ v₂, B.polyfit c₁ pts = .ok v₁ ∧ B.polyfit c₂ pts = .ok v₂ ∧ B.polyfit c₃ pts = .ok (List.zipWith (fun a b => α * a + β * b + γ) v₁ v₂)) ∧
    (Determined B pts → (∀ s < c₃.length, c₃.getD s 0 = α * c₁.getD s 0 + β * c₂.getD s 0 + if s = 0 then γ else 0) ∧
      ∀ stack : List (List ℝ), (∀ x ∈ stack, x.length = B.dims) → ∃ v₁ v₂, B.polyfit c₁ stack = .ok v₁ ∧ B.polyfit c₂ stack = .ok v₂ ∧
        B.polyfit c₃ stack = .ok (List.zipWith (fun a b => α * a + β * b + γ) v₁ v₂)) := by
  have h₃ : Sample B.dims pts wts (List.zipWith (fun a b => α * a + β * b + γ) y₁ y₂) := ⟨h₁.size, h₁.wlen, h₁.pos, by simp [h₁.ylen, h₂.ylen]⟩
  have l₁ := ((fitted_iff B hB h₁ c₁).1 f₁).1
  have l₂ := ((fitted_iff B hB h₂ c₂).1 f₂).1
  have l₃ := ((fitted_iff B hB h₃ c₃).1 f₃).1
  have hn : 0 < B.elements.length := by
    cases he : B.elements with
    | nil => rw [he] at hz; simp at hz
    | cons a l => simp
  set n := B.elements.length with hnn
  set z : List ℝ := (List.range n).map fun s => c₃.getD s 0 - α * c₁.getD s 0 - β * c₂.getD s 0 - (if s = 0 then γ else 0) with hzz
  have hzl : z.length = n := by simp [hzz]
  have hexp : ∀ x, x.length = B.dims → expansion B.params B.elements z x = expansion B.params B.elements c₃ x -
      (α * expansion B.params B.elements c₁ x + β * expansion B.params B.elements c₂ x + γ) := by
    intro x hx
    rw [hzz, hnn, expansion_range, sum_expansion _ _ _ l₁, sum_expansion _ _ _ l₂, sum_expansion _ _ _ l₃]
    have e : ∑ s ∈ Finset.range B.elements.length, (if s = 0 then γ else 0) * basisFun B.params (B.elements.getD s []) x = γ := by
      rw [Finset.sum_eq_single 0 (fun s _ hs => by rw [if_neg hs, zero_mul]) (fun h => absurd (Finset.mem_range.2 hn) h), if_pos rfl,
        getD_zero_of_head hz]
      change γ * basisFun B.params (List.replicate B.params.length 0) x = γ
      rw [Sampling.basisFun_zero B.params x hx, mul_one]
    rw [← e, Finset.mul_sum, Finset.mul_sum, ← Finset.sum_add_distrib, ← Finset.sum_add_distrib, ← Finset.sum_sub_distrib, e]
    apply Finset.sum_congr rfl
    intro s _
    ring
  have o₁ := fitted_orth B hB h₁ c₁ f₁ z hzl
  have o₂ := fitted_orth B hB h₂ c₂ f₂ z hzl
  have o₃ := fitted_orth B hB h₃ c₃ f₃ z hzl
  simp only [eff_none B hR] at o₁ o₂ o₃
  have hsq : ∑ j ∈ Finset.range pts.length, wts.getD j 0 * expansion B.params B.elements z (pts.getD j []) ^ 2 = 0 := by
    have e : ∀ j ∈ Finset.range pts.length, wts.getD j 0 * expansion B.params B.elements z (pts.getD j []) ^ 2 =
        wts.getD j 0 * ((expansion B.params B.elements c₃ (pts.getD j []) - (List.zipWith (fun a b => α * a + β * b + γ) y₁ y₂).getD j 0) *
          expansion B.params B.elements z (pts.getD j [])) -
        α * (wts.getD j 0 * ((expansion B.params B.elements c₁ (pts.getD j []) - y₁.getD j 0) * expansion B.params B.elements z (pts.getD j []))) -
        β * (wts.getD j 0 * ((expansion B.params B.elements c₂ (pts.getD j []) - y₂.getD j 0) * expansion B.params B.elements z (pts.getD j []))) := by
      intro j hj
      rw [Finset.mem_range] at hj
      have hx : (pts.getD j []).length = B.dims := by rw [getD_of_lt _ _ _ hj]; exact h₁.size _ (List.getElem_mem _)
      have ey : (List.zipWith (fun a b => α * a + β * b + γ) y₁ y₂).getD j 0 = α * y₁.getD j 0 + β * y₂.getD j 0 + γ := by
        have a1 := h₁.ylen
        have a2 := h₂.ylen
        rw [getD_of_lt _ _ _ (by simp; omega), List.getElem_zipWith, getD_of_lt y₁ _ _ (by omega), getD_of_lt y₂ _ _ (by omega)]
      rw [ey]
      have h := hexp _ hx
      generalize expansion B.params B.elements z (pts.getD j []) = u at h ⊢
      generalize expansion B.params B.elements c₁ (pts.getD j []) = u₁ at h ⊢
      generalize expansion B.params B.elements c₂ (pts.getD j []) = u₂ at h ⊢
      generalize expansion B.params B.elements c₃ (pts.getD j []) = u₃ at h ⊢
      rw [h]
      ring
    rw [Finset.sum_congr rfl e, Finset.sum_sub_distrib, Finset.sum_sub_distrib, ← Finset.mul_sum, ← Finset.mul_sum, o₁, o₂, o₃]
    ring
  have hw0 : ∀ j ∈ Finset.range pts.length, 0 < wts.getD j 0 := by
    intro j hj
    rw [Finset.mem_range] at hj
    have := h₁.wlen
    rw [getD_of_lt _ _ _ (by omega)]
    exact h₁.pos _ (List.getElem_mem _)
  have hpt : ∀ x ∈ pts, expansion B.params B.elements z x = 0 := by
    intro x hx
    obtain ⟨j, hj, rfl⟩ := List.getElem_of_mem hx
    have := (Finset.sum_eq_zero_iff_of_nonneg fun j hj => mul_nonneg (hw0 j hj).le (sq_nonneg _)).1 hsq j (Finset.mem_range.2 hj)
    have := (mul_eq_zero.1 this).resolve_left (hw0 j (Finset.mem_range.2 hj)).ne'
    rw [getD_of_lt _ _ _ hj] at this
    exact pow_eq_zero_iff (two_ne_zero) |>.1 this
  have hout : ∀ stack : List (List ℝ), (∀ x ∈ stack, x.length = B.dims) → (∀ x ∈ stack, expansion B.params B.elements z x = 0) →
      ∃ v₁ v₂, B.polyfit c₁ stack = .ok v₁ ∧ B.polyfit c₂ stack = .ok v₂ ∧
      B.polyfit c₃ stack = .ok (List.zipWith (fun a b => α * a + β * b + γ) v₁ v₂) := by
    intro stack hst h0
    refine ⟨_, _, polyfit_eq B hB c₁ l₁ stack hst, polyfit_eq B hB c₂ l₂ stack hst, ?_⟩
    rw [polyfit_eq B hB c₃ l₃ stack hst, List.zipWith_map, List.zipWith_self]
    congr 1
    apply List.map_congr_left
    intro x hx
    have := hexp x (hst x hx)
    rw [h0 x hx] at this
    simp only [eff_none B hR]
    linarith
  refine ⟨hout pts h₁.size hpt, fun hdet => ?_⟩
  have hz0 := hdet z hzl (by
    rw [polyfit_eq B hB z hzl pts h₁.size, eff_none B hR]
    congr 1
    exact List.map_congr_left hpt)
  refine ⟨fun s hs => ?_, fun stack hst => hout stack hst fun x _ => ?_⟩
  · have h := congrArg (fun l : List ℝ => l.getD s 0) hz0
    rw [hzz, getD_map_lt _ _ _ _ (by simp; omega), List.getElem_range, getD_of_lt (List.replicate _ _) _ _ (by simp; omega), List.getElem_replicate] at h
    linarith
  · rw [hz0, sum_expansion _ _ _ (by simp)]
    apply Finset.sum_eq_zero
    intro s hs
    rw [getD_of_lt _ _ _ (by simpa using hs)]
    simp

theorem misfit_list (D : List (List ℝ × ℝ × ℝ)) (f : List ℝ → ℝ) :
    misfit (D.map fun t => t.1) (D.map fun t => t.2.1) (D.map fun t => t.2.2) f = (D.map fun t => t.2.1 * (f t.1 - t.2.2) ^ 2).sum := by
  unfold misfit
  rw [map_eq_range D ([], 0, 0) (f := fun t => t.2.1 * (f t.1 - t.2.2) ^ 2), range_map_sum, List.length_map]
  apply Finset.sum_congr rfl
  intro j hj
  rw [Finset.mem_range] at hj
  rw [getD_map_lt _ _ _ _ hj, getD_map_lt _ _ _ _ hj, getD_map_lt _ _ _ _ hj, getD_of_lt _ _ _ hj]

/-- **C170.** The order of the samples and the scale of the weights do not matter: the same coefficients solve the least-squares problem after the samples
(points with their weights and outputs) are rearranged and all weights are multiplied by a positive number. -/
theorem c170_rearranged (B : Expansion) (hB : Regular B) (D D' : List (List ℝ × ℝ × ℝ)) (hD : ∀ t ∈ D, t.1.length = B.dims ∧ 0 < t.2.1) (hp : D.Perm D')
    (k : ℝ) (hk : 0 < k) (c : List ℝ) :
    LsqFit B (D.map fun t => t.1) (D.map fun t => t.2.1) (D.map fun t => t.2.2) c ↔
      LsqFit B (D'.map fun t => t.1) (D'.map fun t => k * t.2.1) (D'.map fun t => t.2.2) c := by
  have s : Sample B.dims (D.map fun t => t.1) (D.map fun t => t.2.1) (D.map fun t => t.2.2) := by
    refine ⟨fun x hx => ?_, by simp, fun w hw => ?_, by simp⟩
    · obtain ⟨t, ht, rfl⟩ := List.mem_map.1 hx; exact (hD t ht).1
    · obtain ⟨t, ht, rfl⟩ := List.mem_map.1 hw; exact (hD t ht).2
  have s' : Sample B.dims (D'.map fun t => t.1) (D'.map fun t => k * t.2.1) (D'.map fun t => t.2.2) := by
    refine ⟨fun x hx => ?_, by simp, fun w hw => ?_, by simp⟩
    · obtain ⟨t, ht, rfl⟩ := List.mem_map.1 hx; exact (hD t (hp.mem_iff.2 ht)).1
    · obtain ⟨t, ht, rfl⟩ := List.mem_map.1 hw; exact mul_pos hk (hD t (hp.mem_iff.2 ht)).2
  have e : ∀ f : List ℝ → ℝ, misfit (D'.map fun t => t.1) (D'.map fun t => k * t.2.1) (D'.map fun t => t.2.2) f =
      k * misfit (D.map fun t => t.1) (D.map fun t => t.2.1) (D.map fun t => t.2.2) f := by
    intro f
    have := misfit_list (D'.map fun t => (t.1, k * t.2.1, t.2.2)) f
    simp only [List.map_map, Function.comp_def] at this
    rw [this, misfit_list, ← List.sum_map_mul_left, (hp.symm.map _).sum_eq]
    congr 1
    apply List.map_congr_left
    intro t _
    ring
  rw [fitted_iff B hB s, fitted_iff B hB s']
  simp only [e, mul_le_mul_iff_right₀ hk]

/-- The expansion of a smaller index set is one of a larger set. -/
theorem embed (params : List MParam) (els els' : List (List ℕ)) (h : els ⊆ els') (c : List ℝ) (hc : c.length = els.length) :
    ∃ c' : List ℝ, c'.length = els'.length ∧ ∀ x, expansion params els' c' x = expansion params els c x := by
  induction els generalizing c with
  | nil =>
    refine ⟨List.replicate els'.length 0, by simp, fun x => ?_⟩
    rw [sum_expansion _ _ _ (by simp)]
    simp only [expansion, List.zipWith_nil_left, List.sum_nil]
    apply Finset.sum_eq_zero
    intro s hs
    rw [getD_of_lt _ _ _ (by simpa using hs)]
    simp
  | cons r els ih =>
    cases c with
    | nil => simp at hc
    | cons a c =>
      obtain ⟨c', hl, he⟩ := ih (fun x hx => h (List.mem_cons_of_mem _ hx)) c (by simpa using hc)
      obtain ⟨i, hi, hri⟩ := List.getElem_of_mem (h List.mem_cons_self)
      refine ⟨(List.range els'.length).map fun s => c'.getD s 0 + if s = i then a else 0, by simp, fun x => ?_⟩
      rw [expansion_range]
      simp only [add_mul, Finset.sum_add_distrib]
      rw [← sum_expansion _ _ _ hl, he, Finset.sum_eq_single i (fun s _ hs => by rw [if_neg hs, zero_mul])
        (fun h => absurd (Finset.mem_range.2 hi) h), if_pos rfl, getD_of_lt _ _ _ hi, hri]
      simp only [expansion, List.zipWith_cons_cons, List.sum_cons]
      ring

/-- **C171.** A larger index set never fits the sample worse: the weighted sum of squared errors of the least-squares fit is at most the one for any
index set contained in it. -/
theorem c171_enlarged (B B' : Expansion) (hB : Regular B) (hB' : Regular B') (hR : B.invR = none) (hR' : B'.invR = none) (hp : B'.params = B.params)
    (hsub : B.elements ⊆ B'.elements) (pts : List (List ℝ)) (wts ys : List ℝ) (hs : Sample B.dims pts wts ys) (c c' : List ℝ)
    (f : LsqFit B pts wts ys c) (f' : LsqFit B' pts wts ys c') :
    ∃ g g', (∀ x, x.length = B.dims → B.polyfit c [x] = .ok [g x]) ∧ (∀ x, x.length = B.dims → B'.polyfit c' [x] = .ok [g' x]) ∧
      misfit pts wts ys g' ≤ misfit pts wts ys g := by
  have hd : B'.dims = B.dims := by unfold Expansion.dims; rw [hp]
  obtain ⟨l, -⟩ := (fitted_iff B hB hs c).1 f
  obtain ⟨l', hmin⟩ := (fitted_iff B' hB' (by rw [hd]; exact hs) c').1 f'
  obtain ⟨z, hz, he⟩ := embed B.params B.elements B'.elements hsub c l
  refine ⟨expansion B.params B.elements c, expansion B'.params B'.elements c', fun x hx => ?_, fun x hx => ?_, ?_⟩
  · rw [polyfit_eq B hB c l [x] (by simpa using hx), eff_none B hR]; rfl
  · rw [polyfit_eq B' hB' c' l' [x] (by simpa [hd] using hx), eff_none B' hR']; rfl
  · have := hmin z hz
    rw [eff_none B' hR', eff_none B' hR'] at this
    refine this.trans (le_of_eq ?_)
    rw [hp]
    congr 1
    funext x
    exact he x

/-- The coefficients of C169 to C171 exist for every sample, and a sample that meets the conditions exists. -/
example : ∃ B : Expansion, Regular B ∧ B.invR = none ∧ B.elements.head? = some (List.replicate B.dims 0) ∧
    Sample B.dims [[0], [1]] [1, 2] [3, 5] ∧ ∃ c, LsqFit B [[0], [1]] [1, 2] [3, 5] c := by
  have hB : Regular (Expansion.mk [exists_uniform.choose] [[0], [1]] none) :=
    ⟨by simp, by simp [Expansion.dims], fun _ => ⟨1, rfl⟩, by simp [SquareOpt]⟩
  have hs : Sample 1 [[0], [1]] [1, 2] [3, 5] := ⟨by simp, by simp, by simp, by simp⟩
  obtain ⟨M, hM, -⟩ := getPoly_dot _ hB [[0], [1]] hs.size
  exact ⟨_, hB, rfl, rfl, hs, _, M, hM, (exists_lstsq _ _ _).choose_spec⟩

end EQ.Poly
