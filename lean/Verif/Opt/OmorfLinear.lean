import Verif.Opt.OmorfDirs

/-!
# C123: do the `n + 1` points of the linear set determine a linear model?
-/

namespace EQ.Opt
open EQ.Basis

variable {n : ℕ}

/-- Functions `c + bᵀx`. -/
def IsAffine (f : Pt n → ℝ) : Prop := ∃ (c : ℝ) (b : Fin n → ℝ), ∀ x, f x = c + ∑ i, b i * x i

/-- There is at most one linear model through given values at the points. -/
def DeterminesLinear (S : List (Pt n)) : Prop := ∀ f g, IsAffine f → IsAffine g → (∀ x ∈ S, f x = g x) → f = g

theorem affine_centre {f g : Pt n → ℝ} (hf : IsAffine f) (hg : IsAffine g) (s : Pt n) (h : f s = g s) :
    ∃ b : Fin n → ℝ, ∀ x, f x - g x = ∑ i, b i * (x i - s i) := by
  obtain ⟨c, b, hf⟩ := hf
  obtain ⟨c', b', hg⟩ := hg
  refine ⟨fun i => b i - b' i, fun x => ?_⟩
  have h0 := h
  rw [hf, hg] at h0
  have e : ∑ i, (b i - b' i) * (x i - s i) = (∑ i, b i * x i - ∑ i, b' i * x i) - (∑ i, b i * s i - ∑ i, b' i * s i) := by
    simp only [← Finset.sum_sub_distrib]
    exact Finset.sum_congr rfl fun i _ => by ring
  rw [hf, hg, e]
  linarith

theorem phiFull_zero (st : St n) (hatS : List (Pt n)) (x : Pt n) : phiFull st hatS x 0 = 1 := by simp [phiFull]

theorem phiFull_succ (st : St n) (hatS : List (Pt n)) (x : Pt n) (i : Fin n) (D : ℝ)
    (hD : D = if hatS.length > 0 then maxList (hatS.map fun y => normInf fun i => y i - st.sOld i) else st.del) :
    phiFull st hatS x (i.val + 1) = (x i - st.sOld i) / D := by
  unfold phiFull
  simp only [Nat.add_sub_cancel]
  rw [if_neg (by omega), dif_pos i.isLt, ← hD]

/-- **C123, two variables.** For every objective, incumbent, stored points and method: if the pivots do not vanish, the three
points kept determine a linear model. Missing: three and more variables (`c123_linear_violated`), where the pivots are not
those of the elimination from the fourth point on. -/
theorem c123_plane_partial (cfg : Cfg 2) (env : Env 2) (obj : Pt 2 → ℝ) (method : LUMethod) (psi2 : ℝ)
    (st : St 2) (hatS hatS' : List (Pt 2)) (hatF : List ℝ) (a : LU 2)
    (ha : a = luPivot cfg env obj method psi2 (2 + 1) (phiFull st hatS') st hatS hatF) (h1 : a.u 1 1 ≠ 0)
    (h2 : a.u 2 2 ≠ 0) : DeterminesLinear a.S := by
  set D := (if hatS'.length > 0 then maxList (hatS'.map fun y => normInf fun i => y i - st.sOld i) else st.del) with hD
  have p : ∀ x, phiFull st hatS' x 1 = (x 0 - st.sOld 0) / D := fun x => phiFull_succ st hatS' x 0 D hD
  have p' : ∀ x, phiFull st hatS' x 2 = (x 1 - st.sOld 1) / D := fun x => phiFull_succ st hatS' x 1 D hD
  obtain ⟨p1, p2⟩ := first_pivots cfg env obj method psi2 (2 + 1) le_rfl (phiFull st hatS') st hatS hatF
    (phiFull_zero _ _ _) (by rw [p]; simp) (by rw [p']; simp)
  obtain ⟨l1, -, l2, -, -⟩ := luPivot_rows cfg env obj method psi2 (2 + 1) (phiFull st hatS') st hatS hatF
  rw [← ha] at p1 p2 l1 l2
  have l1 : a.S.length = 3 := l1
  set x1 := a.S.getD 1 st.sOld with hx1
  set x2 := a.S.getD 2 st.sOld with hx2
  have m0 : st.sOld ∈ a.S := by
    rw [← l2, getD_getElem _ _ (by omega)]; exact List.getElem_mem _
  have m1 : x1 ∈ a.S := by
    rw [hx1, getD_getElem _ _ (by omega)]; exact List.getElem_mem _
  have m2 : x2 ∈ a.S := by
    rw [hx2, getD_getElem _ _ (by omega)]; exact List.getElem_mem _
  intro f g hf hg hS
  obtain ⟨b, hq⟩ := affine_centre hf hg st.sOld (hS _ m0)
  rw [p1, p] at h1
  rw [p2, p', p, p', p] at h2
  have hDne : D ≠ 0 := by rintro h; rw [h, div_zero] at h1; exact h1 rfl
  have e1 := hq x1
  have e2 := hq x2
  rw [hS x1 m1, sub_self, Fin.sum_univ_two] at e1
  rw [hS x2 m2, sub_self, Fin.sum_univ_two] at e2
  set a1 := x1 0 - st.sOld 0
  set a2 := x1 1 - st.sOld 1
  set c1 := x2 0 - st.sOld 0
  set c2 := x2 1 - st.sOld 1
  have ha1 : a1 ≠ 0 := by rintro h; rw [h, zero_div] at h1; exact h1 rfl
  have hdet : a1 * c2 - c1 * a2 ≠ 0 := by
    intro h
    apply h2
    field_simp
    linarith
  have hb1 : b 1 = 0 := by
    have : b 1 * (a1 * c2 - c1 * a2) = 0 := by linear_combination c1 * e1 - a1 * e2
    exact (mul_eq_zero.1 this).resolve_right hdet
  have hb0 : b 0 = 0 := by
    rw [hb1] at e1
    have : b 0 * a1 = 0 := by linarith
    exact (mul_eq_zero.1 this).resolve_right ha1
  funext x
  have := hq x
  rw [Fin.sum_univ_two, hb0, hb1] at this
  linarith

/-- **C123, one variable.** If the pivot does not vanish, the two points kept determine a linear model. -/
theorem c123_line_partial (cfg : Cfg 1) (env : Env 1) (obj : Pt 1 → ℝ) (method : LUMethod) (psi2 : ℝ)
    (st : St 1) (hatS hatS' : List (Pt 1)) (hatF : List ℝ) (a : LU 1)
    (ha : a = luPivot cfg env obj method psi2 (1 + 1) (phiFull st hatS') st hatS hatF) (h1 : a.u 1 1 ≠ 0) :
    DeterminesLinear a.S := by
  set D := (if hatS'.length > 0 then maxList (hatS'.map fun y => normInf fun i => y i - st.sOld i) else st.del) with hD
  have p : ∀ x, phiFull st hatS' x 1 = (x 0 - st.sOld 0) / D := fun x => phiFull_succ st hatS' x 0 D hD
  obtain ⟨l1, -, l2, r0, r⟩ := luPivot_rows cfg env obj method psi2 (1 + 1) (phiFull st hatS') st hatS hatF
  rw [← ha] at l1 l2 r0 r
  have q1 := r 1 le_rfl (by omega)
  have l1 : a.S.length = 2 := l1
  have u11 : a.U.getD 1 (fun _ => 0) 1 = phiFull st hatS' (a.S.getD 1 st.sOld) 1 := by
    rw [q1]
    unfold luRow
    rw [if_neg (by omega), if_pos rfl, dot_luV (by omega), Finset.sum_range_one, r0, p st.sOld]
    ring
  set x1 := a.S.getD 1 st.sOld with hx1
  have m0 : st.sOld ∈ a.S := by
    rw [← l2, getD_getElem _ _ (by omega)]; exact List.getElem_mem _
  have m1 : x1 ∈ a.S := by
    rw [hx1, getD_getElem _ _ (by omega)]; exact List.getElem_mem _
  intro f g hf hg hS
  obtain ⟨b, hq⟩ := affine_centre hf hg st.sOld (hS _ m0)
  have h1 : a.U.getD 1 (fun _ => 0) 1 ≠ 0 := h1
  rw [u11, p] at h1
  have ha1 : x1 0 - st.sOld 0 ≠ 0 := by rintro h; rw [h, zero_div] at h1; exact h1 rfl
  have e1 := hq x1
  rw [hS x1 m1, sub_self, Fin.sum_univ_one] at e1
  have hb0 : b 0 = 0 := by
    rcases mul_eq_zero.1 e1.symm with h | h
    · exact h
    · exact absurd h ha1
  funext x
  have := hq x
  rw [Fin.sum_univ_one, hb0] at this
  linarith

/-! ## Three variables -/

/-- Three points in one plane with the origin: the second is the difference of the first and the third. -/
noncomputable def flatHat : List (Pt 3) := [![1, 1, 0], ![0, 1, 1], ![1, 0, -1]]

/-- The basis functions around the origin with unit scale. -/
noncomputable def flatPhi (x : Pt 3) (k : ℕ) : ℝ := if k = 0 then 1 else if h : k - 1 < 3 then x ⟨k - 1, h⟩ else 0

theorem flatPhi_0 (a b c : ℝ) : flatPhi ![a, b, c] 0 = 1 := rfl
theorem flatPhi_1 (a b c : ℝ) : flatPhi ![a, b, c] 1 = a := rfl
theorem flatPhi_2 (a b c : ℝ) : flatPhi ![a, b, c] 2 = b := rfl
theorem flatPhi_3 (a b c : ℝ) : flatPhi ![a, b, c] 3 = c := rfl

theorem flatPhi_eq (st : St 3) (h0 : st.sOld = ![0, 0, 0]) : phiFull st flatHat = flatPhi := by
  have hD : 1 = if flatHat.length > 0 then maxList (flatHat.map fun y => normInf fun i => y i - st.sOld i) else st.del := by
    rw [h0, if_pos (by simp [flatHat])]
    simp [flatHat, maxList, normInf, List.ofFn_succ]
  funext x k
  rcases k with _ | k
  · rw [phiFull_zero]; rfl
  · by_cases hk : k < 3
    · rw [phiFull_succ st flatHat x ⟨k, hk⟩ 1 hD, h0]
      have : flatPhi x (k + 1) = x ⟨k, hk⟩ := by
        unfold flatPhi
        simp only [Nat.add_sub_cancel]
        rw [if_neg (by omega), dif_pos hk]
      rw [this]
      match k, hk with
      | 0, _ => simp
      | 1, _ => simp
      | 2, _ => simp
    · unfold phiFull flatPhi
      simp only [Nat.add_sub_cancel]
      rw [dif_neg hk, dif_neg hk]

/-- Example: the rows of the elimination, one after the other. -/
noncomputable def w0 : ℕ → ℝ := flatPhi ![0, 0, 0]
/-- Example: second row of the elimination. -/
noncomputable def w1 : ℕ → ℝ := luRow 4 [w0] 1 (flatPhi ![1, 1, 0])
/-- Example: third row of the elimination. -/
noncomputable def w2 : ℕ → ℝ := luRow 4 [w0, w1] 2 (flatPhi ![0, 1, 1])
/-- Example: fourth row of the elimination. -/
noncomputable def w3 : ℕ → ℝ := luRow 4 [w0, w1, w2] 3 (flatPhi ![1, 0, -1])

theorem dot4 (v φ : ℕ → ℝ) : dot 4 v φ = v 0 * φ 0 + v 1 * φ 1 + v 2 * φ 2 + v 3 * φ 3 := by
  unfold dot
  rw [sum_map_range]
  simp [Finset.sum_range_succ]

theorem w0_vals : w0 0 = 1 ∧ w0 1 = 0 ∧ w0 2 = 0 ∧ w0 3 = 0 := ⟨rfl, rfl, rfl, rfl⟩

theorem z1_vals : luV [w0] 1 0 = 0 ∧ luV [w0] 1 1 = 1 ∧ luV [w0] 1 2 = 0 ∧ luV [w0] 1 3 = 0 := by
  obtain ⟨a, b, c, d⟩ := w0_vals
  simp [luV, a, b]

theorem w1_vals : w1 1 = 1 ∧ w1 2 = 1 ∧ w1 3 = 0 := by
  obtain ⟨a, b, c, d⟩ := w0_vals
  obtain ⟨v0, v1, v2, v3⟩ := z1_vals
  refine ⟨?_, ?_, ?_⟩ <;> simp [w1, luRow, dot4, v0, v1, v2, v3, flatPhi_0, flatPhi_1, flatPhi_2, flatPhi_3, a, c, d, List.range_succ]

theorem z2_vals : luV [w0, w1] 2 0 = 0 ∧ luV [w0, w1] 2 1 = -1 ∧ luV [w0, w1] 2 2 = 1 ∧ luV [w0, w1] 2 3 = 0 := by
  obtain ⟨a, b, c, d⟩ := w0_vals
  obtain ⟨e, f, g⟩ := w1_vals
  simp [luV, a, c, e, f]

theorem w2_vals : w2 2 = 1 ∧ w2 3 = 1 := by
  obtain ⟨a, b, c, d⟩ := w0_vals
  obtain ⟨e, f, g⟩ := w1_vals
  obtain ⟨v0, v1, v2, v3⟩ := z2_vals
  refine ⟨?_, ?_⟩ <;> simp [w2, luRow, dot4, v0, v1, v2, v3, flatPhi_0, flatPhi_1, flatPhi_2, flatPhi_3, a, d, e, g, List.range_succ]

theorem z3_vals : luV [w0, w1, w2] 3 0 = 0 ∧ luV [w0, w1, w2] 3 1 = 0 ∧ luV [w0, w1, w2] 3 2 = -1 ∧ luV [w0, w1, w2] 3 3 = 1 := by
  obtain ⟨a, b, c, d⟩ := w0_vals
  obtain ⟨e, f, g⟩ := w1_vals
  obtain ⟨h, i⟩ := w2_vals
  simp [luV, a, d, e, g, h, i]

/-- A step that takes the best of the points at hand, whatever the method, if its pivot is at least 1. -/
theorem luStep_take (cfg : Cfg n) (env : Env n) (obj : Pt n → ℝ) (method : LUMethod) (q : ℕ) (φ : Pt n → ℕ → ℝ) (a : LU n)
    (k index : ℕ) (M : List ℝ) (hM : (a.hatS.map fun x => |dot q (luV a.U k) (φ x)|) = M) (hF : a.hatF ≠ [])
    (hi : argmax M = index) (hb : 1 ≤ M.getD index 0) : luStep cfg env obj method 1 q φ a k = luPick q φ a k index := by
  unfold luStep
  simp only [hM, hi]
  rw [if_pos]
  unfold luFlag
  rw [if_pos (List.length_pos_of_ne_nil hF), if_neg (not_lt.2 (le_trans (by norm_num) hb)), if_neg fun h => absurd h.2.2 (not_lt.2 hb),
    if_neg fun h => absurd h.2 (not_lt.2 hb)]

/-- **C123 is violated** in three variables: for every objective, every outcome of the searches and every method of building the
set, the points `(1, 1, 0)`, `(0, 1, 1)`, `(1, 0, -1)` around the incumbent `0` pass both thresholds on the pivots (all pivots
have size 1), no new point is tried, and the four points lie in a plane: `x - y + z` vanishes on all of them. The linear
model whose gradient gives the first direction is not determined. -/
theorem c123_linear_violated (cfg : Cfg 3) (env : Env 3) (obj : Pt 3 → ℝ) (method : LUMethod) (st : St 3)
    (h0 : st.sOld = ![0, 0, 0]) (a : LU 3)
    (ha : a = luPivot cfg env obj method 1 (3 + 1) (phiFull st flatHat) st flatHat (flatHat.map obj)) :
    a.S = [![0, 0, 0], ![1, 1, 0], ![0, 1, 1], ![1, 0, -1]] ∧ a.st = st ∧ ¬ DeterminesLinear a.S ∧
    ∀ x ∈ a.S, x 0 - x 1 + x 2 = 0 := by
  have s1 : luStep cfg env obj method 1 4 flatPhi ⟨st, [![0, 0, 0]], [st.fOld], flatHat, flatHat.map obj, [w0]⟩ 1 =
      ⟨st, [![0, 0, 0], ![1, 1, 0]], [st.fOld, obj ![1, 1, 0]], [![0, 1, 1], ![1, 0, -1]],
        [obj ![0, 1, 1], obj ![1, 0, -1]], [w0, w1]⟩ := by
    obtain ⟨v0, v1, v2, v3⟩ := z1_vals
    rw [luStep_take cfg env obj method 4 flatPhi _ 1 0 [1, 0, 1]]
    · simp [luPick, flatHat, w1]
    · simp only [flatHat, List.map_cons, List.map_nil, dot4, v0, v1, v2, v3, flatPhi_0, flatPhi_1, flatPhi_2, flatPhi_3]
      norm_num
    · simp [flatHat]
    · simp only [argmax, argmin, List.map_cons, List.map_nil, List.getD_cons_zero, List.getD_cons_succ]; norm_num
    · norm_num
  have s2 : luStep cfg env obj method 1 4 flatPhi
      ⟨st, [![0, 0, 0], ![1, 1, 0]], [st.fOld, obj ![1, 1, 0]], [![0, 1, 1], ![1, 0, -1]],
        [obj ![0, 1, 1], obj ![1, 0, -1]], [w0, w1]⟩ 2 =
      ⟨st, [![0, 0, 0], ![1, 1, 0], ![0, 1, 1]], [st.fOld, obj ![1, 1, 0], obj ![0, 1, 1]], [![1, 0, -1]],
        [obj ![1, 0, -1]], [w0, w1, w2]⟩ := by
    obtain ⟨v0, v1, v2, v3⟩ := z2_vals
    rw [luStep_take cfg env obj method 4 flatPhi _ 2 0 [1, 1]]
    · simp [luPick, w2]
    · simp only [List.map_cons, List.map_nil, dot4, v0, v1, v2, v3, flatPhi_0, flatPhi_1, flatPhi_2, flatPhi_3]
      norm_num
    · simp
    · simp only [argmax, argmin, List.map_cons, List.map_nil, List.getD_cons_zero]; norm_num
    · norm_num
  have s3 : luStep cfg env obj method 1 4 flatPhi
      ⟨st, [![0, 0, 0], ![1, 1, 0], ![0, 1, 1]], [st.fOld, obj ![1, 1, 0], obj ![0, 1, 1]], [![1, 0, -1]],
        [obj ![1, 0, -1]], [w0, w1, w2]⟩ 3 =
      ⟨st, [![0, 0, 0], ![1, 1, 0], ![0, 1, 1], ![1, 0, -1]], [st.fOld, obj ![1, 1, 0], obj ![0, 1, 1], obj ![1, 0, -1]], [],
        [], [w0, w1, w2, w3]⟩ := by
    obtain ⟨v0, v1, v2, v3⟩ := z3_vals
    rw [luStep_take cfg env obj method 4 flatPhi _ 3 0 [1]]
    · simp [luPick, w3]
    · simp only [List.map_cons, List.map_nil, dot4, v0, v1, v2, v3, flatPhi_0, flatPhi_1, flatPhi_2, flatPhi_3]
      norm_num
    · simp
    · simp [argmax, argmin]
    · norm_num
  have ha' : a = ⟨st, [![0, 0, 0], ![1, 1, 0], ![0, 1, 1], ![1, 0, -1]],
      [st.fOld, obj ![1, 1, 0], obj ![0, 1, 1], obj ![1, 0, -1]], [], [], [w0, w1, w2, w3]⟩ := by
    rw [ha, flatPhi_eq st h0]
    unfold luPivot
    have e : List.range' 1 (3 + 1 - 1) = [1, 2, 3] := rfl
    have er : flatPhi st.sOld = w0 := by rw [h0]; rfl
    rw [e, er, h0]
    simp only [List.foldl_cons, List.foldl_nil]
    rw [s1, s2, s3]
  rw [ha']
  have hz : ∀ x ∈ ([![0, 0, 0], ![1, 1, 0], ![0, 1, 1], ![1, 0, -1]] : List (Pt 3)), x 0 - x 1 + x 2 = 0 := by
    intro x hx
    simp only [List.mem_cons, List.not_mem_nil, or_false] at hx
    rcases hx with rfl | rfl | rfl | rfl <;> simp
  refine ⟨rfl, rfl, fun hdet => ?_, hz⟩
  have := hdet (fun x => x 0 - x 1 + x 2) (fun _ => 0) ⟨0, ![1, -1, 1], fun x => by simp [Fin.sum_univ_three]; ring⟩
    ⟨0, 0, fun x => by simp⟩ hz
  have := congrFun this ![1, 0, 0]
  simp at this

/-- Two variables, incumbent 0 and the points (1, 0) and (0, 1): both pivots are 1. -/
example (cfg : Cfg 2) (env : Env 2) (obj : Pt 2 → ℝ) (st : St 2) (h0 : st.sOld = ![0, 0]) :
    (luPivot cfg env obj .improve 1 (2 + 1) (phiFull st [![1, 0], ![0, 1]]) st [![1, 0], ![0, 1]] [obj ![1, 0], obj ![0, 1]]).u 1 1 ≠ 0 ∧
    (luPivot cfg env obj .improve 1 (2 + 1) (phiFull st [![1, 0], ![0, 1]]) st [![1, 0], ![0, 1]] [obj ![1, 0], obj ![0, 1]]).u 2 2 ≠ 0 := by
  have hD : (1 : ℝ) = if [![(1 : ℝ), 0], ![0, 1]].length > 0 then
      maxList ([![(1 : ℝ), 0], ![0, 1]].map fun y => normInf fun i => y i - st.sOld i) else st.del := by
    rw [h0]; simp [maxList, normInf, List.ofFn_succ]
  set φ := phiFull st [![1, 0], ![0, 1]] with hφ
  have p0 : ∀ x, φ x 0 = 1 := fun x => phiFull_zero _ _ _
  have p1 : ∀ a b : ℝ, φ ![a, b] 1 = a := fun a b => by
    refine (phiFull_succ st _ _ 0 1 hD).trans ?_
    rw [h0]; simp
  have p2 : ∀ a b : ℝ, φ ![a, b] 2 = b := fun a b => by
    refine (phiFull_succ st _ _ 1 1 hD).trans ?_
    rw [h0]; simp
  obtain ⟨q1, q2⟩ := first_pivots cfg env obj .improve 1 (2 + 1) le_rfl φ st [![1, 0], ![0, 1]] [obj ![1, 0], obj ![0, 1]]
    (p0 _) (by rw [h0, p1]) (by rw [h0, p2])
  have s1 : luStep cfg env obj .improve 1 3 φ
      ⟨st, [st.sOld], [st.fOld], [![1, 0], ![0, 1]], [obj ![1, 0], obj ![0, 1]], [φ st.sOld]⟩ 1 =
      ⟨st, [![0, 0], ![1, 0]], [st.fOld, obj ![1, 0]], [![0, 1]], [obj ![0, 1]], [φ ![0, 0], luRow 3 [φ ![0, 0]] 1 (φ ![1, 0])]⟩ := by
    rw [luStep_take cfg env obj .improve 3 φ _ 1 0 [1, 0]]
    · simp [luPick, h0]
    · simp only [List.map_cons, List.map_nil, dot_luV (show 1 < 3 by decide), Finset.sum_range_one, List.getD_cons_zero, h0, p0, p1]
      norm_num
    · simp
    · simp only [argmax, argmin, List.map_cons, List.map_nil, List.getD_cons_zero]; norm_num
    · norm_num
  have u11 : luRow 3 [φ ![0, 0]] 1 (φ ![1, 0]) 1 = 1 := by
    unfold luRow
    rw [if_neg (by omega), if_pos rfl, dot_luV (by omega), Finset.sum_range_one]
    simp only [List.getD_cons_zero, p0, p1]
    norm_num
  have u12 : luRow 3 [φ ![0, 0]] 1 (φ ![1, 0]) 2 = 0 := by
    unfold luRow
    rw [if_neg (by omega), if_neg (by omega), sum_map_range, Finset.sum_range_one]
    simp only [List.getD_cons_zero, p0, p2]
    norm_num
  have s2 : (luStep cfg env obj .improve 1 3 φ
      ⟨st, [![0, 0], ![1, 0]], [st.fOld, obj ![1, 0]], [![0, 1]], [obj ![0, 1]], [φ ![0, 0], luRow 3 [φ ![0, 0]] 1 (φ ![1, 0])]⟩ 2).S =
      [![0, 0], ![1, 0], ![0, 1]] := by
    rw [luStep_take cfg env obj .improve 3 φ _ 2 0 [1]]
    · simp [luPick]
    · simp only [List.map_cons, List.map_nil, dot_luV (show 2 < 3 by decide), Finset.sum_range_succ, Finset.sum_range_zero,
        List.getD_cons_zero, List.getD_cons_succ, p0, p1, p2, u11, u12]
      norm_num
    · simp
    · simp [argmax, argmin]
    · norm_num
  have hS : (luPivot cfg env obj .improve 1 (2 + 1) φ st [![1, 0], ![0, 1]] [obj ![1, 0], obj ![0, 1]]).S = [![0, 0], ![1, 0], ![0, 1]] := by
    unfold luPivot
    rw [show List.range' 1 (2 + 1 - 1) = [1, 2] from rfl]
    simp only [List.foldl_cons, List.foldl_nil]
    rw [s1, s2]
  rw [q1, q2, hS]
  simp only [List.getD_cons_zero, List.getD_cons_succ, p1, p2]
  norm_num

end EQ.Opt
