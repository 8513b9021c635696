import Verif.Poly.FitLemmas

/-!
# Properties of coefficient computation, cached statistics and helpers (C30, C31, C33–C36)
-/

namespace EQ.Poly
open EQ.Param EQ.Basis EQ.Sampling EQ.Sampling.Spec Spec

/-! ## C30 -/

theorem sum_expansion (params : List MParam) (els : List (List ℕ)) (c : List ℝ)
    (hc : c.length = els.length) (x : List ℝ) :
    expansion params els c x =
      ∑ s ∈ Finset.range els.length, c.getD s 0 * basisFun params (els.getD s []) x := by
  unfold expansion
  rw [zipWith_sum _ _ _ [] 0 hc.symm]

theorem integrate_plain (B : Expansion) (hB : Regular B) (hR : B.dims = 1 ∨ B.invR = none)
    (pts : List (List ℝ)) (hp : ∀ x ∈ pts, x.length = B.dims) (wts ys : List ℝ)
    (hw : wts.length = pts.length) (hpos : ∀ w ∈ wts, 0 ≤ w) (hy : ys.length = pts.length) :
    B.integrate pts wts ys = .ok (B.elements.map fun row => ∑ j ∈ Finset.range pts.length,
      wts.getD j 0 * (basisFun B.params row (pts.getD j []) * ys.getD j 0)) := by
  unfold Expansion.integrate
  rw [getPoly_plain B hB hR pts hp]
  simp only [List.length_map]
  rw [orthogonalSolve_eq B.elements (fun row x => basisFun B.params row x) pts wts ys hw hpos hy]

/-- C30. With `numerical-integration` on the tensor grid of the orders, for every expansion whose
index set consists of distinct rows inside the orders (any dimension, any such index set): if the
model values come from an expansion with coefficients `c`, the computed coefficients are exactly
`c`, and `get_polyfit` reproduces that function at every stack of points. -/
theorem c30_exact_recovery (B : Expansion) (hB : Regular B) (hR : B.invR = none)
    (hne : B.params ≠ []) (hP : ∀ P ∈ B.params, Valid P) (orders : List ℕ)
    (ho : orders.length = B.dims) (hbox : ∀ row ∈ B.elements, List.Forall₂ (· ≤ ·) row orders)
    (hnd : B.elements.Nodup) (c : List ℝ) (hc : c.length = B.elements.length) :
    ∃ pts wts, tensorGrid (localRules B.params orders) = .ok (pts, wts) ∧
      B.integrate pts wts (pts.map (expansion B.params B.elements c)) = .ok c ∧
      ∀ stack : List (List ℝ), (∀ x ∈ stack, x.length = B.dims) →
        B.polyfit c stack = .ok (stack.map (expansion B.params B.elements c)) := by
  obtain ⟨pts, wts, h1, _, h3, _, _, h6, h7⟩ := c21_parameters B.params hne hP orders ho
  have hw : wts.length = pts.length := h3
  refine ⟨pts, wts, h1, ?_, fun stack hst => ?_⟩
  · rw [integrate_plain B hB (.inr hR) pts h7 wts _ hw (fun w h => (h6 w h).le) (by simp)]
    have hl := localRules_len_eq B.params orders
    have hne' : localRules B.params orders ≠ [] := by
      intro h
      have := localRules_length B.params orders ho
      rw [h] at this
      exact hne (List.length_eq_zero_iff.1 this.symm)
    have h5 := tensorGrid_eq _ hne' hl
    rw [h1] at h5
    simp only [Except.ok.injEq, Prod.mk.injEq] at h5
    have horth : ∀ n ∈ B.elements, ∀ m ∈ B.elements,
        ∑ j ∈ Finset.range pts.length, wts.getD j 0 *
          (basisFun B.params n (pts.getD j []) * basisFun B.params m (pts.getD j [])) =
        if n = m then 1 else 0 := by
      intro n hn m hm
      rw [← grid_orth B.params hP orders ho n m (hbox n hn) (hbox m hm)]
      set I := ixs ((localRules B.params orders).map fun r => r.pts.length)
      have hpl : pts.length = I.length := by rw [h5.1, List.length_map]
      conv_rhs => rw [map_eq_range I [], range_map_sum]
      rw [hpl]
      apply Finset.sum_congr rfl
      intro j hj
      rw [Finset.mem_range] at hj
      rw [h5.1, h5.2, getD_map_lt _ _ _ _ hj, getD_map_lt _ _ _ _ hj, getD_of_lt _ _ _ hj]
    congr 1
    apply List.ext_getElem
    · simp [hc]
    · intro r hr1 hr2
      have hr : r < B.elements.length := by simpa using hr1
      rw [List.getElem_map]
      have e : ∀ j ∈ Finset.range pts.length,
          wts.getD j 0 * (basisFun B.params B.elements[r] (pts.getD j []) *
            (pts.map (expansion B.params B.elements c)).getD j 0) =
          ∑ s ∈ Finset.range B.elements.length, c.getD s 0 * (wts.getD j 0 *
            (basisFun B.params B.elements[r] (pts.getD j []) *
             basisFun B.params (B.elements.getD s []) (pts.getD j []))) := by
        intro j hj
        rw [Finset.mem_range] at hj
        rw [getD_map_lt _ _ _ _ hj, ← getD_of_lt pts [] j hj, sum_expansion _ _ _ hc,
          Finset.mul_sum, Finset.mul_sum]
        apply Finset.sum_congr rfl
        intro s _
        ring
      rw [Finset.sum_congr rfl e, Finset.sum_comm]
      have e2 : ∀ s ∈ Finset.range B.elements.length,
          ∑ j ∈ Finset.range pts.length, c.getD s 0 * (wts.getD j 0 *
            (basisFun B.params B.elements[r] (pts.getD j []) *
             basisFun B.params (B.elements.getD s []) (pts.getD j []))) =
          if s = r then c.getD r 0 else 0 := by
        intro s hs
        rw [Finset.mem_range] at hs
        rw [← Finset.mul_sum, horth _ (List.getElem_mem hr) _
          (by rw [getD_of_lt _ _ _ hs]; exact List.getElem_mem hs), getD_of_lt _ _ _ hs]
        by_cases h : s = r
        · subst h; simp
        · rw [if_neg h, if_neg, mul_zero]
          intro h'
          exact h ((hnd.getElem_inj_iff.1 h').symm)
      rw [Finset.sum_congr rfl e2, Finset.sum_ite_eq' , if_pos (Finset.mem_range.2 hr),
        getD_of_lt _ _ _ hr2]
  · rw [polyfit_eq B hB c hc stack hst]
    have : B.eff c = c := by
      unfold Expansion.eff
      rw [hR]
      simp [effCoeffs]
    rw [this]

example : ∃ P : MParam, Valid P ∧
    (∀ row ∈ [[0, 0], [1, 0], [0, 1]], List.Forall₂ (· ≤ ·) row [1, 1]) ∧
    ([[0, 0], [1, 0], [0, 1]] : List (List ℕ)).Nodup :=
  ⟨_, exists_uniform.choose_spec.valid, by simp, by decide⟩

/-! ## C31 -/

/-- What `get_poly` and `get_polyfit` have to do with each other at the mesh. -/
theorem getPoly_dot (B : Expansion) (hB : Regular B) (pts : List (List ℝ))
    (hp : ∀ x ∈ pts, x.length = B.dims) :
    ∃ M, B.getPoly none pts = .ok M ∧ M.length = B.elements.length ∧
      ∀ z : List ℝ, z.length = B.elements.length →
        dotT M pts.length z = .ok (pts.map (expansion B.params B.elements (B.eff z))) := by
  have h := polyfit_eq B hB (List.replicate B.elements.length 0) (by simp) pts hp
  unfold Expansion.polyfit at h
  cases hM : B.getPoly none pts with
  | error e => rw [hM] at h; simp at h
  | ok M =>
    refine ⟨M, rfl, ?_, fun z hz => ?_⟩
    · rw [hM] at h
      simp only [dotT] at h
      split_ifs at h with h'
      simpa using h'
    · have := polyfit_eq B hB z hz pts hp
      unfold Expansion.polyfit at this
      rw [hM] at this
      exact this

theorem matVec_add (R : List (List ℝ)) (n : ℕ) (hR : ∀ row ∈ R, row.length = n) (c z : List ℝ)
    (hc : c.length = n) (hz : z.length = n) (t : ℝ) :
    matVec R (List.zipWith (fun a b => a + t * b) c z) =
      List.zipWith (fun a b => a + t * b) (matVec R c) (matVec R z) := by
  unfold matVec
  rw [List.zipWith_map_left, List.zipWith_map_right]
  apply List.ext_getElem
  · simp
  · intro i h1 h2
    have hi : i < R.length := by simpa using h1
    have hl := hR _ (List.getElem_mem hi)
    rw [List.getElem_map, List.getElem_zipWith,
      zipWith_sum _ _ _ 0 0 (by simp [hl, hc, hz]), zipWith_sum _ _ _ 0 0 (by simp [hl, hc]),
      zipWith_sum _ _ _ 0 0 (by simp [hl, hz]), Finset.mul_sum, ← Finset.sum_add_distrib]
    apply Finset.sum_congr rfl
    intro k hk
    rw [Finset.mem_range] at hk
    rw [getD_of_lt (List.zipWith _ c z) _ _ (by simp; omega), List.getElem_zipWith,
      getD_of_lt c _ _ (by omega), getD_of_lt z _ _ (by omega)]
    ring

theorem eff_add (B : Expansion) (hB : Regular B) (c z : List ℝ)
    (hc : c.length = B.elements.length) (hz : z.length = B.elements.length) (t : ℝ) :
    B.eff (List.zipWith (fun a b => a + t * b) c z) =
      List.zipWith (fun a b => a + t * b) (B.eff c) (B.eff z) := by
  unfold Expansion.eff
  split_ifs
  · rfl
  · cases hR : B.invR with
    | none => rfl
    | some R => exact matVec_add R _ (hB.square R hR).2 c z hc hz t

theorem expansion_add (params : List MParam) (els : List (List ℕ)) (c z : List ℝ)
    (hc : c.length = els.length) (hz : z.length = els.length) (t : ℝ) (x : List ℝ) :
    expansion params els (List.zipWith (fun a b => a + t * b) c z) x =
      expansion params els c x + t * expansion params els z x := by
  rw [sum_expansion _ _ _ (by simp [hc, hz]), sum_expansion _ _ _ hc, sum_expansion _ _ _ hz,
    Finset.mul_sum, ← Finset.sum_add_distrib]
  apply Finset.sum_congr rfl
  intro s hs
  rw [Finset.mem_range] at hs
  rw [getD_of_lt (List.zipWith _ c z) _ _ (by simp; omega), List.getElem_zipWith,
    getD_of_lt c _ _ (by omega), getD_of_lt z _ _ (by omega)]
  ring

/-- A quadratic that is minimal at zero has no linear term. -/
theorem linear_term_zero (b a : ℝ) (h : ∀ t : ℝ, 0 ≤ 2 * t * b + t ^ 2 * a) : b = 0 := by
  by_contra hb
  rcases lt_or_gt_of_ne hb with hb | hb
  · have ha := h (-b / (|a| + 1))
    have hA : 0 < |a| + 1 := by positivity
    have h1 : a ≤ |a| + 1 := (le_abs_self a).trans (by linarith)
    have e : 2 * (-b / (|a| + 1)) * b + (-b / (|a| + 1)) ^ 2 * a =
        b ^ 2 / (|a| + 1) * (a / (|a| + 1) - 2) := by field_simp; ring
    rw [e] at ha
    have h2 : a / (|a| + 1) ≤ 1 := (div_le_one hA).2 h1
    have h3 : 0 < b ^ 2 / (|a| + 1) := by positivity
    nlinarith
  · have ha := h (-b / (|a| + 1))
    have hA : 0 < |a| + 1 := by positivity
    have h1 : a ≤ |a| + 1 := (le_abs_self a).trans (by linarith)
    have e : 2 * (-b / (|a| + 1)) * b + (-b / (|a| + 1)) ^ 2 * a =
        b ^ 2 / (|a| + 1) * (a / (|a| + 1) - 2) := by field_simp; ring
    rw [e] at ha
    have h2 : a / (|a| + 1) ≤ 1 := (div_le_one hA).2 h1
    have h3 : 0 < b ^ 2 / (|a| + 1) := by positivity
    nlinarith

/-- C31. For every regular object, points, positive weights and data, and for every vector `c`
that `lstsq` may return for the system built by the code: the function evaluated by
`get_polyfit` has the smallest weighted misfit among all coefficient vectors; its residual is
orthogonal to every function of the span; and if the data come from coefficients `c₀` and no
non-zero coefficient vector gives a function vanishing at all points, then `c = c₀`. -/
theorem c31_least_squares (B : Expansion) (hB : Regular B) (pts : List (List ℝ))
    (hp : ∀ x ∈ pts, x.length = B.dims) (wts ys : List ℝ) (hw : wts.length = pts.length)
    (hpos : ∀ w ∈ wts, 0 < w) (hy : ys.length = pts.length) :
    ∃ M, B.getPoly none pts = .ok M ∧
      ∀ c, LstsqContract (designMatrix M wts) (rhs wts ys) M.length c →
      ∃ fit : List ℝ → List ℝ → ℝ,
        (∀ z : List ℝ, z.length = B.elements.length → ∀ stack : List (List ℝ),
          (∀ x ∈ stack, x.length = B.dims) → B.polyfit z stack = .ok (stack.map (fit z))) ∧
        (∀ z : List ℝ, z.length = B.elements.length →
          misfit pts wts ys (fit c) ≤ misfit pts wts ys (fit z)) ∧
        (∀ z : List ℝ, z.length = B.elements.length →
          ∑ j ∈ Finset.range pts.length, wts.getD j 0 *
            ((fit c (pts.getD j []) - ys.getD j 0) * fit z (pts.getD j [])) = 0) ∧
        (∀ c₀ : List ℝ, c₀.length = B.elements.length → ys = pts.map (fit c₀) →
          (∀ z : List ℝ, z.length = B.elements.length → (∀ x ∈ pts, fit z x = 0) →
            ∀ a ∈ z, a = 0) → c = c₀) := by
  obtain ⟨M, hM, hMl, hdot⟩ := getPoly_dot B hB pts hp
  refine ⟨M, hM, fun c hcon => ⟨fun z => expansion B.params B.elements (B.eff z), ?_, ?_⟩⟩
  · intro z hz stack hst
    exact polyfit_eq B hB z hz stack hst
  · have hcl : c.length = B.elements.length := by rw [hcon.1, hMl]
    have hpos' : ∀ w ∈ wts, 0 ≤ w := fun w h => (hpos w h).le
    have hmin : ∀ z : List ℝ, z.length = B.elements.length →
        misfit pts wts ys (expansion B.params B.elements (B.eff c)) ≤
          misfit pts wts ys (expansion B.params B.elements (B.eff z)) := by
      intro z hz
      have := hcon.2 z (by rw [hz, hMl])
      rwa [sqResidual_eq M pts wts ys hw hpos' hy c (by rw [hcl, hMl]) _ (hdot c hcl),
        sqResidual_eq M pts wts ys hw hpos' hy z (by rw [hz, hMl]) _ (hdot z hz)] at this
    have horth : ∀ z : List ℝ, z.length = B.elements.length →
          ∑ j ∈ Finset.range pts.length, wts.getD j 0 *
            ((expansion B.params B.elements (B.eff c) (pts.getD j []) - ys.getD j 0) *
              expansion B.params B.elements (B.eff z) (pts.getD j [])) = 0 := by
      intro z hz
      apply linear_term_zero _ (∑ j ∈ Finset.range pts.length, wts.getD j 0 *
        expansion B.params B.elements (B.eff z) (pts.getD j []) ^ 2)
      intro t
      have h := hmin (List.zipWith (fun a b => a + t * b) c z) (by simp [hcl, hz])
      rw [eff_add B hB c z hcl hz] at h
      unfold misfit at h
      have e : ∀ j ∈ Finset.range pts.length, wts.getD j 0 *
          (expansion B.params B.elements
            (List.zipWith (fun a b => a + t * b) (B.eff c) (B.eff z)) (pts.getD j []) - ys.getD j 0) ^ 2 =
          wts.getD j 0 * (expansion B.params B.elements (B.eff c) (pts.getD j []) - ys.getD j 0) ^ 2 +
          (2 * t * (wts.getD j 0 *
            ((expansion B.params B.elements (B.eff c) (pts.getD j []) - ys.getD j 0) *
              expansion B.params B.elements (B.eff z) (pts.getD j []))) +
          t ^ 2 * (wts.getD j 0 * expansion B.params B.elements (B.eff z) (pts.getD j []) ^ 2)) := by
        intro j _
        rw [expansion_add _ _ _ _ (eff_length B hB c hcl) (eff_length B hB z hz)]
        ring
      rw [Finset.sum_congr rfl e, Finset.sum_add_distrib, Finset.sum_add_distrib,
        ← Finset.mul_sum, ← Finset.mul_sum] at h
      linarith
    refine ⟨hmin, horth, fun c₀ hc₀ hys hrank => ?_⟩
    -- the misfit of `c₀` is zero, so that of `c` is
    have h0 : misfit pts wts ys (expansion B.params B.elements (B.eff c₀)) = 0 := by
      unfold misfit
      apply Finset.sum_eq_zero
      intro j hj
      rw [Finset.mem_range] at hj
      rw [hys, getD_map_lt _ _ _ _ hj, getD_of_lt _ _ _ hj]
      simp
    have h1 : misfit pts wts ys (expansion B.params B.elements (B.eff c)) ≤ 0 :=
      (hmin c₀ hc₀).trans h0.le
    have hterm : ∀ j ∈ Finset.range pts.length, 0 ≤ wts.getD j 0 *
        (expansion B.params B.elements (B.eff c) (pts.getD j []) - ys.getD j 0) ^ 2 := by
      intro j hj
      rw [Finset.mem_range] at hj
      refine mul_nonneg ?_ (sq_nonneg _)
      rw [getD_of_lt _ _ _ (by omega)]
      exact hpos' _ (List.getElem_mem _)
    have h2 := (Finset.sum_eq_zero_iff_of_nonneg hterm).1
      (le_antisymm h1 (Finset.sum_nonneg hterm))
    have hz := hrank (List.zipWith (fun a b => a + (-1) * b) c c₀) (by simp [hcl, hc₀]) (by
      intro x hx
      obtain ⟨j, hj, rfl⟩ := List.getElem_of_mem hx
      change expansion B.params B.elements (B.eff (List.zipWith _ c c₀)) _ = 0
      rw [eff_add B hB c c₀ hcl hc₀,
        expansion_add _ _ _ _ (eff_length B hB c hcl) (eff_length B hB c₀ hc₀)]
      have h3 := h2 j (Finset.mem_range.2 hj)
      have hwj : wts.getD j 0 ≠ 0 := by
        rw [getD_of_lt _ _ _ (by omega)]
        exact (hpos _ (List.getElem_mem _)).ne'
      have h4 := pow_eq_zero_iff (two_ne_zero) |>.1 ((mul_eq_zero.1 h3).resolve_left hwj)
      rw [hys, getD_map_lt _ _ _ _ hj, getD_of_lt _ _ _ hj] at h4
      linarith)
    apply List.ext_getElem
    · rw [hcl, hc₀]
    · intro i hi1 hi2
      have := hz (c[i] + (-1) * c₀[i]) (by
        rw [List.mem_iff_getElem]
        exact ⟨i, by simp; omega, by simp⟩)
      linarith

/-- The contract of `lstsq` can be met for every system the code builds. -/
example (M : List (List ℝ)) (wts ys : List ℝ) :
    ∃ c, LstsqContract (designMatrix M wts) (rhs wts ys) M.length c := exists_lstsq _ _ _

/-! ## C33 -/

/-- Operations that go through `set_model` or only query. -/
def Op.clean {C P : Type} : Op C P → Prop
  | .setModel _ => True
  | .setModelRaises => True
  | .query => True
  | _ => False

/-- C33, the part that holds: after any sequence of `set_model` calls (successful or raising) and
queries on a fresh object, a query answers for the current coefficients and parameters. Missing:
histories with user-defined coefficients or changed parameters, see `c33_stale_violated`. -/
theorem c33_statistics_current_partial {C P : Type} (c : C) (p : P) (ops : List (Op C P))
    (hops : ∀ o ∈ ops, o.clean) :
    let s := Obj.run ⟨c, p, none⟩ ops
    (s.step .query).2 = some (s.coeffs, s.params) := by
  have inv : ∀ (ops : List (Op C P)) (s : Obj C P), (∀ o ∈ ops, o.clean) →
      (∀ t, s.stats = some t → t = (s.coeffs, s.params)) →
      ∀ t, (s.run ops).stats = some t → t = ((s.run ops).coeffs, (s.run ops).params) := by
    intro ops
    induction ops with
    | nil => intro s _ h; exact h
    | cons o ops ih =>
      intro s hops h
      refine ih (s.step o).1 (fun o' ho' => hops o' (by simp [ho'])) ?_
      have hc := hops o (by simp)
      cases o with
      | setModel c => intro t ht; simp [Obj.step] at ht
      | setModelRaises => intro t ht; simp [Obj.step] at ht
      | setCoefficients c => exact absurd hc (by simp [Op.clean])
      | setParameters p => exact absurd hc (by simp [Op.clean])
      | query =>
        intro t ht
        cases hs : s.stats with
        | none => simp [Obj.step, hs] at ht ⊢; exact ht.symm
        | some t' =>
          have h' := h t' hs
          simp only [Obj.step, hs, Option.some.injEq] at ht ⊢
          rw [← ht, h']
  intro s
  have := inv ops ⟨c, p, none⟩ hops (by simp)
  change ∀ t, s.stats = some t → t = (s.coeffs, s.params) at this
  cases hs : s.stats with
  | none => simp [Obj.step, hs]
  | some t =>
    have ht := this t hs
    simp [Obj.step, hs, ht]

/-- C33 is false for histories with user-defined coefficients: after a query, replacing the
coefficients leaves the cached statistics of the old ones. The same holds for parameters. -/
theorem c33_stale_violated {C P : Type} (c c' : C) (hc : c ≠ c') (p p' : P) (hp : p ≠ p') :
    (let s := Obj.run ⟨c, p, none⟩ [.query, .setCoefficients c']
     (s.step .query).2 ≠ some (s.coeffs, s.params)) ∧
    (let s := Obj.run ⟨c, p, none⟩ [.query, .setParameters p']
     (s.step .query).2 ≠ some (s.coeffs, s.params)) := by
  constructor <;> simp [Obj.run, Obj.step, hc, hp]

example : ∀ o ∈ ([.setModel 1, .query, .setModelRaises, .query] : List (Op ℕ ℕ)), o.clean := by
  simp [Op.clean]

/-! ## C34 -/

theorem npDelete_nan {α : Type} (l : List α) (ys : List (Option ℝ)) (h : l.length = ys.length) :
    npDelete l (nanIndices ys) = ((l.zip ys).filter fun p => p.2.isSome).map Prod.fst := by
  unfold npDelete
  have e : l.zip ys = l.zipIdx.map fun p => (p.1, ys.getD p.2 none) := by
    apply List.ext_getElem
    · simp [h]
    · intro i h1 h2
      have : i < ys.length := by simp at h1; omega
      simp [List.getD_eq_getElem?_getD, this]
  rw [e, List.filter_map, List.map_map]
  have : l.zipIdx.filter (fun p => decide (p.2 ∉ nanIndices ys)) =
      l.zipIdx.filter ((fun p : α × Option ℝ => p.2.isSome) ∘ fun p => (p.1, ys.getD p.2 none)) := by
    apply List.filter_congr
    intro p hp
    obtain ⟨i, hi, rfl⟩ := List.getElem_of_mem hp
    have hi' : i < ys.length := by simp at hi; omega
    simp only [List.getElem_zipIdx, Nat.zero_add, Function.comp, nanIndices, List.mem_filter,
      List.mem_range, hi', true_and]
    cases ys.getD i none <;> simp
  rw [this]
  rfl

theorem npDelete_nan_self (ys : List (Option ℝ)) :
    npDelete ys (nanIndices ys) = ys.filter Option.isSome := by
  rw [npDelete_nan ys ys rfl]
  induction ys with
  | nil => rfl
  | cons y ys ih => cases y <;> simp_all

/-- C34, the part that holds (methods without gradient data). Suppose some value is NaN. If the
basis has no more terms than values are left, or more values are left than dimensions, the refit
happens on exactly the pairs with a value, in their order; the index set is kept or is pruned, and
it never has more terms than there are rows. The invariant `elements ≤ cardinality` needed for a
later refit is kept. Missing: see the two `c34_.._violated` theorems. -/
theorem c34_nan_partial (argsort : List ℕ → List ℕ) (hc : Basis.ArgsortContract argsort) (d : ℕ)
    (s : State) (hs : s.elements.length ≤ s.cardinality) (hne : s.elements ≠ [])
    (pts : List (List ℝ)) (ys : List (Option ℝ)) (hl : pts.length = ys.length)
    (hnan : none ∈ ys)
    (hfew : s.cardinality ≤ (ys.filter Option.isSome).length ∨
      d < (ys.filter Option.isSome).length) :
    ∃ s', nanRefit argsort d false s pts ys = .ok (s',
        ((pts.zip ys).filter fun p => p.2.isSome).map Prod.fst,
        ((pts.zip ys).filter fun p => p.2.isSome).map Prod.snd) ∧
      s'.elements.length ≤ (((pts.zip ys).filter fun p => p.2.isSome).map Prod.snd).length ∧
      s'.elements ≠ [] ∧ s'.elements.length ≤ s'.cardinality ∧ s'.cardinality = s.cardinality ∧
      (∀ row ∈ s'.elements, row ∈ s.elements) ∧
      (s.cardinality ≤ (ys.filter Option.isSome).length → s' = s) := by
  have hidx : nanIndices ys ≠ [] := by
    obtain ⟨i, hi, h⟩ := List.getElem_of_mem hnan
    apply List.ne_nil_of_mem (a := i)
    simp [nanIndices, List.getD_eq_getElem?_getD, hi, h]
  have e1 := npDelete_nan pts ys hl
  have e2 := npDelete_nan_self ys
  have e3 : ((pts.zip ys).filter fun p => p.2.isSome).map Prod.snd = ys.filter Option.isSome := by
    clear * - hl
    induction ys generalizing pts with
    | nil => simp
    | cons y ys ih =>
      cases pts with
      | nil => simp at hl
      | cons x pts =>
        have := ih pts (by simpa using hl)
        cases y <;> simp_all
  rw [e3]
  unfold nanRefit
  simp only [if_neg hidx, e1, e2]
  set n := (ys.filter Option.isSome).length with hn
  by_cases hlt : n < s.cardinality
  · have hd : d < n := by
      rcases hfew with h | h
      · omega
      · exact h
    rw [if_pos hlt]
    have hpr : s.prune argsort (s.cardinality - n + d) =
        ({ s with elements := (sortElements argsort s.elements).take (n - d) }, true) := by
      unfold State.prune
      simp only
      rw [if_neg (by omega)]
      have : s.cardinality - (s.cardinality - n + d) = n - d := by omega
      rw [this]
    rw [hpr]
    have hsl := sortElements_length hc s.elements
    have hpos : 0 < s.elements.length := List.length_pos_of_ne_nil hne
    have hne' : (sortElements argsort s.elements).take (n - d) ≠ [] := by
      apply List.ne_nil_of_length_pos
      rw [List.length_take, hsl]
      omega
    simp only [Bool.true_eq_false, if_false, Bool.false_eq_true]
    rw [if_neg hne']
    refine ⟨_, rfl, ?_, hne', ?_, rfl, ?_, fun h => by omega⟩
    · simp only [List.length_take]; omega
    · simp only [List.length_take, hsl]; omega
    · intro row hrow
      exact (sortElements_perm hc s.elements).mem_iff.1 (List.mem_of_mem_take hrow)
  · rw [if_neg hlt]
    simp only [Bool.true_eq_false, if_false, Bool.false_eq_true]
    rw [if_neg hne]
    exact ⟨s, rfl, by omega, hne, hs, rfl, fun _ h => h, fun _ => rfl⟩

/-- Without NaN nothing is dropped or pruned. -/
theorem c34_no_nan (argsort : List ℕ → List ℕ) (d : ℕ) (g : Bool) (s : State)
    (pts : List (List ℝ)) (ys : List (Option ℝ)) (h : none ∉ ys) :
    nanRefit argsort d g s pts ys = .ok (s, pts, ys) := by
  unfold nanRefit
  have : nanIndices ys = [] := by
    unfold nanIndices
    rw [List.filter_eq_nil_iff]
    intro i hi
    rw [List.mem_range] at hi
    rw [getD_of_lt _ _ _ hi]
    cases hy : ys[i] with
    | none => exact absurd (hy ▸ List.getElem_mem hi) h
    | some y => simp
  simp [this]

/-- C34 is false when at most as many values are left as there are dimensions and the basis has
more terms: `set_model` raises although there are values left to fit. -/
theorem c34_few_values_violated (argsort : List ℕ → List ℕ) (d : ℕ)
    (g : Bool) (s : State) (pts : List (List ℝ)) (ys : List (Option ℝ)) (hnan : none ∈ ys)
    (hlt : (ys.filter Option.isSome).length < s.cardinality)
    (hd : (ys.filter Option.isSome).length ≤ d) :
    nanRefit argsort d g s pts ys = .error .valueError := by
  have hidx : nanIndices ys ≠ [] := by
    obtain ⟨i, hi, h⟩ := List.getElem_of_mem hnan
    apply List.ne_nil_of_mem (a := i)
    simp [nanIndices, List.getD_eq_getElem?_getD, hi, h]
  unfold nanRefit
  simp only [if_neg hidx, npDelete_nan_self]
  set n := (ys.filter Option.isSome).length
  rw [if_pos hlt]
  by_cases h : s.cardinality < s.cardinality - n + d
  · simp [State.prune, h]
  · have : s.cardinality - (s.cardinality - n + d) = 0 := by omega
    simp [State.prune, h, this]

/-- C34 is false with gradient data: the refit calls the new solver with the wrong number of
arguments and raises `TypeError`. -/
theorem c34_gradients_violated (argsort : List ℕ → List ℕ) (hc : Basis.ArgsortContract argsort)
    (d : ℕ) (s : State) (hs : s.elements.length ≤ s.cardinality) (hne : s.elements ≠ [])
    (pts : List (List ℝ)) (ys : List (Option ℝ)) (hl : pts.length = ys.length)
    (hnan : none ∈ ys)
    (hfew : s.cardinality ≤ (ys.filter Option.isSome).length ∨
      d < (ys.filter Option.isSome).length) :
    nanRefit argsort d true s pts ys = .error .typeError := by
  obtain ⟨s', h, _⟩ := c34_nan_partial argsort hc d s hs hne pts ys hl hnan hfew
  unfold nanRefit at h ⊢
  simp only at h ⊢
  split_ifs at h ⊢ with h1 h2 h3 h4
  all_goals first | rfl | skip
  obtain ⟨i, hi, hh⟩ := List.getElem_of_mem hnan
  have : nanIndices ys ≠ [] := by
    apply List.ne_nil_of_mem (a := i)
    simp [nanIndices, List.getD_eq_getElem?_getD, hi, hh]
  exact absurd h1 this

example : none ∈ ([some 1, none, some 2, some 3, some 4] : List (Option ℝ)) ∧
    2 < (([some 1, none, some 2, some 3, some 4] : List (Option ℝ)).filter Option.isSome).length := by
  simp

example : nanRefit Basis.stableArgsort 2 false (State.ofElements [[0, 0], [1, 0], [0, 1], [1, 1]])
    [[0, 0], [0, 1], [1, 0], [1, 1]] [some 1, none, some 2, some 3] ≠ .error .typeError := by
  obtain ⟨s', h, _⟩ := c34_nan_partial Basis.stableArgsort Basis.stableArgsort_contract 2
    (State.ofElements [[0, 0], [1, 0], [0, 1], [1, 1]]) (by simp [State.ofElements])
    (by simp [State.ofElements]) [[0, 0], [0, 1], [1, 0], [1, 1]] [some 1, none, some 2, some 3]
    (by simp) (by simp) (by right; simp)
  rw [h]; simp

/-! ## C35 -/

theorem sqResidual_append (A A' : List (List ℝ)) (b b' z : List ℝ) (h : A.length = b.length) :
    sqResidual (A ++ A') (b ++ b') z = sqResidual A b z + sqResidual A' b' z := by
  unfold sqResidual
  rw [List.zipWith_append h, List.sum_append]

theorem sqResidual_flatMap (l : List ℕ) (A : ℕ → List (List ℝ)) (b : ℕ → List ℝ) (z : List ℝ)
    (h : ∀ v ∈ l, (A v).length = (b v).length) :
    sqResidual (l.flatMap A) (l.flatMap b) z = (l.map fun v => sqResidual (A v) (b v) z).sum := by
  induction l with
  | nil => simp [sqResidual]
  | cons v l ih =>
    rw [List.flatMap_cons, List.flatMap_cons, sqResidual_append _ _ _ _ _ (h v (by simp)),
      ih fun w hw => h w (by simp [hw])]
    simp

/-- C35. In two or more dimensions, for every regular object, mesh, data and gradient data, and
for every coefficient vector `z`: the residual of the stacked system (values, then the stacked
derivative matrix against the stacked gradient data) is the weighted misfit of the fit to the
values plus, for every direction `v`, the weighted misfit of the `v`-th derivative of the fit to
column `v` of the gradient data. Hence consistent data from coefficients `c` give residual zero
at `c`. -/
theorem c35_gradient_rows (B : Expansion) (hB : Regular B) (hd : B.dims ≠ 1)
    (pts : List (List ℝ)) (hp : ∀ x ∈ pts, x.length = B.dims) (wts ys : List ℝ)
    (hw : wts.length = pts.length) (hpos : ∀ w ∈ wts, 0 ≤ w) (hy : ys.length = pts.length)
    (grads : List (List ℝ)) (hg : grads.length = pts.length) :
    ∃ M G C, B.getPoly none pts = .ok M ∧ B.getPolyGrad none pts = .ok G ∧
      cell2matrix G wts = .ok C ∧ C.length = (gradStack wts grads B.dims).length ∧
      ∀ z : List ℝ, z.length = B.elements.length →
        ∃ (f : List ℝ → ℝ) (g : ℕ → List ℝ → ℝ),
          B.polyfit z pts = .ok (pts.map f) ∧
          B.polyfitGrad none z pts = .ok ((List.range B.dims).map fun v => pts.map (g v)) ∧
          sqResidual (designMatrix M wts ++ C) (rhs wts ys ++ gradStack wts grads B.dims) z =
            misfit pts wts ys f +
              ∑ v ∈ Finset.range B.dims, misfit pts wts (grads.map fun r => r.getD v 0) (g v) ∧
          (ys = pts.map f → (∀ v < B.dims, (grads.map fun r => r.getD v 0) = pts.map (g v)) →
            sqResidual (designMatrix M wts ++ C) (rhs wts ys ++ gradStack wts grads B.dims) z = 0) := by
  obtain ⟨M, hM, hMl, hdot⟩ := getPoly_dot B hB pts hp
  -- the derivative matrices do not depend on the coefficients
  have hgm : ∃ Ms : ℕ → List (List ℝ),
      B.getPolyGrad none pts = .ok (.many ((List.range B.dims).map Ms)) ∧
      ∀ v < B.dims, (Ms v).length = B.elements.length ∧ ∀ z : List ℝ, z.length = B.elements.length →
        dotT (Ms v) pts.length z = .ok (pts.map (gradFun B z v)) := by
    obtain ⟨Ms, h1, h2⟩ := getPolyGrad_many B hB hd none
      (List.replicate B.elements.length 0) (by simp) pts
    refine ⟨Ms, h1, fun v hv => ⟨(h2 v hv).1, fun z hz => ?_⟩⟩
    obtain ⟨Ms', h1', h2'⟩ := getPolyGrad_many B hB hd none z hz pts
    rw [h1] at h1'
    simp only [Except.ok.injEq, Mats.many.injEq] at h1'
    have : Ms v = Ms' v := by
      have := congrArg (fun l => l.getD v []) h1'
      simpa [List.getD_eq_getElem?_getD, hv] using this
    rw [this, (h2' v hv).2, if_pos (by simpa using hv)]
  obtain ⟨Ms, hMs, hMs2⟩ := hgm
  have hstack : gradStack wts grads B.dims =
      (List.range B.dims).flatMap fun v => rhs wts (grads.map fun r => r.getD v 0) := by
    unfold gradStack
    congr 1
    funext v
    apply List.ext_getElem
    · simp [rhs, hg, hw]
    · intro i h1 h2
      have hi : i < grads.length := by simpa using h1
      simp only [List.getElem_map, List.getElem_range, rhs, List.getElem_zipWith]
      rw [getD_of_lt wts _ _ (by omega), getD_of_lt grads _ _ hi]
  refine ⟨M, _, (List.range B.dims).flatMap fun v => designMatrix (Ms v) wts, hM, hMs, ?_, ?_, ?_⟩
  · simp only [cell2matrix]
    rw [List.flatMap_map]
  · rw [hstack, List.length_flatMap, List.length_flatMap]
    congr 1
    apply List.map_congr_left
    intro v _
    simp [designMatrix, rhs, hg, hw]
  · intro z hz
    have hres : sqResidual (designMatrix M wts ++
        (List.range B.dims).flatMap fun v => designMatrix (Ms v) wts)
        (rhs wts ys ++ gradStack wts grads B.dims) z =
        misfit pts wts ys (expansion B.params B.elements (B.eff z)) +
          ∑ v ∈ Finset.range B.dims, misfit pts wts (grads.map fun r => r.getD v 0)
            (gradFun B z v) := by
      rw [sqResidual_append _ _ _ _ _ (by simp [designMatrix, rhs, hy, hw]),
        sqResidual_eq M pts wts ys hw hpos hy z (by rw [hz, hMl]) _ (hdot z hz), hstack,
        sqResidual_flatMap _ _ _ _ (by intro v _; simp [designMatrix, rhs, hg, hw]),
        range_map_sum]
      congr 1
      apply Finset.sum_congr rfl
      intro v hv
      rw [Finset.mem_range] at hv
      exact sqResidual_eq (Ms v) pts wts _ hw hpos (by simp [hg]) z
        (by rw [hz, (hMs2 v hv).1]) _ ((hMs2 v hv).2 z hz)
    refine ⟨_, gradFun B z, polyfit_eq B hB z hz pts hp, ?_, hres, fun h1 h2 => ?_⟩
    · rw [polyfitGrad_eq B hB z hz]
      congr 1
      apply List.map_congr_left
      intro v hv
      rw [Option.getD_none, if_pos (.inr hv)]
    · have hzero : ∀ f : List ℝ → ℝ, misfit pts wts (pts.map f) f = 0 := by
        intro f
        unfold misfit
        apply Finset.sum_eq_zero
        intro j hj
        rw [Finset.mem_range] at hj
        rw [getD_map_lt _ _ _ _ hj, getD_of_lt _ _ _ hj]
        simp
      rw [hres, h1, hzero, zero_add]
      apply Finset.sum_eq_zero
      intro v hv
      rw [h2 v (Finset.mem_range.1 hv), hzero]

/-- C35 is false in one dimension: the stacked derivative matrix cannot be built, `set_model`
with gradients raises `ValueError` for every mesh. -/
theorem c35_one_dimension_violated (B : Expansion) (hB : Regular B) (hd : B.dims = 1)
    (pts : List (List ℝ)) (wts : List ℝ) :
    ∃ G, B.getPolyGrad none pts = .ok G ∧ cell2matrix G wts = .error .valueError :=
  ⟨_, getPolyGrad_one B hB hd none pts, rfl⟩

/-! ## C36 -/

theorem setCell_length (z : List (List (Option ℝ))) (i j : ℕ) (c : ℝ) :
    (setCell z i j c).length = z.length := by simp [setCell]

theorem setCell_read (z : List (List (Option ℝ))) (n : ℕ) (hz : z.length = n)
    (hr : ∀ row ∈ z, row.length = n) (i j : ℕ) (hi : i < n) (hj : j < n) (c : ℝ) (a b : ℕ) :
    ((setCell z i j c).getD a []).getD b none =
      if a = i ∧ b = j then some c else (z.getD a []).getD b none := by
  unfold setCell
  simp only [List.getD_eq_getElem?_getD, List.getElem?_modify]
  by_cases hai : a = i
  · subst hai
    have ha : a < z.length := by omega
    simp only [List.getElem?_eq_getElem ha, if_true, Option.map_some, Option.getD_some,
      true_and, List.getElem?_set]
    have hl := hr _ (List.getElem_mem ha)
    by_cases hbj : b = j
    · subst hbj; simp [hl, hj]
    · simp [hbj, Ne.symm hbj]
  · have : ¬ (a = i ∧ b = j) := fun h => hai h.1
    rw [if_neg this]
    simp [Ne.symm hai]

theorem setCell_rows (z : List (List (Option ℝ))) (n : ℕ)
    (hr : ∀ row ∈ z, row.length = n) (i j : ℕ) (c : ℝ) :
    ∀ row ∈ setCell z i j c, row.length = n := by
  intro row hrow
  unfold setCell at hrow
  obtain ⟨k, hk, rfl⟩ := List.getElem_of_mem hrow
  rw [List.getElem_modify]
  have hk' : k < z.length := by simpa using hk
  split_ifs
  · simp [hr _ (List.getElem_mem hk')]
  · exact hr _ (List.getElem_mem hk')

theorem fill_read (n : ℕ) : ∀ (rows : List (List ℕ)) (cs : List ℝ) (z : List (List (Option ℝ))),
    z.length = n → (∀ row ∈ z, row.length = n) → rows.length = cs.length →
    (∀ row ∈ rows, row.getD 0 0 < n ∧ row.getD 1 0 < n) →
    let Z := (List.zip rows cs).foldl
      (fun z rc => setCell z (rc.1.getD 0 0) (rc.1.getD 1 0) rc.2) z
    Z.length = n ∧ (∀ row ∈ Z, row.length = n) ∧
    (∀ a b, (∀ row ∈ rows, ¬ (row.getD 0 0 = a ∧ row.getD 1 0 = b)) →
      (Z.getD a []).getD b none = (z.getD a []).getD b none) ∧
    ((rows.map fun row => (row.getD 0 0, row.getD 1 0)).Nodup →
      ∀ k (hk : k < rows.length) (hk' : k < cs.length),
        (Z.getD (rows[k].getD 0 0) []).getD (rows[k].getD 1 0) none = some cs[k]) := by
  intro rows
  induction rows with
  | nil =>
    intro cs z hz hr hl _
    exact ⟨hz, hr, fun a b _ => rfl, fun _ k hk => absurd hk (by simp)⟩
  | cons row rows ih =>
    intro cs z hz hr hl hb
    cases cs with
    | nil => simp at hl
    | cons c cs =>
      obtain ⟨hb1, hb2⟩ := hb row (by simp)
      obtain ⟨h1, h2, h3, h4⟩ := ih cs (setCell z (row.getD 0 0) (row.getD 1 0) c)
        (by rw [setCell_length, hz]) (setCell_rows z n hr _ _ c) (by simpa using hl)
        (fun r h => hb r (by simp [h]))
      simp only [List.zip_cons_cons, List.foldl_cons]
      refine ⟨h1, h2, fun a b hab => ?_, fun hnd k hk hk' => ?_⟩
      · rw [h3 a b fun r h => hab r (by simp [h]), setCell_read z n hz hr _ _ hb1 hb2]
        have := hab row (by simp)
        rw [if_neg fun h => this ⟨h.1.symm, h.2.symm⟩]
      · rw [List.map_cons, List.nodup_cons] at hnd
        rcases k with _ | k
        · simp only [List.getElem_cons_zero]
          rw [h3 _ _ fun r h => ?_, setCell_read z n hz hr _ _ hb1 hb2, if_pos ⟨rfl, rfl⟩]
          intro hh
          exact hnd.1 (List.mem_map.2 ⟨r, h, by rw [hh.1, hh.2]⟩)
        · simp only [List.getElem_cons_succ]
          exact h4 hnd.2 k (by simpa using hk) (by simpa using hk')

/-- C36. For every non-empty index set of distinct pairs and as many coefficients, the grid is
square of size `max_order`, cell `(i_k, j_k)` holds coefficient `k`, and every other cell is
NaN. -/
theorem c36_grid (coeffs : List ℝ) (index : List (List ℕ)) (hne : index ≠ [])
    (hl : coeffs.length = index.length) (h2 : ∀ row ∈ index, row.length = 2)
    (hnd : index.Nodup) :
    ∃ z n, vectorTo2DGrid coeffs index = .ok (z, n) ∧ z.length = n ∧
      (∀ row ∈ z, row.length = n) ∧
      (∀ k (hk : k < index.length) (hk' : k < coeffs.length), ∀ i j, index[k] = [i, j] →
        i < n ∧ j < n ∧ (z.getD i []).getD j none = some coeffs[k]) ∧
      (∀ i j, [i, j] ∉ index → (z.getD i []).getD j none = none) := by
  set n := index.flatten.foldl max 0 + 1 with hn
  have hcs : (if coeffs.length = 1 then List.replicate index.length (coeffs.getD 0 0) else coeffs) =
      coeffs := by
    split_ifs with h
    · obtain ⟨a, rfl⟩ := List.length_eq_one_iff.1 h
      simp at hl
      simp [← hl]
    · rfl
  have hbd : ∀ row ∈ index, ∀ a ∈ row, a < n := by
    intro row hr a ha
    have := (le_foldl_max index.flatten 0).2 a (List.mem_flatten.2 ⟨row, hr, ha⟩)
    omega
  have hpair : ∀ row ∈ index, ∃ i j, row = [i, j] := fun row hr =>
    List.length_eq_two.1 (h2 row hr)
  have hb : ∀ row ∈ index, row.getD 0 0 < n ∧ row.getD 1 0 < n := by
    intro row hr
    obtain ⟨i, j, rfl⟩ := hpair row hr
    exact ⟨hbd _ hr _ (by simp), hbd _ hr _ (by simp)⟩
  obtain ⟨f1, f2, f3, f4⟩ := fill_read n index coeffs
    (List.replicate n (List.replicate n none)) (by simp) (by simp) hl.symm hb
  refine ⟨_, n, ?_, f1, f2, ?_, ?_⟩
  · unfold vectorTo2DGrid
    rw [if_neg hne]
    simp only [hcs]
    rw [if_neg (by simp [hl])]
  · intro k hk hk' i j hij
    have := f4 (by
      apply List.Nodup.map_on _ hnd
      intro a ha b hb' h
      obtain ⟨a1, a2, rfl⟩ := hpair a ha
      obtain ⟨b1, b2, rfl⟩ := hpair b hb'
      simpa using h) k hk hk'
    rw [hij] at this
    have hh := hb _ (List.getElem_mem hk)
    rw [hij] at hh
    exact ⟨by simpa using hh.1, by simpa using hh.2, by simpa using this⟩
  · intro i j hij
    rw [f3 i j]
    · simp only [List.getD_eq_getElem?_getD, List.getElem?_replicate]
      split_ifs
      · simp only [Option.getD_some, List.getElem?_replicate]
        split_ifs <;> rfl
      · rfl
    · intro row hr h
      obtain ⟨a, b, rfl⟩ := hpair row hr
      simp only [List.getD_cons_zero, List.getD_cons_succ] at h
      exact hij (h.1 ▸ h.2 ▸ hr)

/-- Other lengths are rejected (one coefficient is broadcast). -/
theorem c36_rejects (coeffs : List ℝ) (index : List (List ℕ)) (h1 : coeffs.length ≠ 1)
    (hl : coeffs.length ≠ index.length) : vectorTo2DGrid coeffs index = .error .valueError := by
  unfold vectorTo2DGrid
  split_ifs with h
  · rfl
  · simp [hl]

example : ([[0, 0], [1, 0], [0, 2]] : List (List ℕ)).Nodup ∧
    ∀ row ∈ [[0, 0], [1, 0], [0, 2]], row.length = 2 := by simp

end EQ.Poly
