import Verif.Stats.Props

/-!
# Numerical integration of arbitrary models on tensor grids: C166
-/

namespace EQ.Stats
open EQ.Param EQ.Basis EQ.Sampling EQ.Sampling.Spec EQ.Poly EQ.Poly.Spec

/-! ## Lemmas -/

/-- The tensor grid with everything needed below. -/
theorem grid_facts (params : List MParam) (hne : params ≠ []) (hP : ∀ P ∈ params, Valid P) (orders : List ℕ) (ho : orders.length = params.length) :
    ∃ pts wts, tensorGrid (localRules params orders) = .ok (pts, wts) ∧ pts.length = (orders.map (· + 1)).prod ∧ wts.length = pts.length ∧
      (∀ w ∈ wts, 0 < w) ∧ (∀ x ∈ pts, x.length = params.length) ∧
      ∀ n m, List.Forall₂ (· ≤ ·) n orders → List.Forall₂ (· ≤ ·) m orders →
        ∑ j ∈ Finset.range pts.length, wts.getD j 0 * (basisFun params n (pts.getD j []) * basisFun params m (pts.getD j [])) = if n = m then 1 else 0 := by
  obtain ⟨pts, wts, h1, h2, h3, _, _, h6, h7⟩ := c21_parameters params hne hP orders ho
  refine ⟨pts, wts, h1, h2, h3, h6, h7, fun n m hn hm => ?_⟩
  have hl := localRules_len_eq params orders
  have hne' : localRules params orders ≠ [] := by
    intro h
    have := localRules_length params orders ho
    rw [h] at this
    exact hne (List.length_eq_zero_iff.1 this.symm)
  have h5 := tensorGrid_eq _ hne' hl
  rw [h1] at h5
  simp only [Except.ok.injEq, Prod.mk.injEq] at h5
  rw [← grid_orth params hP orders ho n m hn hm]
  set I := ixs ((localRules params orders).map fun r => r.pts.length)
  have hpl : pts.length = I.length := by rw [h5.1, List.length_map]
  conv_rhs => rw [map_eq_range I [], range_map_sum]
  rw [hpl]
  apply Finset.sum_congr rfl
  intro j hj
  rw [Finset.mem_range] at hj
  rw [h5.1, h5.2, getD_map_lt _ _ _ _ hj, getD_map_lt _ _ _ _ hj, getD_of_lt _ _ _ hj]

/-- Distances to the span of orthonormal functions. -/
theorem pythagoras (m n : ℕ) (w y : ℕ → ℝ) (φ : ℕ → ℕ → ℝ)
    (horth : ∀ r < n, ∀ s < n, ∑ j ∈ Finset.range m, w j * (φ r j * φ s j) = if r = s then 1 else 0) (c z : ℕ → ℝ)
    (hc : ∀ r < n, c r = ∑ j ∈ Finset.range m, w j * (φ r j * y j)) :
    ∑ j ∈ Finset.range m, w j * (∑ r ∈ Finset.range n, z r * φ r j - y j) ^ 2 =
      ∑ j ∈ Finset.range m, w j * y j ^ 2 - ∑ r ∈ Finset.range n, c r ^ 2 + ∑ r ∈ Finset.range n, (z r - c r) ^ 2 := by
  have e1 : ∑ j ∈ Finset.range m, w j * (∑ r ∈ Finset.range n, z r * φ r j) ^ 2 = ∑ r ∈ Finset.range n, z r ^ 2 := by
    have : ∀ j ∈ Finset.range m, w j * (∑ r ∈ Finset.range n, z r * φ r j) ^ 2 =
        ∑ r ∈ Finset.range n, ∑ s ∈ Finset.range n, z r * z s * (w j * (φ r j * φ s j)) := by
      intro j _
      rw [sq, Finset.sum_mul_sum, Finset.mul_sum]
      apply Finset.sum_congr rfl
      intro r _
      rw [Finset.mul_sum]
      apply Finset.sum_congr rfl
      intro s _
      ring
    rw [Finset.sum_congr rfl this, Finset.sum_comm]
    apply Finset.sum_congr rfl
    intro r hr
    rw [Finset.sum_comm]
    have : ∀ s ∈ Finset.range n, ∑ j ∈ Finset.range m, z r * z s * (w j * (φ r j * φ s j)) = if r = s then z r * z s else 0 := by
      intro s hs
      rw [← Finset.mul_sum, horth r (Finset.mem_range.1 hr) s (Finset.mem_range.1 hs)]
      split_ifs <;> simp
    rw [Finset.sum_congr rfl this, Finset.sum_ite_eq, if_pos hr, sq]
  have e2 : ∑ j ∈ Finset.range m, w j * ((∑ r ∈ Finset.range n, z r * φ r j) * y j) = ∑ r ∈ Finset.range n, z r * c r := by
    have : ∀ j ∈ Finset.range m, w j * ((∑ r ∈ Finset.range n, z r * φ r j) * y j) = ∑ r ∈ Finset.range n, z r * (w j * (φ r j * y j)) := by
      intro j _
      rw [Finset.sum_mul, Finset.mul_sum]
      apply Finset.sum_congr rfl
      intro r _
      ring
    rw [Finset.sum_congr rfl this, Finset.sum_comm]
    apply Finset.sum_congr rfl
    intro r hr
    rw [← Finset.mul_sum, hc r (Finset.mem_range.1 hr)]
  have e3 : ∀ j ∈ Finset.range m, w j * (∑ r ∈ Finset.range n, z r * φ r j - y j) ^ 2 =
      w j * (∑ r ∈ Finset.range n, z r * φ r j) ^ 2 - 2 * (w j * ((∑ r ∈ Finset.range n, z r * φ r j) * y j)) + w j * y j ^ 2 := by
    intro j _
    ring
  rw [Finset.sum_congr rfl e3, Finset.sum_add_distrib, Finset.sum_sub_distrib, ← Finset.mul_sum, e1, e2]
  have e4 : ∑ r ∈ Finset.range n, (z r - c r) ^ 2 = ∑ r ∈ Finset.range n, z r ^ 2 - 2 * ∑ r ∈ Finset.range n, z r * c r + ∑ r ∈ Finset.range n, c r ^ 2 := by
    rw [Finset.mul_sum, ← Finset.sum_sub_distrib, ← Finset.sum_add_distrib]
    apply Finset.sum_congr rfl
    intro r _
    ring
  rw [e4]
  ring

/-- As many orthonormal functions as points reproduce every vector of values. -/
theorem complete (m : ℕ) (w y : ℕ → ℝ) (hw : ∀ j < m, 0 < w j) (φ : ℕ → ℕ → ℝ)
    (horth : ∀ r < m, ∀ s < m, ∑ j ∈ Finset.range m, w j * (φ r j * φ s j) = if r = s then 1 else 0) (k : ℕ) (hk : k < m) :
    ∑ r ∈ Finset.range m, (∑ j ∈ Finset.range m, w j * (φ r j * y j)) * φ r k = y k := by
  let A : Matrix (Fin m) (Fin m) ℝ := Matrix.of fun r j => √(w j) * φ r j
  have h1 : A * A.transpose = 1 := by
    ext r s
    rw [Matrix.mul_apply, Matrix.one_apply]
    have := horth r r.2 s s.2
    rw [← Fin.sum_univ_eq_sum_range (fun j => w j * (φ r j * φ s j)) m] at this
    rw [show (if r = s then (1:ℝ) else 0) = if (r : ℕ) = s then 1 else 0 by simp only [Fin.ext_iff], ← this]
    apply Finset.sum_congr rfl
    intro j _
    simp only [A, Matrix.transpose_apply, Matrix.of_apply]
    have := Real.mul_self_sqrt (hw j j.2).le
    linear_combination (φ r j * φ s j) * this
  have h2 : A.transpose * A = 1 := mul_eq_one_comm.1 h1
  have h3 : ∀ j < m, ∑ r ∈ Finset.range m, √(w j) * φ r j * (√(w k) * φ r k) = if j = k then 1 else 0 := by
    intro j hj
    have := congrFun (congrFun h2 ⟨j, hj⟩) ⟨k, hk⟩
    rw [Matrix.mul_apply, Matrix.one_apply] at this
    rw [← Fin.sum_univ_eq_sum_range (fun r => √(w j) * φ r j * (√(w k) * φ r k)) m]
    simpa [A, Fin.ext_iff] using this
  have hs : √(w k) ≠ 0 := (Real.sqrt_pos.2 (hw k hk)).ne'
  have h4 : √(w k) * ∑ r ∈ Finset.range m, (∑ j ∈ Finset.range m, w j * (φ r j * y j)) * φ r k = √(w k) * y k := by
    have : ∀ r ∈ Finset.range m, √(w k) * ((∑ j ∈ Finset.range m, w j * (φ r j * y j)) * φ r k) =
        ∑ j ∈ Finset.range m, √(w j) * y j * (√(w j) * φ r j * (√(w k) * φ r k)) := by
      intro r _
      rw [Finset.sum_mul, Finset.mul_sum]
      apply Finset.sum_congr rfl
      intro j hj
      have := Real.mul_self_sqrt (hw j (Finset.mem_range.1 hj)).le
      linear_combination (-(√(w k) * φ r j * y j * φ r k)) * this
    rw [Finset.mul_sum, Finset.sum_congr rfl this, Finset.sum_comm]
    have : ∀ j ∈ Finset.range m, ∑ r ∈ Finset.range m, √(w j) * y j * (√(w j) * φ r j * (√(w k) * φ r k)) = if j = k then √(w j) * y j else 0 := by
      intro j hj
      rw [← Finset.mul_sum, h3 j (Finset.mem_range.1 hj)]
      split_ifs <;> simp
    rw [Finset.sum_congr rfl this, Finset.sum_ite_eq', if_pos (Finset.mem_range.2 hk)]
  exact mul_left_cancel₀ hs h4

theorem varSum_range (c : List ℝ) (n : ℕ) (hn : c.length = n + 1) : varSum c = ∑ r ∈ Finset.range n, c.getD (r + 1) 0 ^ 2 := by
  cases c with
  | nil => simp at hn
  | cons a l =>
    simp only [List.length_cons, add_left_inj] at hn
    unfold varSum
    simp only [List.drop_succ_cons, List.drop_zero, List.getD_cons_succ]
    rw [map_eq_range l 0, range_map_sum, hn]

/-- The coefficients on the grid and the weighted sums they stand for. -/
theorem grid_fit (B : Expansion) (hB : Regular B) (hR : B.invR = none) (hne : B.params ≠ []) (hP : ∀ P ∈ B.params, Valid P) (orders : List ℕ)
    (ho : orders.length = B.dims) (hbox : ∀ row ∈ B.elements, List.Forall₂ (· ≤ ·) row orders) (hnd : B.elements.Nodup) :
    ∃ pts wts, tensorGrid (localRules B.params orders) = .ok (pts, wts) ∧ pts.length = (orders.map (· + 1)).prod ∧ wts.length = pts.length ∧
      (∀ w ∈ wts, 0 < w) ∧ (∀ x ∈ pts, x.length = B.dims) ∧
      (∀ r < B.elements.length, ∀ s < B.elements.length, ∑ j ∈ Finset.range pts.length, wts.getD j 0 *
        (basisFun B.params (B.elements.getD r []) (pts.getD j []) * basisFun B.params (B.elements.getD s []) (pts.getD j [])) = if r = s then 1 else 0) ∧
      ∀ ys : List ℝ, ys.length = pts.length → ∃ c, B.integrate pts wts ys = .ok c ∧ c.length = B.elements.length ∧
        ∀ r < B.elements.length, c.getD r 0 = ∑ j ∈ Finset.range pts.length, wts.getD j 0 * (basisFun B.params (B.elements.getD r []) (pts.getD j []) * ys.getD j 0) := by
  obtain ⟨pts, wts, h1, h2, h3, h4, h5, h6⟩ := grid_facts B.params hne hP orders ho
  refine ⟨pts, wts, h1, h2, h3, h4, h5, fun r hr s hs => ?_, fun ys hy => ⟨_, integrate_plain B hB (.inr hR) pts h5 wts ys h3 (fun w h => (h4 w h).le) hy, by simp, fun r hr => ?_⟩⟩
  · have e1 := getD_of_lt B.elements [] r hr
    have e2 := getD_of_lt B.elements [] s hs
    rw [e1, e2, h6 _ _ (hbox _ (List.getElem_mem hr)) (hbox _ (List.getElem_mem hs))]
    by_cases h : r = s
    · subst h; simp
    · rw [if_neg h, if_neg fun h' => h (hnd.getElem_inj_iff.1 h')]
  · rw [getD_map_lt _ _ _ _ hr, getD_of_lt _ _ _ hr]

theorem eff_none (B : Expansion) (hR : B.invR = none) (c : List ℝ) : B.eff c = c := by
  unfold Expansion.eff
  rw [hR]
  simp [effCoeffs]

/-! ## Properties -/

/-- **C166.** Numerical integration on the tensor grid of the orders, with any index set of different rows inside the orders and any outputs: the
polynomial returned is the one of the smallest weighted squared error on the grid, and no other coefficients have that error. -/
theorem c166_projection (B : Expansion) (hB : Regular B) (hR : B.invR = none) (hne : B.params ≠ []) (hP : ∀ P ∈ B.params, Valid P) (orders : List ℕ)
    (ho : orders.length = B.dims) (hbox : ∀ row ∈ B.elements, List.Forall₂ (· ≤ ·) row orders) (hnd : B.elements.Nodup) :
    ∃ pts wts, tensorGrid (localRules B.params orders) = .ok (pts, wts) ∧
      ∀ ys : List ℝ, ys.length = pts.length → ∃ c f, B.integrate pts wts ys = .ok c ∧
        (∀ x, x.length = B.dims → B.polyfit c [x] = .ok [f x]) ∧
        ∀ z g, z.length = c.length → (∀ x, x.length = B.dims → B.polyfit z [x] = .ok [g x]) →
          misfit pts wts ys f ≤ misfit pts wts ys g ∧ (misfit pts wts ys g ≤ misfit pts wts ys f → z = c) := by
  obtain ⟨pts, wts, h1, -, h3, h4, h5, horth, hfit⟩ := grid_fit B hB hR hne hP orders ho hbox hnd
  refine ⟨pts, wts, h1, fun ys hy => ?_⟩
  obtain ⟨c, hc, hcl, hcr⟩ := hfit ys hy
  have hpf : ∀ z : List ℝ, z.length = B.elements.length → ∀ x, x.length = B.dims → B.polyfit z [x] = .ok [expansion B.params B.elements z x] := by
    intro z hz x hx
    rw [polyfit_eq B hB z hz [x] (by simpa using hx), eff_none B hR]
    rfl
  have hm : ∀ z g, z.length = B.elements.length → (∀ x, x.length = B.dims → B.polyfit z [x] = .ok [g x]) →
      misfit pts wts ys g = ∑ j ∈ Finset.range pts.length, wts.getD j 0 * ys.getD j 0 ^ 2 - ∑ r ∈ Finset.range B.elements.length, c.getD r 0 ^ 2 +
        ∑ r ∈ Finset.range B.elements.length, (z.getD r 0 - c.getD r 0) ^ 2 := by
    intro z g hz hg
    rw [← pythagoras pts.length B.elements.length (fun j => wts.getD j 0) (fun j => ys.getD j 0)
      (fun r j => basisFun B.params (B.elements.getD r []) (pts.getD j [])) horth (fun r => c.getD r 0) (fun r => z.getD r 0) hcr]
    unfold misfit
    apply Finset.sum_congr rfl
    intro j hj
    have hx : (pts.getD j []).length = B.dims := by
      rw [getD_of_lt _ _ _ (Finset.mem_range.1 hj)]; exact h5 _ (List.getElem_mem _)
    have := hg _ hx
    rw [hpf z hz _ hx] at this
    simp only [Except.ok.injEq, List.cons.injEq, and_true] at this
    rw [← this, sum_expansion _ _ _ hz]
  refine ⟨c, expansion B.params B.elements c, hc, hpf c hcl, fun z g hz hg => ?_⟩
  rw [hm z g (hz.trans hcl) hg, hm c _ hcl (hpf c hcl)]
  have e0 : ∑ r ∈ Finset.range B.elements.length, (c.getD r 0 - c.getD r 0) ^ 2 = 0 := by simp
  have hnn : 0 ≤ ∑ r ∈ Finset.range B.elements.length, (z.getD r 0 - c.getD r 0) ^ 2 := Finset.sum_nonneg fun _ _ => sq_nonneg _
  rw [e0]
  refine ⟨by linarith, fun hle => ?_⟩
  have h0 : ∑ r ∈ Finset.range B.elements.length, (z.getD r 0 - c.getD r 0) ^ 2 = 0 := by linarith
  rw [Finset.sum_eq_zero_iff_of_nonneg fun _ _ => sq_nonneg _] at h0
  apply List.ext_getElem hz
  intro r hr1 hr2
  have := h0 r (Finset.mem_range.2 (by omega))
  rw [getD_of_lt _ _ _ hr1, getD_of_lt _ _ _ hr2] at this
  have := pow_eq_zero_iff (two_ne_zero) |>.1 this
  linarith

/-- **C166.** With the tensor-grid index set the polynomial takes the values of the model at every point of the grid, whatever these values are. -/
theorem c166_interpolation (B : Expansion) (hB : Regular B) (hR : B.invR = none) (hne : B.params ≠ []) (hP : ∀ P ∈ B.params, Valid P) (orders : List ℕ)
    (ho : orders.length = B.dims) (hbasis : tensorGridBasis orders = .ok B.elements) :
    ∃ pts wts, tensorGrid (localRules B.params orders) = .ok (pts, wts) ∧
      ∀ ys : List ℝ, ys.length = pts.length → ∃ c, B.integrate pts wts ys = .ok c ∧ B.polyfit c pts = .ok ys := by
  have hone : orders ≠ [] := by
    intro h
    rw [h] at ho
    exact hne (List.length_eq_zero_iff.1 ho.symm)
  obtain ⟨L, hL, hmem, hnd, hlen, -, -⟩ := c02_tensor_grid orders hone
  rw [hbasis] at hL
  obtain rfl : B.elements = L := Except.ok.inj hL
  obtain ⟨pts, wts, h1, h2, h3, h4, h5, horth, hfit⟩ := grid_fit B hB hR hne hP orders ho (fun row h => (hmem row).1 h) hnd
  refine ⟨pts, wts, h1, fun ys hy => ?_⟩
  obtain ⟨c, hc, hcl, hcr⟩ := hfit ys hy
  refine ⟨c, hc, ?_⟩
  rw [polyfit_eq B hB c hcl pts h5, eff_none B hR]
  congr 1
  apply List.ext_getElem (by simp [hy])
  intro k hk1 hk2
  have hk : k < pts.length := by simpa using hk1
  have hcard : B.elements.length = pts.length := by rw [hlen, h2]
  rw [List.getElem_map, sum_expansion _ _ _ hcl, hcard]
  have := complete pts.length (fun j => wts.getD j 0) (fun j => ys.getD j 0) (fun j hj => by
      rw [getD_of_lt _ _ _ (by omega)]; exact h4 _ (List.getElem_mem _))
    (fun r j => basisFun B.params (B.elements.getD r []) (pts.getD j [])) (by rw [hcard] at horth; exact horth) k hk
  rw [getD_of_lt ys 0 k hk2, getD_of_lt pts [] k hk] at this
  rw [← this]
  apply Finset.sum_congr rfl
  intro r hr
  rw [hcr r (by rw [hcard]; exact Finset.mem_range.1 hr)]

/-- **C166.** The mean reported for any model is the weighted mean of its values on the grid, and the variance reported is their weighted variance less the
weighted squared error of the polynomial. -/
theorem c166_moments (B : Expansion) (hB : Regular B) (hR : B.invR = none) (hne : B.params ≠ []) (hP : ∀ P ∈ B.params, Valid P) (orders : List ℕ)
    (ho : orders.length = B.dims) (hbox : ∀ row ∈ B.elements, List.Forall₂ (· ≤ ·) row orders) (hnd : B.elements.Nodup)
    (hz : B.elements.head? = some (List.replicate B.dims 0)) (h2 : 2 ≤ B.elements.length) :
    ∃ pts wts, tensorGrid (localRules B.params orders) = .ok (pts, wts) ∧
      ∀ ys : List ℝ, ys.length = pts.length → ∃ c f m v, B.integrate pts wts ys = .ok c ∧ (∀ x, x.length = B.dims → B.polyfit c [x] = .ok [f x]) ∧
        mean c = .ok m ∧ variance c = .ok v ∧ m = ∑ j ∈ Finset.range pts.length, wts.getD j 0 * ys.getD j 0 ∧
        v = ∑ j ∈ Finset.range pts.length, wts.getD j 0 * (ys.getD j 0 - m) ^ 2 - misfit pts wts ys f := by
  obtain ⟨pts, wts, h1, -, h3, h4, h5, horth, hfit⟩ := grid_fit B hB hR hne hP orders ho hbox hnd
  refine ⟨pts, wts, h1, fun ys hy => ?_⟩
  obtain ⟨c, hc, hcl, hcr⟩ := hfit ys hy
  have h0 : ∀ j < pts.length, basisFun B.params (B.elements.getD 0 []) (pts.getD j []) = 1 := by
    intro j hj
    rw [getD_zero_of_head hz, getD_of_lt _ _ _ hj]
    exact basisFun_zero B.params _ (h5 _ (List.getElem_mem _))
  have hm0 : c.getD 0 0 = ∑ j ∈ Finset.range pts.length, wts.getD j 0 * ys.getD j 0 := by
    rw [hcr 0 (by omega)]
    apply Finset.sum_congr rfl
    intro j hj
    rw [h0 j (Finset.mem_range.1 hj), one_mul]
  obtain ⟨n, hn⟩ : ∃ n, B.elements.length = n + 1 := ⟨B.elements.length - 1, by omega⟩
  refine ⟨c, expansion B.params B.elements c, c.getD 0 0, varSum c, hc, fun x hx => ?_, ?_, variance_ok c (by omega), hm0, ?_⟩
  · rw [polyfit_eq B hB c hcl [x] (by simpa using hx), eff_none B hR]
    rfl
  · cases c with
    | nil => simp at hcl; omega
    | cons a l => rfl
  · have p1 := pythagoras pts.length B.elements.length (fun j => wts.getD j 0) (fun j => ys.getD j 0)
      (fun r j => basisFun B.params (B.elements.getD r []) (pts.getD j [])) horth (fun r => c.getD r 0) (fun r => c.getD r 0) hcr
    have p2 := pythagoras pts.length B.elements.length (fun j => wts.getD j 0) (fun j => ys.getD j 0)
      (fun r j => basisFun B.params (B.elements.getD r []) (pts.getD j [])) horth (fun r => c.getD r 0) (fun r => if r = 0 then c.getD 0 0 else 0) hcr
    simp only [sub_self, ne_eq, OfNat.ofNat_ne_zero, not_false_eq_true, zero_pow, Finset.sum_const_zero, add_zero] at p1
    have e1 : misfit pts wts ys (expansion B.params B.elements c) = ∑ j ∈ Finset.range pts.length, wts.getD j 0 * ys.getD j 0 ^ 2 -
        ∑ r ∈ Finset.range B.elements.length, c.getD r 0 ^ 2 := by
      rw [← p1]
      unfold misfit
      apply Finset.sum_congr rfl
      intro j _
      rw [sum_expansion _ _ _ hcl]
    have e2 : ∑ j ∈ Finset.range pts.length, wts.getD j 0 * (ys.getD j 0 - c.getD 0 0) ^ 2 = ∑ j ∈ Finset.range pts.length, wts.getD j 0 * ys.getD j 0 ^ 2 -
        ∑ r ∈ Finset.range B.elements.length, c.getD r 0 ^ 2 + varSum c := by
      rw [varSum_range c n (by omega)]
      have e3 : ∑ r ∈ Finset.range B.elements.length, ((if r = 0 then c.getD 0 0 else 0) - c.getD r 0) ^ 2 = ∑ r ∈ Finset.range n, c.getD (r + 1) 0 ^ 2 := by
        rw [hn, Finset.sum_range_succ']
        simp
      rw [← e3, ← p2]
      apply Finset.sum_congr rfl
      intro j hj
      have e4 : ∑ r ∈ Finset.range B.elements.length, (if r = 0 then c.getD 0 0 else 0) * basisFun B.params (B.elements.getD r []) (pts.getD j []) = c.getD 0 0 := by
        rw [Finset.sum_eq_single 0 (fun r _ hr => by rw [if_neg hr, zero_mul]) (fun h => absurd (Finset.mem_range.2 (by omega)) h), if_pos rfl,
          h0 j (Finset.mem_range.1 hj), mul_one]
      rw [e4]
      ring
    rw [e2, e1]
    ring

/-- Two uniform inputs, linear in each: the hypotheses of the interpolation theorem. -/
example : ∃ P : MParam, Valid P ∧ Regular (Expansion.mk [P, P] [[0, 0], [0, 1], [1, 0], [1, 1]] none) ∧
    tensorGridBasis [1, 1] = .ok [[0, 0], [0, 1], [1, 0], [1, 1]] := by
  refine ⟨_, exists_uniform.choose_spec.valid, ⟨by simp, by simp [Expansion.dims], by simp [Expansion.dims], ?_⟩, rfl⟩
  simp [SquareOpt]

end EQ.Stats
