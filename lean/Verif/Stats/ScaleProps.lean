import Verif.Poly.EquivFit

/-!
# Statistics under a change of units of the output (C172)
-/

namespace EQ.Stats
open EQ.Param EQ.Basis EQ.Sampling EQ.Sampling.Spec EQ.Poly EQ.Poly.Spec

/-! ## Lemmas -/

theorem varSum_scaled (l : List ℝ) (x y a : ℝ) : varSum (y :: l.map (a * ·)) = a ^ 2 * varSum (x :: l) := by
  unfold varSum
  simp only [List.drop_succ_cons, List.drop_zero, List.map_map]
  rw [← List.sum_map_mul_left]
  congr 1
  apply List.map_congr_left
  intro t _
  simp only [Function.comp]
  ring

theorem sobolPass_scaled (r : List ℕ) (els : List (List ℕ)) (hr : nonzero r = []) (l : List ℝ) (x y a v : ℝ) (ha : a ≠ 0) (d : ℕ) (D : Dict) (order : ℕ)
    (ho : order ≠ 0) : sobolPass (r :: els) (y :: l.map (a * ·)) (a ^ 2 * v) d D order = sobolPass (r :: els) (x :: l) v d D order := by
  unfold sobolPass
  simp only [List.zip_cons_cons, List.foldl_cons, hr, List.length_nil]
  rw [if_neg (fun h => ho h.symm), if_neg (fun h => ho h.symm), List.zip_map_right, List.foldl_map]
  congr 1
  funext D rc
  simp only [Prod.map_fst, Prod.map_snd, id]
  rw [mul_pow, mul_div_mul_left _ _ (pow_ne_zero 2 ha)]

theorem nonzero_replicate (d : ℕ) : nonzero (List.replicate d 0) = [] := by
  unfold nonzero
  rw [List.filter_eq_nil_iff]
  intro k hk
  have hk : k < d := by simpa using hk
  rw [getD_of_lt _ _ _ (by simpa using hk), List.getElem_replicate]
  simp

theorem foldl_congr_mem {α β : Type} (f g : β → α → β) (l : List α) (h : ∀ x ∈ l, ∀ b, f b x = g b x) (b : β) : l.foldl f b = l.foldl g b := by
  induction l generalizing b with
  | nil => rfl
  | cons x l ih => rw [List.foldl_cons, List.foldl_cons, h x (by simp), ih fun y hy => h y (by simp [hy])]

theorem allSobol_scaled (r : List ℕ) (els : List (List ℕ)) (hr : nonzero r = []) (l : List ℝ) (x y a : ℝ) (ha : a ≠ 0) (hl : l ≠ []) (d : ℕ) (k : Option ℕ) :
    allSobol (y :: l.map (a * ·)) (r :: els) d k = allSobol (x :: l) (r :: els) d k := by
  have h1 : 2 ≤ (x :: l).length := by cases l with | nil => exact absurd rfl hl | cons => simp
  unfold allSobol
  rw [variance_ok (x :: l) h1, variance_ok (y :: l.map (a * ·)) (by simpa using h1), varSum_scaled l x y a]
  simp only
  split_ifs
  · rfl
  · congr 2
    apply foldl_congr_mem
    intro o ho D
    exact sobolPass_scaled r els hr l x y a _ ha d D o (by rw [List.mem_range'_1] at ho; omega)

theorem totalEvals_scaled (M : List (List ℝ)) (l : List ℝ) (x y a : ℝ) (m : ℕ) :
    totalEvals (weightedEvals M (y :: l.map (a * ·))) m = (totalEvals (weightedEvals M (x :: l)) m).map (a * ·) := by
  unfold totalEvals
  rw [List.map_map]
  apply List.map_congr_left
  intro j _
  simp only [Function.comp]
  cases M with
  | nil => simp [weightedEvals]
  | cons r M =>
    simp only [weightedEvals, List.zipWith_cons_cons, List.drop_succ_cons, List.drop_zero]
    rw [← List.sum_map_mul_left, List.zipWith_map_right, List.map_zipWith, List.map_zipWith]
    congr 1
    congr 1
    funext row t
    simp only [List.getD_eq_getElem?_getD, List.getElem?_map]
    cases row[j]? <;> simp [mul_assoc]

theorem dotW_scaled (l wts : List ℝ) (a : ℝ) (k : ℕ) : dotW ((l.map (a * ·)).map (· ^ k)) wts = a ^ k * dotW (l.map (· ^ k)) wts := by
  unfold dotW
  rw [List.zipWith_map_left, List.zipWith_map_left, List.zipWith_map_left]
  induction l generalizing wts with
  | nil => simp
  | cons x l ih =>
    cases wts with
    | nil => simp
    | cons w wts =>
      simp only [List.zipWith_cons_cons, List.sum_cons]
      rw [ih wts]
      ring

/-! ## Properties -/

/-- **C172.** Statistics follow a change of units of the output: if the outputs `y` are replaced by `a y + b` with `a ≠ 0`, the least-squares fit on a
sample that determines the polynomial has the mean `a m + b` and the variance `a² v`, the same Sobol' indices of every order, the same kurtosis, and the
skewness with the sign of `a`. -/
theorem c172_statistics (B : Expansion) (hB : Regular B) (hR : B.invR = none) (hz : B.elements.head? = some (List.replicate B.dims 0))
    (h2 : 2 ≤ B.elements.length) (pts : List (List ℝ)) (wts y : List ℝ) (hs : Sample B.dims pts wts y) (hdet : Determined B pts) (a b : ℝ) (ha : a ≠ 0)
    (c c' : List ℝ) (hc : LsqFit B pts wts y c) (hc' : LsqFit B pts wts (y.map fun t => a * t + b) c') :
    ∃ m v, mean c = .ok m ∧ mean c' = .ok (a * m + b) ∧ variance c = .ok v ∧ variance c' = .ok (a ^ 2 * v) ∧
      (∀ k, allSobol c' B.elements B.dims k = allSobol c B.elements B.dims k) ∧
      ∀ (M : List (List ℝ)) (ws : List ℝ), kurtosis ws (weightedEvals M c') (a ^ 2 * v) = kurtosis ws (weightedEvals M c) v ∧
        skewness ws (weightedEvals M c') (a ^ 2 * v) = (if 0 < a then 1 else -1) * skewness ws (weightedEvals M c) v := by
  have l := ((fitted_iff B hB hs c).1 hc).1
  have hs' : Sample B.dims pts wts (y.map fun t => a * t + b) := ⟨hs.size, hs.wlen, hs.pos, by simp [hs.ylen]⟩
  have l' := ((fitted_iff B hB hs' c').1 hc').1
  have hyy : y.map (fun t => a * t + b) = List.zipWith (fun s t => a * s + 0 * t + b) y y := by
    rw [List.zipWith_self]
    simp
  rw [hyy] at hc'
  have key := ((c169_linear B hB hR hz pts wts y y hs hs a 0 b c c c' hc hc hc').2 hdet).1
  obtain ⟨x, t, rfl⟩ : ∃ x t, c = x :: t := by
    cases c with
    | nil => simp at l; omega
    | cons x t => exact ⟨x, t, rfl⟩
  have hc'e : c' = (a * x + b) :: t.map (a * ·) := by
    apply List.ext_getElem
    · simp only [List.length_cons, List.length_map] at l ⊢; omega
    · intro s h1 h3
      have := key s h1
      rw [getD_of_lt _ _ _ h1, getD_of_lt _ _ _ (by omega)] at this
      rw [this]
      cases s with
      | zero => simp
      | succ s => simp
  subst hc'e
  have hl : 2 ≤ (x :: t).length := by omega
  have hv : varSum ((a * x + b) :: t.map (a * ·)) = a ^ 2 * varSum (x :: t) := varSum_scaled t x _ a
  refine ⟨x, varSum (x :: t), rfl, rfl, variance_ok _ hl, ?_, fun k => ?_, fun M ws => ⟨?_, ?_⟩⟩
  · rw [variance_ok _ (by simpa using hl), hv]
  · cases he : B.elements with
    | nil => rw [he] at h2; simp at h2
    | cons r els =>
      rw [he] at hz
      obtain rfl : r = List.replicate B.dims 0 := by simpa using hz
      exact allSobol_scaled _ els (nonzero_replicate _) t x _ a ha (by rintro rfl; simp at hl) _ k
  · unfold kurtosis
    rw [totalEvals_scaled M t x, dotW_scaled]
    rw [show (a ^ 2 * varSum (x :: t)) ^ 2 = a ^ 4 * varSum (x :: t) ^ 2 by ring, mul_div_mul_left _ _ (pow_ne_zero 4 ha)]
  · unfold skewness
    rw [totalEvals_scaled M t x, dotW_scaled, Real.mul_rpow (sq_nonneg a) (varSum_nonneg _)]
    have e : (a ^ 2) ^ (1.5 : ℝ) = |a| ^ 3 := by
      rw [← sq_abs, ← Real.rpow_natCast, ← Real.rpow_mul (abs_nonneg a), ← Real.rpow_natCast]
      norm_num
    rw [e, mul_div_mul_comm]
    congr 1
    split_ifs with h
    · rw [abs_of_pos h, div_self (pow_ne_zero 3 ha)]
    · have : a < 0 := lt_of_le_of_ne (not_lt.1 h) ha
      rw [abs_of_neg this, show (-a) ^ 3 = -(a ^ 3) by ring, div_neg, div_self (pow_ne_zero 3 ha)]

/-- The tensor grid determines the polynomials of every index set within its orders. -/
theorem grid_determined (B : Expansion) (hB : Regular B) (hR : B.invR = none) (hne : B.params ≠ []) (hP : ∀ P ∈ B.params, Valid P) (orders : List ℕ)
    (ho : orders.length = B.dims) (hbox : ∀ row ∈ B.elements, List.Forall₂ (· ≤ ·) row orders) (hnd : B.elements.Nodup) :
    ∃ pts wts, tensorGrid (localRules B.params orders) = .ok (pts, wts) ∧ wts.length = pts.length ∧ (∀ w ∈ wts, 0 < w) ∧
      (∀ x ∈ pts, x.length = B.dims) ∧ Determined B pts := by
  obtain ⟨pts, wts, h1, -, h3, h4, h5, -⟩ := grid_fit B hB hR hne hP orders ho hbox hnd
  refine ⟨pts, wts, h1, h3, h4, h5, fun z hz h0 => ?_⟩
  have key : ∀ z : List ℝ, z.length = B.elements.length → (∀ x ∈ pts, expansion B.params B.elements z x = 0) →
      B.integrate pts wts (pts.map fun _ => 0) = .ok z := by
    intro z hz h
    obtain ⟨pts', wts', h1', hint, -⟩ := c30_exact_recovery B hB hR hne hP orders ho hbox hnd z hz
    rw [h1] at h1'
    obtain ⟨rfl, rfl⟩ := Prod.mk.inj (Except.ok.inj h1')
    rwa [List.map_congr_left h] at hint
  have e1 := key z hz (by
    rw [polyfit_eq B hB z hz pts h5, eff_none B hR] at h0
    exact List.map_inj_left.1 (Except.ok.inj h0))
  have e2 := key (List.replicate B.elements.length 0) (by simp) (by
    intro x _
    rw [sum_expansion _ _ _ (by simp)]
    apply Finset.sum_eq_zero
    intro s hs
    rw [getD_of_lt _ _ _ (by simpa using hs)]
    simp)
  exact Except.ok.inj (e1.symm.trans e2)

/-- A sample that determines the polynomials of an index set with two rows: two points of one uniform input. -/
example : ∃ B : Expansion, Regular B ∧ B.invR = none ∧ B.elements.head? = some (List.replicate B.dims 0) ∧ 2 ≤ B.elements.length ∧
    ∃ pts wts, Sample B.dims pts wts (pts.map fun _ => 1) ∧ Determined B pts := by
  obtain ⟨P, hP⟩ : ∃ P : MParam, Valid P := ⟨_, exists_uniform.choose_spec.valid⟩
  have hB : Regular (Expansion.mk [P] [[0], [1]] none) := ⟨by simp, by simp [Expansion.dims], fun _ => ⟨1, rfl⟩, by simp [SquareOpt]⟩
  obtain ⟨pts, wts, -, h3, h4, h5, h6⟩ := grid_determined _ hB rfl (by simp) (by simpa using hP) [1] rfl (by simp) (by simp)
  exact ⟨_, hB, rfl, rfl, le_rfl, pts, wts, ⟨h5, h3, h4, by simp⟩, h6⟩

end EQ.Stats
