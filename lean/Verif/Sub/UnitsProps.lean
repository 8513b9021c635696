import Verif.Sub.RidgeDemo

/-!
# Active subspaces and units (C190)
-/

namespace EQ.Sub
open EQ.Basis EQ.Param EQ.Sampling EQ.Poly Matrix MvPolynomial
variable {K k m n : ℕ}

/-! ## Specification -/

/-- The projection on the span of the first `n` columns. -/
def Spec.projector (W : Matrix (Fin m) (Fin m) ℝ) (n : ℕ) : Matrix (Fin m) (Fin m) ℝ :=
  Matrix.of fun i j => ∑ c : Fin m, if c.val < n then W i c * W j c else 0

/-- The inputs in other units. -/
def Spec.otherUnits (X : Matrix (Fin K) (Fin m) ℝ) (s t : Fin m → ℝ) : Matrix (Fin K) (Fin m) ℝ :=
  Matrix.of fun i j => s j * X i j + t j

/-! ## Eigenvalues and eigenspaces are determined by the matrix -/

theorem spectrum_unique {C V V' : Matrix (Fin m) (Fin m) ℝ} {l l' : Fin m → ℝ} (hV : Vᵀ * V = 1) (hC : C * V = V * diagonal l)
    (hl : Antitone l) (hV' : V'ᵀ * V' = 1) (hC' : C * V' = V' * diagonal l') (hl' : Antitone l') : l = l' := by
  have key : ∀ {V V' : Matrix (Fin m) (Fin m) ℝ} {l l' : Fin m → ℝ}, Vᵀ * V = 1 → C * V = V * diagonal l → Antitone l → V'ᵀ * V' = 1 →
      C * V' = V' * diagonal l' → ∀ (j : ℕ) (hj : j ≤ m), ∑ c : Fin j, l' (Fin.castLE hj c) ≤ ∑ c : Fin j, l (Fin.castLE hj c) := by
    intro V V' l l' hV hC hl hV' hC' j hj
    have hU : (Matrix.of fun i (c : Fin j) => V' i (Fin.castLE hj c))ᵀ * (Matrix.of fun i (c : Fin j) => V' i (Fin.castLE hj c)) = 1 := by
      ext a b
      have h := congrFun (congrFun hV' (Fin.castLE hj a)) (Fin.castLE hj b)
      rw [Matrix.mul_apply] at h ⊢
      refine Eq.trans h ?_
      rw [Matrix.one_apply, Matrix.one_apply]
      by_cases hab : a = b
      · rw [if_pos hab, if_pos (by rw [hab])]
      · rw [if_neg hab, if_neg fun h => hab (Fin.castLE_injective hj h)]
    have h := ky_fan hV hC hl hj _ hU
    refine le_trans (le_of_eq (Finset.sum_congr rfl fun c _ => ?_)) h
    exact (quad_eigen hV' hC' _).symm
  have heq : ∀ (j : ℕ) (hj : j ≤ m), ∑ c : Fin j, l' (Fin.castLE hj c) = ∑ c : Fin j, l (Fin.castLE hj c) := fun j hj =>
    le_antisymm (key hV hC hl hV' hC' j hj) (key hV' hC' hl' hV hC j hj)
  ext j
  have h1 := heq (j + 1) j.2
  rw [Fin.sum_univ_castSucc, Fin.sum_univ_castSucc] at h1
  have h0 := heq j j.2.le
  have e : ∀ l : Fin m → ℝ, ∑ c : Fin j.val, l (Fin.castLE (Nat.succ_le_of_lt j.2) c.castSucc) = ∑ c : Fin j.val, l (Fin.castLE j.2.le c) := fun l => rfl
  have e2 : Fin.castLE (Nat.succ_le_of_lt j.2) (Fin.last j.val) = j := Fin.ext (by simp)
  have h1' : ∑ c : Fin j.val, l' (Fin.castLE j.2.le c) + l' j = ∑ c : Fin j.val, l (Fin.castLE j.2.le c) + l j := by
    have e3 : ∀ l : Fin m → ℝ, l (Fin.castLE (Nat.succ_le_of_lt j.2) (Fin.last j.val)) = l j := fun l => by rw [e2]
    rw [← e l', ← e l, ← e3 l', ← e3 l]
    exact h1
  linarith

/-- Eigenvectors of a symmetric matrix for different eigenvalues are orthogonal. -/
theorem eig_orth {C V V' : Matrix (Fin m) (Fin m) ℝ} {l l' : Fin m → ℝ} (hs : Cᵀ = C) (hC : C * V = V * diagonal l)
    (hC' : C * V' = V' * diagonal l') (a b : Fin m) (h : l a ≠ l' b) : (Vᵀ * V') a b = 0 := by
  have h1 : Vᵀ * (C * V') = (C * V)ᵀ * V' := by rw [Matrix.transpose_mul, hs, Matrix.mul_assoc]
  rw [hC, hC', Matrix.transpose_mul, Matrix.diagonal_transpose, ← Matrix.mul_assoc, Matrix.mul_assoc (diagonal l)] at h1
  have h2 := congrFun (congrFun h1 a) b
  rw [Matrix.mul_diagonal, Matrix.diagonal_mul] at h2
  have : (l a - l' b) * (Vᵀ * V') a b = 0 := by linarith
  exact (mul_eq_zero.1 this).resolve_left (sub_ne_zero.2 h)

theorem projector_eq (W : Matrix (Fin m) (Fin m) ℝ) (n : ℕ) :
    Spec.projector W n = W * diagonal (fun c : Fin m => if c.val < n then (1 : ℝ) else 0) * Wᵀ := by
  ext i j
  rw [Matrix.mul_apply]
  show ∑ c : Fin m, (if c.val < n then W i c * W j c else 0) = _
  refine Finset.sum_congr rfl fun c _ => ?_
  rw [Matrix.mul_diagonal, Matrix.transpose_apply]
  split_ifs <;> simp

/-- With a gap after the first `n` eigenvalues, their eigenvectors span a space that is determined by the matrix. -/
theorem projector_unique {C V V' : Matrix (Fin m) (Fin m) ℝ} {l : Fin m → ℝ} (hs : Cᵀ = C) (hV : Vᵀ * V = 1) (hC : C * V = V * diagonal l)
    (hV' : V'ᵀ * V' = 1) (hC' : C * V' = V' * diagonal l) (n : ℕ) (hgap : ∀ i j : Fin m, i.val < n → n ≤ j.val → l j < l i) :
    Spec.projector V n = Spec.projector V' n := by
  rw [projector_eq, projector_eq]
  set D : Matrix (Fin m) (Fin m) ℝ := diagonal (fun c : Fin m => if c.val < n then (1 : ℝ) else 0) with hD
  have hcomm : (Vᵀ * V') * D = D * (Vᵀ * V') := by
    ext a b
    rw [hD, Matrix.mul_diagonal, Matrix.diagonal_mul]
    by_cases ha : a.val < n
    · by_cases hb : b.val < n
      · rw [if_pos ha, if_pos hb, mul_comm]
      · rw [eig_orth hs hC hC' a b (hgap a b ha (not_lt.1 hb)).ne']; simp
    · by_cases hb : b.val < n
      · rw [eig_orth hs hC hC' a b (hgap b a hb (not_lt.1 ha)).ne]; simp
      · rw [if_neg ha, if_neg hb, mul_comm]
  have hVr : V * Vᵀ = 1 := mul_eq_one_comm.1 hV
  have hVr' : V' * V'ᵀ = 1 := mul_eq_one_comm.1 hV'
  calc V * D * Vᵀ = V * D * Vᵀ * (V' * V'ᵀ) := by rw [hVr', Matrix.mul_one]
    _ = V * (D * (Vᵀ * V')) * V'ᵀ := by simp only [Matrix.mul_assoc]
    _ = V * ((Vᵀ * V') * D) * V'ᵀ := by rw [hcomm]
    _ = (V * Vᵀ) * V' * D * V'ᵀ := by simp only [Matrix.mul_assoc]
    _ = V' * D * V'ᵀ := by rw [hVr, Matrix.one_mul]

/-! ## The fit -/

/-- The fit minimises a weighted sum of squares over all polynomials of the degree of the basis; the weights
are those of the points. -/
theorem fitSamples_min {lstsq : List (List ℝ) → List ℝ → ℕ → List ℝ} (hl : LstsqOK lstsq) (P : Fin n → MParam)
    (hP : ∀ i k, 1 ≤ k → 0 < ((P i).ab k).2) (hn : 0 < n) (p : ℕ) (Y : Matrix (Fin K) (Fin n) ℝ) (hK : 0 < K) :
    ∃ w : Fin K → ℝ, (∀ i, 0 < w i) ∧
      (∀ i : Fin K, w i = (sampleWeights (multiPoly (orderBasis P p).params (orderBasis P p).elements (orderBasis P p).dims (rowList Y)) (rowList Y).length).getD i 0) ∧
      ∀ ys : Fin K → ℝ, ∃ c, fitSamples lstsq (orderBasis P p) (rowList Y) (List.ofFn ys) = .ok ⟨orderBasis P p, c⟩ ∧ c.length = (fitElements n p).length ∧
        ∀ q : MvPolynomial (Fin n) ℝ, q.totalDegree ≤ p →
          ∑ i, w i * (eval (Y i) (comb P p c) - ys i) ^ 2 ≤ ∑ i, w i * (eval (Y i) q - ys i) ^ 2 := by
  obtain ⟨hw, hpos⟩ := weights_pos P hn p Y hK
  obtain ⟨M, hM, hMl, hdot⟩ := getPoly_dot _ (orderBasis_regular P hn p) (rowList Y) (by simp [rowList, orderBasis, Expansion.dims])
  unfold fitSamples
  simp only [hM]
  generalize sampleWeights _ _ = w at hw hpos
  refine ⟨fun i => w.getD i 0, fun i => ?_, fun i => rfl, fun ys => ?_⟩
  · beta_reduce
    rw [getD_of_lt _ _ _ (by rw [hw]; simp [rowList])]
    exact hpos _ (List.getElem_mem _)
  have hcon := hl (designMatrix M w) (rhs w (List.ofFn ys)) M.length
  generalize lstsq _ _ _ = c at hcon
  have hcl : c.length = (fitElements n p).length := by rw [hcon.1, hMl]; rfl
  refine ⟨c, rfl, hcl, fun q hq => ?_⟩
  have hy : (List.ofFn ys).length = (rowList Y).length := by simp [rowList]
  have he : ∀ z, (orderBasis P p).eff z = z := fun z => by
    unfold Expansion.eff
    split_ifs <;> rfl
  have hmis : ∀ z : List ℝ, z.length = (fitElements n p).length →
      sqResidual (designMatrix M w) (rhs w (List.ofFn ys)) z = ∑ i : Fin K, w.getD i 0 * (eval (Y i) (comb P p z) - ys i) ^ 2 := by
    intro z hz
    rw [sqResidual_eq M (rowList Y) w _ hw (fun w h => (hpos w h).le) hy z (by rw [hz, hMl]; rfl) _ (hdot z hz), EQ.Poly.Spec.misfit, he,
      show (rowList Y).length = K by simp [rowList], Finset.sum_range]
    refine Finset.sum_congr rfl fun i _ => ?_
    have e1 : (rowList Y).getD i [] = List.ofFn (Y i) := by
      rw [List.getD_eq_getElem?_getD, List.getElem?_eq_getElem (by simp [rowList])]
      simp [rowList]
    rw [e1, ofFn_getD, show (orderBasis P p).params = List.ofFn P from rfl, show (orderBasis P p).elements = fitElements n p from rfl,
      expansion_comb P hn p z hz]
  obtain ⟨c0, hc0⟩ := phis_span P hP hn p q hq
  have hc1 : comb P p (List.ofFn c0) = q := by
    rw [hc0, comb]
    exact Finset.sum_congr rfl fun r _ => by rw [ofFn_getD]
  have hle := hcon.2 (List.ofFn c0) (by rw [List.length_ofFn, hMl]; rfl)
  rw [hmis c hcl, hmis _ (by simp), hc1] at hle
  exact hle

theorem fitSamples_opt {lstsq : List (List ℝ) → List ℝ → ℕ → List ℝ} (hl : LstsqOK lstsq) (P : Fin n → MParam)
    (hP : ∀ i k, 1 ≤ k → 0 < ((P i).ab k).2) (hn : 0 < n) (p : ℕ) (Y : Matrix (Fin K) (Fin n) ℝ) (hK : 0 < K) :
    ∃ w : Fin K → ℝ, (∀ i, 0 < w i) ∧ ∀ ys : Fin K → ℝ,
      ∃ c, fitSamples lstsq (orderBasis P p) (rowList Y) (List.ofFn ys) = .ok ⟨orderBasis P p, c⟩ ∧ c.length = (fitElements n p).length ∧
        ∀ q : MvPolynomial (Fin n) ℝ, q.totalDegree ≤ p →
          ∑ i, w i * (eval (Y i) (comb P p c) - ys i) ^ 2 ≤ ∑ i, w i * (eval (Y i) q - ys i) ^ 2 := by
  obtain ⟨w, h1, -, h2⟩ := fitSamples_min hl P hP hn p Y hK
  exact ⟨w, h1, h2⟩

/-- The minimiser follows the units of the outputs. -/
theorem minimiser_affine {p : ℕ} {Y : Matrix (Fin K) (Fin n) ℝ} (hD : Det p Y) {w : Fin K → ℝ} (hw : ∀ i, 0 < w i) {ys : Fin K → ℝ} {a b : ℝ} (ha : a ≠ 0)
    {g g' : MvPolynomial (Fin n) ℝ} (hg : g.totalDegree ≤ p) (hg' : g'.totalDegree ≤ p)
    (h : ∀ q : MvPolynomial (Fin n) ℝ, q.totalDegree ≤ p → ∑ i, w i * (eval (Y i) g - ys i) ^ 2 ≤ ∑ i, w i * (eval (Y i) q - ys i) ^ 2)
    (h' : ∀ q : MvPolynomial (Fin n) ℝ, q.totalDegree ≤ p →
      ∑ i, w i * (eval (Y i) g' - (a * ys i + b)) ^ 2 ≤ ∑ i, w i * (eval (Y i) q - (a * ys i + b)) ^ 2) :
    g' = C a * g + C b := by
  have hdeg : ∀ (u v : ℝ) (q r : MvPolynomial (Fin n) ℝ), q.totalDegree ≤ p → r.totalDegree ≤ p → (C u * q + C v * r).totalDegree ≤ p := by
    intro u v q r hq hr
    refine (totalDegree_add _ _).trans (max_le ?_ ?_)
    · exact (totalDegree_mul _ _).trans (by rw [totalDegree_C, zero_add]; exact hq)
    · exact (totalDegree_mul _ _).trans (by rw [totalDegree_C, zero_add]; exact hr)
  have h1deg : (1 : MvPolynomial (Fin n) ℝ).totalDegree ≤ p := by rw [totalDegree_one]; exact Nat.zero_le _
  set q := C a⁻¹ * g' + C (-(a⁻¹ * b)) * 1 with hq
  have hqd : q.totalDegree ≤ p := hdeg _ _ _ _ hg' h1deg
  have hmid : (C (1 / 2) * g + C (1 / 2) * q).totalDegree ≤ p := hdeg _ _ _ _ hg hqd
  have hag : (C a * g + C b * 1).totalDegree ≤ p := hdeg _ _ _ _ hg h1deg
  have e1 : ∀ i, eval (Y i) q - ys i = a⁻¹ * (eval (Y i) g' - (a * ys i + b)) := by
    intro i
    rw [hq]
    simp only [map_add, map_mul, eval_C, map_one]
    field_simp
    ring
  have h2 : ∑ i, w i * (eval (Y i) q - ys i) ^ 2 ≤ ∑ i, w i * (eval (Y i) g - ys i) ^ 2 := by
    have e2 : ∑ i, w i * (eval (Y i) q - ys i) ^ 2 = (a⁻¹) ^ 2 * ∑ i, w i * (eval (Y i) g' - (a * ys i + b)) ^ 2 := by
      rw [Finset.mul_sum]
      exact Finset.sum_congr rfl fun i _ => by rw [e1]; ring
    have e3 : ∑ i, w i * (eval (Y i) g - ys i) ^ 2 = (a⁻¹) ^ 2 * ∑ i, w i * (eval (Y i) (C a * g + C b * 1) - (a * ys i + b)) ^ 2 := by
      rw [Finset.mul_sum]
      refine Finset.sum_congr rfl fun i _ => ?_
      simp only [map_add, map_mul, eval_C, map_one]
      field_simp
      ring
    rw [e2, e3]
    exact mul_le_mul_of_nonneg_left (h' _ hag) (sq_nonneg _)
  have h3 := h _ hmid
  have e4 : ∑ i, w i * (eval (Y i) (C (1 / 2) * g + C (1 / 2) * q) - ys i) ^ 2 = (1 / 2) * ∑ i, w i * (eval (Y i) g - ys i) ^ 2 +
      (1 / 2) * ∑ i, w i * (eval (Y i) q - ys i) ^ 2 - (1 / 4) * ∑ i, w i * (eval (Y i) g - eval (Y i) q) ^ 2 := by
    rw [Finset.mul_sum, Finset.mul_sum, Finset.mul_sum, ← Finset.sum_add_distrib, ← Finset.sum_sub_distrib]
    refine Finset.sum_congr rfl fun i _ => ?_
    simp only [map_add, map_mul, eval_C]
    ring
  have h5 : ∑ i, w i * (eval (Y i) g - eval (Y i) q) ^ 2 ≤ 0 := by linarith
  have h0 := le_antisymm h5 (Finset.sum_nonneg fun i _ => mul_nonneg (hw i).le (sq_nonneg _))
  rw [Finset.sum_eq_zero_iff_of_nonneg fun i _ => mul_nonneg (hw i).le (sq_nonneg _)] at h0
  have h6 := hD (g - q) ((totalDegree_sub _ _).trans (max_le hg hqd)) fun i => by
    have := h0 i (Finset.mem_univ i)
    rw [mul_eq_zero, or_iff_right (hw i).ne', pow_eq_zero_iff two_ne_zero] at this
    rw [map_sub, this]
  rw [sub_eq_zero.1 h6, hq]
  have : C a * C a⁻¹ = (1 : MvPolynomial (Fin n) ℝ) := by rw [← C_mul, mul_inv_cancel₀ ha, C_1]
  rw [mul_add, ← mul_assoc, this, one_mul, mul_one, ← C_mul]
  have e7 : a * -(a⁻¹ * b) = -b := by field_simp
  rw [e7, C_neg]
  ring

theorem standardise_units (X : Matrix (Fin (k + 1)) (Fin m) ℝ) (s t : Fin m → ℝ) (hs : ∀ j, 0 < s j) :
    (Data.standardise .float (Spec.otherUnits X s t) : Matrix (Fin (k + 1)) (Fin m) ℝ) = Data.standardise .float X := by
  have hmono : ∀ j, Monotone fun x : ℝ => s j * x + t j := fun j a b h => by have := mul_le_mul_of_nonneg_left h (hs j).le; simpa using this
  ext i j
  have e1 : Data.colMin (Spec.otherUnits X s t) j = s j * Data.colMin X j + t j := by
    unfold Data.colMin
    refine le_antisymm ?_ (Finset.le_inf' _ _ fun i _ => hmono j (Finset.inf'_le _ (Finset.mem_univ i)))
    obtain ⟨i, -, hi⟩ := Finset.exists_mem_eq_inf' Finset.univ_nonempty fun i => X i j
    rw [hi]
    exact Finset.inf'_le (fun i => Spec.otherUnits X s t i j) (Finset.mem_univ i)
  have e2 : Data.colMax (Spec.otherUnits X s t) j = s j * Data.colMax X j + t j := by
    unfold Data.colMax
    refine le_antisymm (Finset.sup'_le _ _ fun i _ => hmono j (Finset.le_sup' (fun i => X i j) (Finset.mem_univ i))) ?_
    obtain ⟨i, -, hi⟩ := Finset.exists_mem_eq_sup' Finset.univ_nonempty fun i => X i j
    rw [hi]
    exact Finset.le_sup' (fun i => Spec.otherUnits X s t i j) (Finset.mem_univ i)
  show 2 * ((Spec.otherUnits X s t i j - Data.colMin (Spec.otherUnits X s t) j) / (Data.colMax (Spec.otherUnits X s t) j - Data.colMin (Spec.otherUnits X s t) j)) - 1 =
    2 * ((X i j - Data.colMin X j) / (Data.colMax X j - Data.colMin X j)) - 1
  rw [e1, e2, show Spec.otherUnits X s t i j = s j * X i j + t j from rfl, show s j * X i j + t j - (s j * Data.colMin X j + t j) = s j * (X i j - Data.colMin X j) by ring,
    show s j * Data.colMax X j + t j - (s j * Data.colMin X j + t j) = s j * (Data.colMax X j - Data.colMin X j) by ring, mul_div_mul_left _ _ (hs j).ne']

theorem cov_scale (a : ℝ) (g : Matrix (Fin m) (Fin K) ℝ) : gradientCovariance (a • g) = (a ^ 2) • gradientCovariance g := by
  ext u v
  simp only [gradientCovariance, Matrix.mul_apply, Matrix.smul_apply, Matrix.of_apply, Matrix.transpose_apply, smul_eq_mul, Finset.mul_sum]
  exact Finset.sum_congr rfl fun i _ => by ring

/-- The gradients of a polynomial at points. -/
noncomputable def gradsAt (f : MvPolynomial (Fin m) ℝ) (S : Matrix (Fin K) (Fin m) ℝ) : Matrix (Fin m) (Fin K) ℝ :=
  Matrix.of fun v i => eval (S i) (pderiv v f)

theorem active_comb (E : External m) (P : Fin m → MParam) (hm : 0 < m) (p : ℕ) (c : List ℝ) (hc : c.length = (fitElements m p).length)
    (S : Matrix (Fin (k + 1)) (Fin m) ℝ) (ys : Fin (k + 1) → ℝ) :
    activeOfPoly E ⟨orderBasis P p, c⟩ S ys =
      .ok ⟨Data.standardise .float S, ys,
        (activeSubspace (E.eigh (gradientCovariance (gradsAt (comb P p c) S))).1 (E.eigh (gradientCovariance (gradsAt (comb P p c) S))).2
          (E.argsort (E.eigh (gradientCovariance (gradsAt (comb P p c) S))).1)).1,
        (activeSubspace (E.eigh (gradientCovariance (gradsAt (comb P p c) S))).1 (E.eigh (gradientCovariance (gradsAt (comb P p c) S))).2
          (E.argsort (E.eigh (gradientCovariance (gradsAt (comb P p c) S))).1)).2⟩ := by
  unfold activeOfPoly
  rw [polygrad_comb _ hm p c hc]
  rfl

/-- **C190.** Active subspaces of samples whose inputs are given in other units (`x_j → s_j x_j + t_j` with `s_j > 0`) and whose outputs are given in other
units (`y → a y + b` with `a ≠ 0`): the scaled points are the same, the eigenvalues are multiplied by `a²`, and every active subspace that is separated
from the rest by a gap of the eigenvalues is the same. -/
theorem c190_units {E : External m} (hE : ExternalOK E) (hm : 0 < m) (X : Matrix (Fin (k + 1)) (Fin m) ℝ) (ys : Fin (k + 1) → ℝ) {p : ℕ} (hp : 1 ≤ p)
    (hD : Det p X) (s t : Fin m → ℝ) (hs : ∀ j, 0 < s j) (a b : ℝ) (ha : a ≠ 0) :
    ∃ r r', activeOfSamples E p X ys = .ok r ∧ activeOfSamples E p (Spec.otherUnits X s t) (fun i => a * ys i + b) = .ok r' ∧
      r'.points = r.points ∧ (∀ j, r'.eigenvalues j = a ^ 2 * r.eigenvalues j) ∧
      ∀ n, (∀ i j : Fin m, i.val < n → n ≤ j.val → r.eigenvalues j < r.eigenvalues i) → Spec.projector r'.W n = Spec.projector r.W n := by
  have hDS := det_scale (fun j => det_spread hp hD j) hD
  unfold activeOfSamples
  simp only
  rw [standardise_units X s t hs, orderBasis_replicate]
  generalize (Data.standardise .float X : Matrix (Fin (k + 1)) (Fin m) ℝ) = S at hDS
  have hP : ∀ (i : Fin m) j, 1 ≤ j → 0 < (((fun _ : Fin m => uniformParam (-1) 1) i).ab j).2 := fun _ j hj => uniform_pos (by norm_num) j hj
  obtain ⟨w, hw, hfit⟩ := fitSamples_opt hE.lstsq (fun _ : Fin m => uniformParam (-1) 1) hP hm p S (Nat.succ_pos k)
  obtain ⟨c, h1, h2, h3⟩ := hfit ys
  obtain ⟨c', h1', h2', h3'⟩ := hfit fun i => a * ys i + b
  have hg := minimiser_affine hDS hw ha (comb_deg _ hP hm p c) (comb_deg _ hP hm p c') h3 h3'
  rw [h1, h1']
  simp only
  have e1 := active_comb E (fun _ : Fin m => uniformParam (-1) 1) hm p c h2 S ys
  have e2 := active_comb E (fun _ : Fin m => uniformParam (-1) 1) hm p c' h2' S fun i => a * ys i + b
  have hgrad : gradsAt (C a * comb (fun _ : Fin m => uniformParam (-1) 1) p c + C b) S =
      a • gradsAt (comb (fun _ : Fin m => uniformParam (-1) 1) p c) S := by
    ext v i
    show eval (S i) (pderiv v _) = a * eval (S i) (pderiv v _)
    rw [map_add, pderiv_C_mul, pderiv_C, add_zero, eval_mul, eval_C]
  rw [hg, hgrad] at e2
  generalize gradsAt (comb (fun _ : Fin m => uniformParam (-1) 1) p c) S = g at e1 e2
  have hsym := cov_symm g
  have hsym' := cov_symm (a • g)
  have he := hE.eigh _ hsym
  have he' := hE.eigh _ hsym'
  have hi := hE.argsort (E.eigh (gradientCovariance g)).1
  have hi' := hE.argsort (E.eigh (gradientCovariance (a • g))).1
  have A := c96_active (Nat.succ_pos k) g _ _ _ he hi
  have A' := c96_active (Nat.succ_pos k) (a • g) _ _ _ he' hi'
  have B := perm_eigen he.2.1 fun j : Fin m => E.argsort (E.eigh (gradientCovariance g)).1 j.rev
  have B' := perm_eigen he'.2.1 fun j : Fin m => E.argsort (E.eigh (gradientCovariance (a • g))).1 j.rev
  have B2 : gradientCovariance (a • g) * (activeSubspace (E.eigh (gradientCovariance g)).1 (E.eigh (gradientCovariance g)).2
      (E.argsort (E.eigh (gradientCovariance g)).1)).2 = (activeSubspace (E.eigh (gradientCovariance g)).1 (E.eigh (gradientCovariance g)).2
      (E.argsort (E.eigh (gradientCovariance g)).1)).2 * diagonal (fun j => a ^ 2 * (activeSubspace (E.eigh (gradientCovariance g)).1 (E.eigh (gradientCovariance g)).2
      (E.argsort (E.eigh (gradientCovariance g)).1)).1 j) := by
    rw [cov_scale, Matrix.smul_mul]
    refine Eq.trans (congrArg (fun M => a ^ 2 • M) B) ?_
    ext u v
    rw [Matrix.smul_apply, Matrix.mul_diagonal, Matrix.mul_diagonal, smul_eq_mul]
    show a ^ 2 * (_ * _) = _ * (a ^ 2 * _)
    ring_nf
    rfl
  have hpos : 0 < a ^ 2 := by positivity
  have hanti : Antitone (fun j => a ^ 2 * (activeSubspace (E.eigh (gradientCovariance g)).1 (E.eigh (gradientCovariance g)).2
      (E.argsort (E.eigh (gradientCovariance g)).1)).1 j) := fun i j h => mul_le_mul_of_nonneg_left (A.2.1 h) hpos.le
  have heig := spectrum_unique A.1 B2 hanti A'.1 B' A'.2.1
  refine ⟨_, _, e1, e2, rfl, fun j => (congrFun heig j).symm, fun n hgap => ?_⟩
  refine (projector_unique hsym' A.1 B2 A'.1 (Eq.trans B' ?_) n fun i j h1 h2 => mul_lt_mul_of_pos_left (hgap i j h1 h2) hpos).symm
  rw [heig]
  rfl

/-- Not vacuous: three corners of the unit square determine linear functions; inputs in other units and outputs `2 y - 1`. -/
example : ∃ r r', activeOfSamples (someExternal 2) 1 dX (fun i => dX i 0) = .ok r ∧
    activeOfSamples (someExternal 2) 1 (Spec.otherUnits dX ![2, 3] ![1, -1]) (fun i => 2 * dX i 0 + -1) = .ok r' ∧
    ∀ j, r'.eigenvalues j = 2 ^ 2 * r.eigenvalues j := by
  obtain ⟨r, r', h1, h2, -, h3, -⟩ := c190_units (someExternal_ok 2) two_pos dX (fun i => dX i 0) le_rfl
    (fun q hq h => zero_three q hq (h 0) (h 1) (h 2)) ![2, 3] ![1, -1] (by intro j; fin_cases j <;> simp) 2 (-1) two_ne_zero
  exact ⟨r, r', h1, h2, h3⟩

end EQ.Sub
