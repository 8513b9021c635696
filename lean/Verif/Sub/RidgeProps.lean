import Verif.Sub.RidgeLemmas
import Verif.Sub.ActiveProps
import Verif.Data.Props
import Mathlib.Analysis.Calculus.Deriv.Mul
import Mathlib.Analysis.Calculus.Deriv.Add
import Mathlib.Analysis.Calculus.MeanValue
import Mathlib.LinearAlgebra.FiniteDimensional.Lemmas

/-!
# C142: polynomial ridge functions are recovered
-/

namespace EQ.Sub
open EQ.Basis EQ.Param EQ.Sampling EQ.Poly Matrix MvPolynomial
variable {K k m n : ℕ}

/-! ## Specification -/

/-- `f` is a function of `n` linear combinations of its arguments. -/
def Spec.Ridge (f : MvPolynomial (Fin m) ℝ) (n : ℕ) : Prop :=
  ∃ (A : Matrix (Fin m) (Fin n) ℝ) (h : (Fin n → ℝ) → ℝ), ∀ x, eval x f = h (x ᵥ* A)

/-- A point in the coordinates in which the samples `X` fill `[-1, 1]`. -/
noncomputable def Spec.scalePoint (X : Matrix (Fin (k + 1)) (Fin m) ℝ) (x : Fin m → ℝ) : Fin m → ℝ := fun j =>
  let lo := Finset.univ.inf' Finset.univ_nonempty fun i => X i j
  let hi := Finset.univ.sup' Finset.univ_nonempty fun i => X i j
  2 * ((x j - lo) / (hi - lo)) - 1

/-- The contracts of the numpy routines. -/
structure ExternalOK (E : External m) : Prop where
  lstsq : LstsqOK E.lstsq
  eigh : ∀ C : Matrix (Fin m) (Fin m) ℝ, Cᵀ = C → EighOK C (E.eigh C).1 (E.eigh C).2
  argsort : ∀ e, ArgsortOK e (E.argsort e)

/-! ## Derivatives of polynomials -/

/-- The derivative in direction `w`. -/
noncomputable def along (w : Fin m → ℝ) (g : MvPolynomial (Fin m) ℝ) : MvPolynomial (Fin m) ℝ := ∑ v, C (w v) * pderiv v g

theorem pderiv_totalDegree (v : Fin m) (g : MvPolynomial (Fin m) ℝ) : (pderiv v g).totalDegree ≤ g.totalDegree := by
  conv_lhs => rw [g.as_sum, map_sum]
  refine totalDegree_finsetSum_le fun s hs => ?_
  rw [pderiv_monomial]
  refine (totalDegree_monomial_le _ _).trans (le_trans ?_ (le_totalDegree hs))
  rw [Finsupp.sum_fintype _ _ fun i => rfl, Finsupp.sum_fintype _ _ fun i => rfl]
  exact Finset.sum_le_sum fun k _ => by simp

theorem along_totalDegree (w : Fin m → ℝ) (g : MvPolynomial (Fin m) ℝ) : (along w g).totalDegree ≤ g.totalDegree := by
  refine totalDegree_finsetSum_le fun v _ => (totalDegree_mul _ _).trans ?_
  rw [totalDegree_C, zero_add]
  exact pderiv_totalDegree v g

theorem hasDeriv_along (w x : Fin m → ℝ) (g : MvPolynomial (Fin m) ℝ) (t : ℝ) :
    HasDerivAt (fun t : ℝ => eval (x + t • w) g) (eval (x + t • w) (along w g)) t := by
  induction g using MvPolynomial.induction_on with
  | C a => simpa [along] using hasDerivAt_const t a
  | add a b ha hb =>
    have e : along w (a + b) = along w a + along w b := by
      simp only [along, map_add, mul_add, Finset.sum_add_distrib]
    rw [e, map_add]
    simpa using ha.fun_add hb
  | mul_X a k ha =>
    have h1 : HasDerivAt (fun t : ℝ => x k + t * w k) (w k) t := by
      simpa using ((hasDerivAt_id t).mul_const (w k)).const_add (x k)
    have h2 := ha.fun_mul h1
    have e : along w (a * X k) = along w a * X k + a * C (w k) := by
      simp only [along, pderiv_mul, pderiv_X, mul_add, Finset.sum_add_distrib, Finset.sum_mul]
      congr 1
      · exact Finset.sum_congr rfl fun v _ => by ring
      · rw [Finset.sum_eq_single k]
        · simp; ring
        · intro v _ hv
          rw [Pi.single_eq_of_ne (by exact fun h => hv h.symm)]
          simp
        · simp
    rw [e, map_add, map_mul, map_mul, eval_X, eval_C]
    simpa using h2

/-- Polynomials do not change along directions in which the derivative vanishes. -/
theorem along_invariant (w : Fin m → ℝ) (g : MvPolynomial (Fin m) ℝ) (h : along w g = 0) (x : Fin m → ℝ) (t : ℝ) :
    eval (x + t • w) g = eval x g := by
  have := is_const_of_deriv_eq_zero (f := fun t : ℝ => eval (x + t • w) g) (fun t => (hasDeriv_along w x g t).differentiableAt)
    (fun t => by rw [(hasDeriv_along w x g t).deriv, h, map_zero]) t 0
  simpa using this

theorem along_of_invariant (w : Fin m → ℝ) (g : MvPolynomial (Fin m) ℝ) (h : ∀ x (t : ℝ), eval (x + t • w) g = eval x g) : along w g = 0 := by
  refine MvPolynomial.funext fun x => ?_
  have h1 := hasDeriv_along w x g 0
  have h2 : HasDerivAt (fun t : ℝ => eval (x + t • w) g) 0 0 := by
    rw [show (fun t : ℝ => eval (x + t • w) g) = fun _ => eval x g from _root_.funext fun t => h x t]
    exact hasDerivAt_const _ _
  have := h1.unique h2
  simpa using this

/-! ## The subspace -/

theorem eval_along (w x : Fin m → ℝ) (g : MvPolynomial (Fin m) ℝ) : eval x (along w g) = ∑ v, w v * eval x (pderiv v g) := by
  simp [along]

theorem cov_symm (g : Matrix (Fin m) (Fin K) ℝ) : (gradientCovariance g)ᵀ = gradientCovariance g := by
  ext a b
  simp only [gradientCovariance, transpose_apply, mul_apply, of_apply]
  exact Finset.sum_congr rfl fun i _ => by ring

theorem cov_mulVec (g : Matrix (Fin m) (Fin K) ℝ) (v : Fin m → ℝ) (a : Fin m) :
    (gradientCovariance g *ᵥ v) a = ∑ i, g a i * (1 / K) * ∑ b, v b * g b i := by
  simp only [mulVec, dotProduct, gradientCovariance, mul_apply, of_apply, transpose_apply, Finset.sum_mul, Finset.mul_sum]
  rw [Finset.sum_comm]
  exact Finset.sum_congr rfl fun i _ => Finset.sum_congr rfl fun b _ => by ring

/-- More directions than `n` are linearly dependent on `n` functionals. -/
theorem exists_kernel {a b : ℕ} (M : Matrix (Fin a) (Fin b) ℝ) (h : a < b) : ∃ c : Fin b → ℝ, c ≠ 0 ∧ M *ᵥ c = 0 := by
  have := LinearMap.ker_ne_bot_of_finrank_lt (f := M.mulVecLin) (by simpa using h)
  obtain ⟨c, hc, hne⟩ := Submodule.exists_mem_ne_zero_of_ne_bot this
  exact ⟨c, hne, by simpa using hc⟩

/-- The eigenvalues beyond the number of directions a function depends on vanish. -/
theorem eig_zero {C W : Matrix (Fin m) (Fin m) ℝ} {e : Fin m → ℝ} (hW : Wᵀ * W = 1) (hC : C * W = W * diagonal e) (ha : Antitone e)
    (h0 : ∀ k, 0 ≤ e k) (A : Matrix (Fin m) (Fin n) ℝ) (hA : ∀ v, v ᵥ* A = 0 → C *ᵥ v = 0) (k : Fin m) (hk : n ≤ k) : e k = 0 := by
  by_contra hne
  have hpos : 0 < e k := lt_of_le_of_ne (h0 k) (Ne.symm hne)
  let i : Fin (k + 1) → Fin m := Fin.castLE k.2
  let W' : Matrix (Fin m) (Fin (k + 1)) ℝ := W.submatrix id i
  obtain ⟨c, hc, hz⟩ := exists_kernel (Aᵀ * W') (by omega)
  have h1 : (W' *ᵥ c) ᵥ* A = 0 := by
    rw [← mulVec_transpose, mulVec_mulVec, hz]
  have h2 := hA _ h1
  have h3 : C * W' = W' * diagonal fun j => e (i j) := by
    ext a b
    have := congrFun (congrFun hC a) (i b)
    rw [mul_diagonal] at this ⊢
    exact this
  have h4 : W'ᵀ * W' = 1 := by
    ext a b
    have := congrFun (congrFun hW (i a)) (i b)
    rw [Matrix.one_apply] at this ⊢
    have hi : i a = i b ↔ a = b := (Fin.castLE_injective k.2).eq_iff
    rw [← if_congr hi rfl rfl]
    exact this
  rw [mulVec_mulVec, h3, ← mulVec_mulVec] at h2
  have h5 := congrArg (W'ᵀ *ᵥ ·) h2
  simp only [mulVec_mulVec, mulVec_zero, ← Matrix.mul_assoc, h4, Matrix.one_mul] at h5
  apply hc
  ext j
  have h6 := congrFun h5 j
  rw [mulVec_diagonal] at h6
  have h7 : 0 < e (i j) := hpos.trans_le (ha (by
    rw [Fin.le_def]
    have := j.2
    simp only [i, Fin.val_castLE]
    omega))
  simpa [h7.ne'] using h6

/-- `L` picks the projections. -/
noncomputable def linTo (B : Matrix (Fin m) (Fin n) ℝ) (k : Fin n) : MvPolynomial (Fin m) ℝ := ∑ j, C (B j k) * X j

theorem linTo_degree (B : Matrix (Fin m) (Fin n) ℝ) (k : Fin n) : (linTo B k).totalDegree ≤ 1 := by
  refine totalDegree_finsetSum_le fun j _ => (totalDegree_mul _ _).trans ?_
  rw [totalDegree_C, totalDegree_X]

theorem eval_linTo (B : Matrix (Fin m) (Fin n) ℝ) (y : Fin m → ℝ) : (fun k => eval y (linTo B k)) = y ᵥ* B := by
  ext k
  simp [linTo, vecMul, dotProduct, mul_comm]

/-- Projections on orthonormal directions determine polynomials if the samples do. -/
theorem det_proj {p : ℕ} {S : Matrix (Fin K) (Fin m) ℝ} (h : Det p S) (U : Matrix (Fin m) (Fin n) ℝ) (hU : Uᵀ * U = 1) : Det p (S * U) := by
  intro q hq h0
  have h1 := h (bind₁ (linTo U) q) ((bind_degree _ (linTo_degree U) q).trans hq) fun i => by
    rw [eval_bind, eval_linTo]
    exact h0 i
  refine MvPolynomial.funext fun y => ?_
  have h2 := congrArg (eval (U *ᵥ y)) h1
  rw [eval_bind, eval_linTo, ← mulVec_transpose, mulVec_mulVec, hU, one_mulVec] at h2
  rw [h2, map_zero, map_zero]

/-- The heart of C142: a polynomial ridge function is a polynomial of the projections on the active directions. -/
theorem ridge_core {p : ℕ} {S : Matrix (Fin K) (Fin m) ℝ} (hK : 0 < K) (hD : Det p S) (g : MvPolynomial (Fin m) ℝ) (hg : g.totalDegree ≤ p)
    (hn : n ≤ m) (hr : Spec.Ridge g n) (e : Fin m → ℝ) (V : Matrix (Fin m) (Fin m) ℝ) (idx : Fin m → Fin m)
    (he : EighOK (gradientCovariance fun v (i : Fin K) => eval (S i) (pderiv v g)) e V) (hi : ArgsortOK e idx) :
    (∀ k : Fin m, n ≤ k → (activeSubspace e V idx).1 k = 0) ∧
    ∃ q : MvPolynomial (Fin n) ℝ, q.totalDegree ≤ p ∧
      ∀ x, eval x g = eval (x ᵥ* (activeSubspace e V idx).2.submatrix id (Fin.castLE hn)) q := by
  obtain ⟨h1, h2, h3, h4, h5, -⟩ := c96_active hK _ e V idx he hi
  have hC : gradientCovariance (fun v (i : Fin K) => eval (S i) (pderiv v g)) * (activeSubspace e V idx).2 =
      (activeSubspace e V idx).2 * diagonal (activeSubspace e V idx).1 := perm_eigen he.2.1 fun k : Fin m => idx k.rev
  generalize (activeSubspace e V idx).1 = eigs at *
  generalize (activeSubspace e V idx).2 = W at *
  obtain ⟨A, hf, hA⟩ := hr
  have hker : ∀ v : Fin m → ℝ, v ᵥ* A = 0 → along v g = 0 := fun v hv => along_of_invariant v g fun x t => by
    rw [hA, hA, add_vecMul, smul_vecMul, hv, smul_zero, add_zero]
  have hz : ∀ k : Fin m, n ≤ k → eigs k = 0 := fun k hk => eig_zero h1 hC h2 h4 A (fun v hv => by
    ext a
    refine (cov_mulVec _ v a).trans ?_
    rw [Pi.zero_apply]
    refine Finset.sum_eq_zero fun i _ => ?_
    have := congrArg (eval (S i)) (hker v hv)
    rw [eval_along, map_zero] at this
    rw [this, mul_zero]) k hk
  refine ⟨hz, bind₁ (fun j => linTo (W.submatrix id (Fin.castLE hn))ᵀ j) g, (bind_degree _ (linTo_degree _) _).trans hg, fun x => ?_⟩
  rw [eval_bind, eval_linTo]
  have hal : ∀ k : Fin m, n ≤ k → along (fun i => W i k) g = 0 := fun k hk =>
    hD _ ((along_totalDegree _ _).trans hg) fun i => by
      rw [eval_along]
      exact h5 k (hz k hk) i
  have hsum : ∀ (s : Finset (Fin m)) (y : Fin m → ℝ) (t : Fin m → ℝ), (∀ k ∈ s, n ≤ k.val) →
      eval (y + ∑ k ∈ s, t k • fun i => W i k) g = eval y g := by
    intro s y t hs
    induction s using Finset.induction_on with
    | empty => simp
    | insert a s ha ih =>
      rw [Finset.sum_insert ha, add_comm (t a • _), ← add_assoc, along_invariant _ g (hal a (hs a (by simp)))]
      exact ih fun k hk => hs k (by simp [hk])
  have hx : x = (x ᵥ* W.submatrix id (Fin.castLE hn)) ᵥ* (W.submatrix id (Fin.castLE hn))ᵀ +
      ∑ k ∈ Finset.univ.filter (fun k : Fin m => n ≤ k.val), (x ᵥ* W) k • fun i => W i k := by
    have h6 : W * Wᵀ = 1 := mul_eq_one_comm.1 h1
    have h7 : x = (x ᵥ* W) ᵥ* Wᵀ := by rw [vecMul_vecMul, h6, vecMul_one]
    ext j
    conv_lhs => rw [h7]
    simp only [vecMul, dotProduct, transpose_apply, Pi.add_apply, Finset.sum_apply, Pi.smul_apply, smul_eq_mul, submatrix_apply, id]
    rw [← Finset.sum_filter_add_sum_filter_not Finset.univ (fun k : Fin m => n ≤ k.val), add_comm]
    congr 1
    symm
    refine Finset.sum_bij (fun (i : Fin n) _ => Fin.castLE hn i) ?_ ?_ ?_ ?_
    · intro a _
      simp
    · intro a _ b _ hab
      exact Fin.castLE_injective hn hab
    · intro b hb
      have hb := (Finset.mem_filter.1 hb).2
      exact ⟨⟨b, by omega⟩, Finset.mem_univ _, rfl⟩
    · intro a _
      rfl
  conv_lhs => rw [hx, hsum _ _ _ fun k hk => (Finset.mem_filter.1 hk).2]

/-! ## Scaling -/

theorem uniform_pos {l u : ℝ} (h : l < u) (j : ℕ) (hj : 1 ≤ j) : 0 < ((uniformParam l u).ab j).2 :=
  jtab_pos (a := 0) (b := 0) (by norm_num) (by norm_num) h j hj

theorem orderBasis_replicate (P : MParam) (n p : ℕ) : (⟨List.replicate n P, fitElements n p, none⟩ : Expansion) = orderBasis (fun _ : Fin n => P) p := by
  simp [orderBasis]

/-- The samples in the coordinates of the method. -/
theorem standardise_apply (X : Matrix (Fin (k + 1)) (Fin m) ℝ) (i : Fin (k + 1)) :
    (Data.standardise .float X : Matrix (Fin (k + 1)) (Fin m) ℝ) i = Spec.scalePoint X (X i) := rfl

/-- The inverse of the scaling, as polynomials. -/
noncomputable def unscale (X' : Matrix (Fin (k + 1)) (Fin m) ℝ) (j : Fin m) : MvPolynomial (Fin m) ℝ :=
  aff (fun j => (highs X' j - lows X' j) / 2) (fun j => lows X' j + (highs X' j - lows X' j) / 2) j

theorem eval_unscale (X' : Matrix (Fin (k + 1)) (Fin m) ℝ) (h : ∀ j, lows X' j < highs X' j) (x : Fin m → ℝ) :
    (fun j => eval (Spec.scalePoint X' x) (unscale X' j)) = x := by
  ext j
  have : highs X' j - lows X' j ≠ 0 := (sub_pos.2 (h j)).ne'
  simp only [unscale, aff, map_add, map_mul, eval_C, eval_X]
  show (highs X' j - lows X' j) / 2 * (2 * ((x j - lows X' j) / (highs X' j - lows X' j)) - 1) + _ = _
  field_simp
  ring

/-- Scaling, as polynomials. -/
noncomputable def scaleP (X' : Matrix (Fin (k + 1)) (Fin m) ℝ) (j : Fin m) : MvPolynomial (Fin m) ℝ :=
  aff (fun j => 2 / (highs X' j - lows X' j)) (fun j => -(2 * lows X' j / (highs X' j - lows X' j)) - 1) j

theorem eval_scaleP (X' : Matrix (Fin (k + 1)) (Fin m) ℝ) (x : Fin m → ℝ) :
    (fun j => eval x (scaleP X' j)) = Spec.scalePoint X' x := by
  ext j
  simp only [scaleP, aff, map_add, map_mul, eval_C, eval_X]
  show _ = 2 * ((x j - lows X' j) / (highs X' j - lows X' j)) - 1
  ring

theorem scale_surj (X' : Matrix (Fin (k + 1)) (Fin m) ℝ) (h : ∀ j, lows X' j < highs X' j) (s : Fin m → ℝ) :
    Spec.scalePoint X' (fun j => eval s (unscale X' j)) = s := by
  ext j
  have : highs X' j - lows X' j ≠ 0 := (sub_pos.2 (h j)).ne'
  show 2 * ((eval s (unscale X' j) - lows X' j) / (highs X' j - lows X' j)) - 1 = s j
  simp only [unscale, aff, map_add, map_mul, eval_C, eval_X]
  field_simp
  ring

theorem det_scale {p : ℕ} {X' : Matrix (Fin (k + 1)) (Fin m) ℝ} (h : ∀ j, lows X' j < highs X' j) (hD : Det p X') :
    Det p (Data.standardise .float X' : Matrix (Fin (k + 1)) (Fin m) ℝ) := by
  intro q hq h0
  have h1 := hD (bind₁ (scaleP X') q) ((bind_degree _ (aff_degree _ _) q).trans hq) fun i => by
    rw [eval_bind, eval_scaleP]
    exact h0 i
  refine MvPolynomial.funext fun s => ?_
  have h2 := congrArg (eval fun j => eval s (unscale X' j)) h1
  rw [eval_bind, eval_scaleP, scale_surj X' h] at h2
  rw [h2, map_zero, map_zero]

theorem ridge_scale {X' : Matrix (Fin (k + 1)) (Fin m) ℝ} (f : MvPolynomial (Fin m) ℝ) (hr : Spec.Ridge f n) :
    Spec.Ridge (bind₁ (unscale X') f) n := by
  obtain ⟨A, g, h⟩ := hr
  refine ⟨fun j l => (highs X' j - lows X' j) / 2 * A j l, fun y => g (y + (fun j => lows X' j + (highs X' j - lows X' j) / 2) ᵥ* A), fun s => ?_⟩
  rw [eval_bind, h]
  congr 1
  ext l
  simp only [vecMul, dotProduct, Pi.add_apply, unscale, aff, map_add, map_mul, eval_C, eval_X]
  rw [← Finset.sum_add_distrib]
  exact Finset.sum_congr rfl fun j _ => by ring

/-! ## C142 -/

/-- The subspace polynomial of an `Active` object whose outputs are a polynomial of the projections. -/
theorem subspace_exact {E : External m} (hE : LstsqOK E.lstsq) (s : Active k m) (hn : 0 < n) (hm : n ≤ m) {p : ℕ} (hp : 1 ≤ p)
    (hW : s.Wᵀ * s.W = 1) (hD : Det p s.points) (q : MvPolynomial (Fin n) ℝ) (hq : q.totalDegree ≤ p)
    (hy : ∀ i, s.outputs i = eval (s.points i ᵥ* s.W.submatrix id (Fin.castLE hm)) q) :
    ∃ F, subspacePolynomial E s n p = .ok F ∧ ∀ y : Fin n → ℝ, F.basis.polyfit F.coeffs [List.ofFn y] = .ok [eval y q] := by
  unfold subspacePolynomial
  rw [dif_pos hm]
  have hU : (s.W.submatrix id (Fin.castLE hm))ᵀ * s.W.submatrix id (Fin.castLE hm) = 1 := by
    ext a b
    have := congrFun (congrFun hW (Fin.castLE hm a)) (Fin.castLE hm b)
    rw [Matrix.one_apply] at this ⊢
    rw [← if_congr (Fin.castLE_injective hm).eq_iff rfl rfl]
    exact this
  have hDY := det_proj hD _ hU
  have hout : s.outputs = fun i => eval ((s.points * s.W.submatrix id (Fin.castLE hm)) i) q := _root_.funext fun i => hy i
  simp only
  rw [hout]
  generalize s.points * s.W.submatrix id (Fin.castLE hm) = Y at hDY
  obtain ⟨c, h1, h2, h3⟩ := fitSamples_exact hE (fun i => uniformParam (lows Y i) (highs Y i))
    (fun i j hj => uniform_pos (det_spread hp hDY i) j hj) hn p Y (Nat.succ_pos k) hDY q hq
  refine ⟨_, h1, fun y => ?_⟩
  rw [polyfit_comb _ hn p c h2, h3]

/-- **C142 for a given polynomial**, the part that holds: the polynomial is a total-order expansion in whatever parameters, its points
fill `[-1, 1]` in every direction and the outputs are its values there. If it is a ridge function of degree at most `p` of `n` linear
combinations and the points determine such polynomials, then the polynomial over the active subspace reproduces it at every point.
Missing: points that do not fill `[-1, 1]`, `c142_range_violated`. -/
theorem c142_poly_partial {E : External m} (hE : ExternalOK E) (P : Fin m → MParam) (p' : ℕ) (c : List ℝ)
    (hc : c.length = (fitElements m p').length) (S : Matrix (Fin (k + 1)) (Fin m) ℝ) (hidem : Data.standardise .float S = S) {p : ℕ}
    (hp : 1 ≤ p) (hg : (comb P p' c).totalDegree ≤ p) (hn : 0 < n) (hm : n ≤ m) (hr : Spec.Ridge (comb P p' c) n) (hD : Det p S) :
    ∃ s F, activeOfPoly E ⟨orderBasis P p', c⟩ S (fun i => eval (S i) (comb P p' c)) = .ok s ∧ subspacePolynomial E s n p = .ok F ∧
      (∀ j : Fin m, n ≤ j → s.eigenvalues j = 0) ∧
      ∀ x, F.basis.polyfit F.coeffs [List.ofFn (x ᵥ* s.W.submatrix id (Fin.castLE hm))] = .ok [eval x (comb P p' c)] := by
  unfold activeOfPoly
  rw [polygrad_comb _ (hn.trans_le hm) p' c hc]
  generalize comb P p' c = g at *
  simp only
  have he := hE.eigh _ (cov_symm fun v (i : Fin (k + 1)) => eval (S i) (pderiv v g))
  have hi := hE.argsort (E.eigh (gradientCovariance fun v (i : Fin (k + 1)) => eval (S i) (pderiv v g))).1
  obtain ⟨hz, q, hq, hgq⟩ := ridge_core (Nat.succ_pos k) hD g hg hm hr _ _ _ he hi
  have hW := (c96_active (Nat.succ_pos k) _ _ _ _ he hi).1
  obtain ⟨F, hF1, hF2⟩ := subspace_exact hE.lstsq ⟨S, fun i => eval (S i) g, _, _⟩ hn hm hp hW hD q hq fun i => hgq (S i)
  rw [hidem]
  exact ⟨_, F, rfl, hF1, hz, fun x => by rw [hF2, hgq]⟩

/-- **C142 for samples.** If the outputs are the values of a polynomial of total degree at most `p` that depends only on `n` linear
combinations of the inputs, and the samples determine polynomials of that degree, then the eigenvalues beyond the first `n` vanish
and the polynomial over the active subspace reproduces the function at every point, sampled or not. -/
theorem c142_samples {E : External m} (hE : ExternalOK E) (X' : Matrix (Fin (k + 1)) (Fin m) ℝ) (f : MvPolynomial (Fin m) ℝ) {p : ℕ}
    (hp : 1 ≤ p) (hf : f.totalDegree ≤ p) (hn : 0 < n) (hm : n ≤ m) (hr : Spec.Ridge f n) (hD : Det p X') :
    ∃ s F, activeOfSamples E p X' (fun i => eval (X' i) f) = .ok s ∧ subspacePolynomial E s n p = .ok F ∧
      (∀ j : Fin m, n ≤ j → s.eigenvalues j = 0) ∧
      ∀ x, F.basis.polyfit F.coeffs [List.ofFn (Spec.scalePoint X' x ᵥ* s.W.submatrix id (Fin.castLE hm))] = .ok [eval x f] := by
  have hs : ∀ j, lows X' j < highs X' j := fun j => det_spread hp hD j
  have hDS := det_scale hs hD
  have hidem : Data.standardise .float (Data.standardise .float X') = Data.standardise .float X' := by
    refine (Data.c69_standardise_partial X' fun j => ?_).2.2.2.2
    by_contra hne
    push Not at hne
    have := hs j
    have e : highs X' j = lows X' j := by
      obtain ⟨a, -, ha⟩ := Finset.exists_mem_eq_sup' Finset.univ_nonempty fun i => X' i j
      obtain ⟨b, -, hb⟩ := Finset.exists_mem_eq_inf' Finset.univ_nonempty fun i => X' i j
      rw [highs, lows, ha, hb]
      exact hne a b
    linarith
  have hg : (bind₁ (unscale X') f).totalDegree ≤ p := (bind_degree _ (aff_degree _ _) f).trans hf
  have hval : ∀ x, eval x f = eval (Spec.scalePoint X' x) (bind₁ (unscale X') f) := fun x => by rw [eval_bind, eval_unscale X' hs]
  have hrg := ridge_scale (X' := X') f hr
  generalize bind₁ (unscale X') f = g at hg hval hrg
  have hout : (fun i => eval (X' i) f) = fun i => eval ((Data.standardise .float X' : Matrix (Fin (k + 1)) (Fin m) ℝ) i) g :=
    _root_.funext fun i => hval (X' i)
  unfold activeOfSamples
  simp only
  rw [orderBasis_replicate, hout]
  generalize (Data.standardise .float X' : Matrix (Fin (k + 1)) (Fin m) ℝ) = S at hDS hidem
  obtain ⟨c, h1, h2, h3⟩ := fitSamples_exact hE.lstsq (fun _ : Fin m => uniformParam (-1) 1)
    (fun _ j hj => uniform_pos (by norm_num) j hj) (hn.trans_le hm) p S (Nat.succ_pos k) hDS g hg
  rw [h1]
  simp only
  obtain ⟨s, F, a1, a2, a3, a4⟩ := c142_poly_partial hE (fun _ : Fin m => uniformParam (-1) 1) p c h2 S hidem hp (by rw [h3]; exact hg) hn hm
    (by rw [h3]; exact hrg) hDS
  rw [h3] at a1 a4
  exact ⟨s, F, a1, a2, a3, fun x => by rw [a4, hval]⟩

end EQ.Sub
