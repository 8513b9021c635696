import Verif.Solver.TurnProps

/-!
# Fits to values and gradients: superposition, recovery, order and form of the equations (C237)
-/

namespace EQ.Solver
open Matrix

variable {m n k : ℕ}

/-- Specification: values `A x` and gradients `C x` together determine the coefficients. -/
def Determined (A : Mat m n) (C : Mat k n) : Prop := ∀ v, A.mulVec v = 0 → C.mulVec v = 0 → v = 0

/-- The equations that characterise the coefficients: orthogonality of the residuals, or the value
equations with orthogonality of the gradient residuals. -/
def ConEq (A : Mat m n) (b : Vec m) (C : Mat k n) (d : Vec k) (x : Vec n) : Prop :=
  (n ≤ m → ∀ v, ∑ i, (A.mulVec x i - b i) * A.mulVec v i + ∑ i, (C.mulVec x i - d i) * C.mulVec v i = 0) ∧
  (m < n → A.mulVec x = b ∧ ∀ v, A.mulVec v = 0 → ∑ i, (C.mulVec x i - d i) * C.mulVec v i = 0)

theorem linear_zero_of_quadratic {p q : ℝ} (h : ∀ t : ℝ, 0 ≤ t * p + t ^ 2 * q) : p = 0 := by
  by_contra hp
  have h1 := h (-p / (2 * (|q| + 1)))
  have hq : 0 < |q| + 1 := by positivity
  have e : -p / (2 * (|q| + 1)) * p + (-p / (2 * (|q| + 1))) ^ 2 * q = p ^ 2 / (4 * (|q| + 1) ^ 2) * (q - 2 * (|q| + 1)) := by
    field_simp
    ring
  rw [e] at h1
  have h2 : 0 < p ^ 2 / (4 * (|q| + 1) ^ 2) := by positivity
  have h3 : q - 2 * (|q| + 1) < 0 := by linarith [le_abs_self q, abs_nonneg q]
  nlinarith [mul_neg_of_pos_of_neg h2 h3]

theorem sqRes_step (A : Mat m n) (b : Vec m) (x v : Vec n) (t : ℝ) :
    sqRes A b (x + t • v) = sqRes A b x + t * (2 * ∑ i, (A.mulVec x i - b i) * A.mulVec v i) +
      t ^ 2 * ∑ i, A.mulVec v i ^ 2 := by
  unfold sqRes
  rw [mulVec_add, mulVec_smul]
  simp only [Finset.mul_sum, ← Finset.sum_add_distrib, Pi.add_apply, Pi.smul_apply, smul_eq_mul]
  exact Finset.sum_congr rfl fun i _ => by ring

theorem conEq_returned (lstsq : Lstsq) (hl : LstsqSpec lstsq) (A : Mat m n) (qr : CompleteQR n m) (hqr : qr.Spec A)
    (b : Vec m) (C : Mat k n) (d : Vec k) (hA : m < n → LinearIndependent ℝ A.row) :
    ConEq A b C d (constrainedLeastSquares lstsq qr A b C d) := by
  obtain ⟨h1, h2⟩ := c43_constrained lstsq hl A qr hqr b C d
  set x := constrainedLeastSquares lstsq qr A b C d
  refine ⟨fun h v => ?_, fun h => ⟨(h2 h (hA h)).1, fun v hv => ?_⟩⟩
  · have : 2 * (∑ i, (A.mulVec x i - b i) * A.mulVec v i + ∑ i, (C.mulVec x i - d i) * C.mulVec v i) = 0 := by
      refine linear_zero_of_quadratic (q := ∑ i, A.mulVec v i ^ 2 + ∑ i, C.mulVec v i ^ 2) fun t => ?_
      have := h1 h (x + t • v)
      rw [sqRes_step, sqRes_step] at this
      linarith
    linarith
  · have : 2 * ∑ i, (C.mulVec x i - d i) * C.mulVec v i = 0 := by
      refine linear_zero_of_quadratic (q := ∑ i, C.mulVec v i ^ 2) fun t => ?_
      have := (h2 h (hA h)).2 (x + t • v) (by rw [mulVec_add, mulVec_smul, hv, smul_zero, add_zero]; exact (h2 h (hA h)).1)
      rw [sqRes_step] at this
      linarith
    linarith

theorem zero_of_sum_sq {N : ℕ} {w : Vec N} (h : ∑ i, w i * w i ≤ 0) : w = 0 := by
  funext i
  have := (Finset.sum_eq_zero_iff_of_nonneg fun i _ => mul_self_nonneg (w i)).1
    (le_antisymm h (Finset.sum_nonneg fun i _ => mul_self_nonneg (w i))) i (Finset.mem_univ i)
  exact mul_self_eq_zero.1 this

theorem sum_sub_residual {N : ℕ} (M : Mat N n) (r : Vec N) (x y : Vec n) (v : Vec n) :
    ∑ i, (M.mulVec x i - r i) * M.mulVec v i - ∑ i, (M.mulVec y i - r i) * M.mulVec v i =
      ∑ i, M.mulVec (x - y) i * M.mulVec v i := by
  rw [← Finset.sum_sub_distrib, mulVec_sub]
  exact Finset.sum_congr rfl fun i _ => by rw [Pi.sub_apply]; ring

theorem conEq_unique {A : Mat m n} {b : Vec m} {C : Mat k n} {d : Vec k} (hD : Determined A C) {x y : Vec n}
    (hx : ConEq A b C d x) (hy : ConEq A b C d y) : x = y := by
  rw [← sub_eq_zero]
  rcases le_or_gt n m with h | h
  · have e := hx.1 h (x - y)
    have e' := hy.1 h (x - y)
    have s1 := sum_sub_residual A b x y (x - y)
    have s2 := sum_sub_residual C d x y (x - y)
    have n1 : 0 ≤ ∑ i, A.mulVec (x - y) i * A.mulVec (x - y) i := Finset.sum_nonneg fun i _ => mul_self_nonneg _
    have n2 : 0 ≤ ∑ i, C.mulVec (x - y) i * C.mulVec (x - y) i := Finset.sum_nonneg fun i _ => mul_self_nonneg _
    exact hD _ (zero_of_sum_sq (by linarith)) (zero_of_sum_sq (by linarith))
  · have hA : A.mulVec (x - y) = 0 := by rw [mulVec_sub, (hx.2 h).1, (hy.2 h).1, sub_self]
    have e := (hx.2 h).2 _ hA
    have e' := (hy.2 h).2 _ hA
    have s2 := sum_sub_residual C d x y (x - y)
    exact hD _ hA (zero_of_sum_sq (by linarith))

/-- C237, superposition: the coefficients fitted to a combination of two sets of values and gradients
are that combination of the coefficients. -/
theorem c237_superposition (lstsq : Lstsq) (hl : LstsqSpec lstsq) (A : Mat m n) (qr : CompleteQR n m) (hqr : qr.Spec A)
    (C : Mat k n) (hA : m < n → LinearIndependent ℝ A.row) (hD : Determined A C) (b b' : Vec m) (d d' : Vec k) (s t : ℝ) :
    constrainedLeastSquares lstsq qr A (s • b + t • b') C (s • d + t • d') =
      s • constrainedLeastSquares lstsq qr A b C d + t • constrainedLeastSquares lstsq qr A b' C d' := by
  have h := conEq_returned lstsq hl A qr hqr b C d hA
  have h' := conEq_returned lstsq hl A qr hqr b' C d' hA
  refine conEq_unique hD (conEq_returned lstsq hl A qr hqr _ C _ hA) ?_
  set x := constrainedLeastSquares lstsq qr A b C d
  set y := constrainedLeastSquares lstsq qr A b' C d'
  have key : ∀ {N : ℕ} (M : Mat N n) (r r' : Vec N) (v : Vec n),
      ∑ i, (M.mulVec (s • x + t • y) i - (s • r + t • r') i) * M.mulVec v i =
        s * ∑ i, (M.mulVec x i - r i) * M.mulVec v i + t * ∑ i, (M.mulVec y i - r' i) * M.mulVec v i := by
    intro N M r r' v
    rw [mulVec_add, mulVec_smul, mulVec_smul, Finset.mul_sum, Finset.mul_sum, ← Finset.sum_add_distrib]
    refine Finset.sum_congr rfl fun i _ => ?_
    simp only [Pi.add_apply, Pi.smul_apply, smul_eq_mul]
    ring
  refine ⟨fun hn v => ?_, fun hn => ⟨?_, fun v hv => ?_⟩⟩
  · rw [key, key]
    linear_combination s * h.1 hn v + t * h'.1 hn v
  · rw [mulVec_add, mulVec_smul, mulVec_smul, (h.2 hn).1, (h'.2 hn).1]
  · rw [key, (h.2 hn).2 v hv, (h'.2 hn).2 v hv]
    ring

/-- C237, recovery: values and gradients of a polynomial of the basis give back its coefficients, and
adding such values and gradients to any data adds its coefficients. -/
theorem c237_recovery (lstsq : Lstsq) (hl : LstsqSpec lstsq) (A : Mat m n) (qr : CompleteQR n m) (hqr : qr.Spec A)
    (C : Mat k n) (hA : m < n → LinearIndependent ℝ A.row) (hD : Determined A C) (x : Vec n) (b : Vec m) (d : Vec k) :
    constrainedLeastSquares lstsq qr A (A.mulVec x) C (C.mulVec x) = x ∧
    constrainedLeastSquares lstsq qr A (b + A.mulVec x) C (d + C.mulVec x) = constrainedLeastSquares lstsq qr A b C d + x := by
  have h0 : constrainedLeastSquares lstsq qr A (A.mulVec x) C (C.mulVec x) = x := by
    refine conEq_unique hD (conEq_returned lstsq hl A qr hqr _ C _ hA) ⟨fun _ v => ?_, fun _ => ⟨rfl, fun v _ => ?_⟩⟩ <;> simp
  refine ⟨h0, ?_⟩
  have := c237_superposition lstsq hl A qr hqr C hA hD b (A.mulVec x) d (C.mulVec x) 1 1
  rwa [h0, one_smul, one_smul, one_smul, one_smul, one_smul, one_smul] at this

/-- C237, order: neither the order of the values nor that of the gradient components matters, and a
reordered basis gets the reordered coefficients. -/
theorem c237_order (lstsq : Lstsq) (hl : LstsqSpec lstsq) (σ : Equiv.Perm (Fin m)) (ρ : Equiv.Perm (Fin k)) (τ : Equiv.Perm (Fin n))
    (A : Mat m n) (qr qr' : CompleteQR n m) (hqr : qr.Spec A) (hqr' : qr'.Spec (turned σ τ A)) (C : Mat k n)
    (hA : m < n → LinearIndependent ℝ A.row) (hD : Determined A C) (b : Vec m) (d : Vec k) :
    constrainedLeastSquares lstsq qr' (turned σ τ A) (fun i => b (σ i)) (turned ρ τ C) (fun i => d (ρ i)) =
      fun j => constrainedLeastSquares lstsq qr A b C d (τ j) := by
  have back : ∀ v : Vec n, v = fun j => (fun l => v (τ.symm l)) (τ j) := fun v => funext fun j => by simp
  have hz : ∀ {N : ℕ} (π : Equiv.Perm (Fin N)) (M : Mat N n) (v : Vec n), (turned π τ M).mulVec (fun j => v (τ j)) = 0 → M.mulVec v = 0 := by
    intro N π M v h
    funext i
    have := congrFun h (π.symm i)
    rwa [turned_mulVec, Equiv.apply_symm_apply] at this
  have hA' : m < n → LinearIndependent ℝ (turned σ τ A).row := by
    intro h
    rw [Fintype.linearIndependent_iff]
    intro g hg i
    have := Fintype.linearIndependent_iff.1 (hA h) (fun i => g (σ.symm i)) (by
      funext j
      have e := congrFun hg (τ.symm j)
      rw [Finset.sum_apply] at e ⊢
      rw [← Equiv.sum_comp σ]
      simpa [turned, Matrix.row] using e) (σ i)
    simpa using this
  have hD' : Determined (turned σ τ A) (turned ρ τ C) := by
    intro v h1 h2
    rw [back v] at h1 h2
    have := hD _ (hz σ A (fun l => v (τ.symm l)) h1) (hz ρ C (fun l => v (τ.symm l)) h2)
    funext j
    simpa using congrFun this (τ j)
  have h := conEq_returned lstsq hl A qr hqr b C d hA
  refine conEq_unique hD' (conEq_returned lstsq hl _ qr' hqr' _ _ _ hA') ?_
  set x := constrainedLeastSquares lstsq qr A b C d
  have key : ∀ {N : ℕ} (π : Equiv.Perm (Fin N)) (M : Mat N n) (r : Vec N) (v : Vec n),
      ∑ i, ((turned π τ M).mulVec (fun j => x (τ j)) i - r (π i)) * (turned π τ M).mulVec (fun j => v (τ j)) i =
        ∑ i, (M.mulVec x i - r i) * M.mulVec v i := by
    intro N π M r v
    rw [← Equiv.sum_comp π fun i => (M.mulVec x i - r i) * M.mulVec v i]
    exact Finset.sum_congr rfl fun i _ => by rw [turned_mulVec, turned_mulVec]
  refine ⟨fun hn v => ?_, fun hn => ⟨?_, fun v hv => ?_⟩⟩
  · rw [back v]
    have e := h.1 hn fun l => v (τ.symm l)
    rw [← key σ A b, ← key ρ C d] at e
    exact e
  · funext i
    rw [turned_mulVec, (h.2 hn).1]
  · rw [back v] at hv ⊢
    have e := (h.2 hn).2 (fun l => v (τ.symm l)) (hz σ A _ hv)
    rw [← key ρ C d] at e
    exact e

/-- C237, form of the value equations: with fewer values than coefficients, replacing the value
equations by invertible combinations of them (weights, for instance) changes nothing. -/
theorem c237_weights (lstsq : Lstsq) (hl : LstsqSpec lstsq) (G : Mat m m) (hG : IsUnit G.det) (A : Mat m n)
    (qr qr' : CompleteQR n m) (hqr : qr.Spec A) (hqr' : qr'.Spec (G * A)) (C : Mat k n) (hn : m < n)
    (hA : LinearIndependent ℝ A.row) (hD : Determined A C) (b : Vec m) (d : Vec k) :
    constrainedLeastSquares lstsq qr' (G * A) (G.mulVec b) C d = constrainedLeastSquares lstsq qr A b C d := by
  have inj : ∀ v : Vec n, (G * A).mulVec v = 0 → A.mulVec v = 0 := by
    intro v h
    have := congrArg (fun w => G⁻¹.mulVec w) h
    rwa [mulVec_mulVec, ← Matrix.mul_assoc, nonsing_inv_mul _ hG, Matrix.one_mul, mulVec_zero] at this
  have hA' : LinearIndependent ℝ (G * A).row := by
    rw [← Matrix.vecMul_injective_iff] at hA ⊢
    intro g g' e
    have e' : (g ᵥ* G) ᵥ* A = (g' ᵥ* G) ᵥ* A := by
      rw [vecMul_vecMul, vecMul_vecMul]; exact e
    have := congrArg (fun w => w ᵥ* G⁻¹) (hA e')
    simpa [vecMul_vecMul, mul_nonsing_inv _ hG] using this
  have h := (conEq_returned lstsq hl A qr hqr b C d fun _ => hA).2 hn
  refine conEq_unique (fun v h1 h2 => hD v (inj v h1) h2) (conEq_returned lstsq hl _ qr' hqr' _ C d fun _ => hA') ?_
  refine ⟨fun hn' => absurd hn' (by omega), fun _ => ⟨?_, fun v hv => h.2 v (inj v hv)⟩⟩
  rw [← mulVec_mulVec, h.1]

/-- The constraint `3 x + 4 y = b` with the gradient equation `x = d`. -/
example : Determined (!![3, 4] : Mat 1 2) (!![1, 0] : Mat 1 2) := by
  intro v h1 h2
  have a := congrFun h1 0
  have c := congrFun h2 0
  simp [mulVec, dotProduct, Fin.sum_univ_two] at a c
  funext j
  fin_cases j
  · exact c
  · simpa [c] using a

example : ∃ (lstsq : Lstsq), ∀ x : Vec 2,
    constrainedLeastSquares lstsq qr34 !![3, 4] ((!![3, 4] : Mat 1 2).mulVec x) (!![1, 0] : Mat 1 2) ((!![1, 0] : Mat 1 2).mulVec x) = x := by
  obtain ⟨lstsq, hl⟩ := exists_lstsq_all
  refine ⟨lstsq, fun x => (c237_recovery lstsq hl _ qr34 ⟨?_, ?_, ?_⟩ _ (fun _ => ?_) ?_ x 0 0).1⟩
  · ext i j; fin_cases i <;> fin_cases j <;> simp [qr34, mul_apply, Fin.sum_univ_two] <;> norm_num
  · ext i j; fin_cases i <;> fin_cases j <;> simp [qr34, mul_apply, Fin.sum_univ_two]
  · intro i j h; fin_cases i <;> fin_cases j <;> simp [qr34] at h ⊢
  · rw [Fintype.linearIndependent_iff]
    intro g hg i
    have := congrFun hg 0
    simp at this
    fin_cases i
    exact this
  · intro v h1 h2
    have a := congrFun h1 0
    have c := congrFun h2 0
    simp [mulVec, dotProduct, Fin.sum_univ_two] at a c
    funext j
    fin_cases j
    · exact c
    · simpa [c] using a

example : IsUnit (!![2] : Mat 1 1).det := by simp

end EQ.Solver
