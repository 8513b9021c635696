import Verif.Sub.FitLemmas
import Mathlib.LinearAlgebra.Matrix.NonsingularInverse
import Mathlib.LinearAlgebra.Matrix.DotProduct
import Mathlib.Analysis.Calculus.Deriv.Mul
import Mathlib.Analysis.Calculus.Deriv.Inv
import Mathlib.Analysis.Calculus.FDeriv.Mul
import Mathlib.Algebra.MvPolynomial.Funext

/-!
# Lemmas on the fits inside variable projection: projections and their derivatives
-/

namespace EQ.Sub
open EQ.Basis EQ.Param EQ.Sampling EQ.Poly Matrix MvPolynomial
variable {K m n : ℕ}

/-! ## Pseudo-inverses -/

/-- What `pinv` is documented to return: the conditions of Moore and Penrose. -/
structure Penrose {a b : ℕ} (A : Matrix (Fin a) (Fin b) ℝ) (B : Matrix (Fin b) (Fin a) ℝ) : Prop where
  one : A * B * A = A
  two : B * A * B = B
  left : (A * B)ᵀ = A * B
  right : (B * A)ᵀ = B * A

variable {a b b' : ℕ}

theorem cols_factor (A : Matrix (Fin a) (Fin b) ℝ) (A' : Matrix (Fin a) (Fin b') ℝ) (h : ∀ c', ∃ c, A' *ᵥ c' = A *ᵥ c) :
    ∃ T : Matrix (Fin b) (Fin b') ℝ, A' = A * T := by
  choose c hc using fun r : Fin b' => h (Pi.single r 1)
  refine ⟨Matrix.of fun j r => c r j, ?_⟩
  ext i r
  have := congrFun (hc r) i
  rw [mulVec_single_one] at this
  simpa [mul_apply, mulVec, dotProduct] using this

theorem proj_unique {A : Matrix (Fin a) (Fin b) ℝ} {B : Matrix (Fin b) (Fin a) ℝ} {A' : Matrix (Fin a) (Fin b') ℝ}
    {B' : Matrix (Fin b') (Fin a) ℝ} (h : Penrose A B) (h' : Penrose A' B') (h1 : ∀ c', ∃ c, A' *ᵥ c' = A *ᵥ c)
    (h2 : ∀ c, ∃ c', A *ᵥ c = A' *ᵥ c') : A * B = A' * B' := by
  obtain ⟨T, hT⟩ := cols_factor A A' h1
  obtain ⟨T', hT'⟩ := cols_factor A' A h2
  have e1 : (A * B) * (A' * B') = A' * B' := by
    rw [← Matrix.mul_assoc]
    congr 1
    rw [hT, ← Matrix.mul_assoc, h.one]
  have e2 : (A' * B') * (A * B) = A * B := by
    rw [← Matrix.mul_assoc]
    congr 1
    rw [hT', ← Matrix.mul_assoc, h'.one]
  have e3 := congrArg transpose e1
  rw [transpose_mul, h.left, h'.left, e2] at e3
  exact e3

theorem penrose_full {A : Matrix (Fin a) (Fin b) ℝ} {B : Matrix (Fin b) (Fin a) ℝ} (h : Penrose A B) (hd : (Aᵀ * A).det ≠ 0) :
    B = (Aᵀ * A)⁻¹ * Aᵀ := by
  have e : Aᵀ * A * B = Aᵀ := by
    have := congrArg transpose h.one
    rwa [transpose_mul, h.left, ← Matrix.mul_assoc] at this
  calc B = (Aᵀ * A)⁻¹ * (Aᵀ * A) * B := by rw [nonsing_inv_mul _ (isUnit_iff_ne_zero.2 hd), Matrix.one_mul]
    _ = _ := by rw [Matrix.mul_assoc, e]

/-- The residual of the projection is the shortest. -/
theorem proj_least {A : Matrix (Fin a) (Fin b) ℝ} {B : Matrix (Fin b) (Fin a) ℝ} (h : Penrose A B) (f : Fin a → ℝ) (c : Fin b → ℝ) :
    ∑ i, (f - A *ᵥ (B *ᵥ f)) i ^ 2 ≤ ∑ i, (f - A *ᵥ c) i ^ 2 := by
  have h0 : (f - A *ᵥ (B *ᵥ f)) ⬝ᵥ A *ᵥ (B *ᵥ f - c) = 0 := by
    rw [dotProduct_mulVec, ← mulVec_transpose, mulVec_sub, mulVec_mulVec, mulVec_mulVec]
    have e : Aᵀ * (A * B) = Aᵀ := by
      have := congrArg transpose h.one
      rwa [transpose_mul, h.left] at this
    rw [Matrix.mul_assoc, e, sub_self, zero_dotProduct]
  have h1 : f - A *ᵥ c = (f - A *ᵥ (B *ᵥ f)) + A *ᵥ (B *ᵥ f - c) := by
    rw [mulVec_sub]
    abel
  have h2 : ∀ v : Fin a → ℝ, ∑ i, v i ^ 2 = v ⬝ᵥ v := fun v => by
    simp [dotProduct, pow_two]
  have h3 : A *ᵥ (B *ᵥ f - c) ⬝ᵥ (f - A *ᵥ (B *ᵥ f)) = 0 := by rw [dotProduct_comm]; exact h0
  rw [h2, h2, h1, add_dotProduct, dotProduct_add, dotProduct_add, h0, h3]
  have : 0 ≤ A *ᵥ (B *ᵥ f - c) ⬝ᵥ A *ᵥ (B *ᵥ f - c) := by
    rw [← h2]
    positivity
  linarith

/-! ## Derivatives of matrices -/

theorem hasDeriv_mul {x y z : ℕ} {A : ℝ → Matrix (Fin x) (Fin y) ℝ} {B : ℝ → Matrix (Fin y) (Fin z) ℝ}
    {A' : Matrix (Fin x) (Fin y) ℝ} {B' : Matrix (Fin y) (Fin z) ℝ} {t : ℝ}
    (hA : ∀ i j, HasDerivAt (fun t => A t i j) (A' i j) t) (hB : ∀ i j, HasDerivAt (fun t => B t i j) (B' i j) t) (i : Fin x) (k : Fin z) :
    HasDerivAt (fun t => (A t * B t) i k) ((A' * B t + A t * B') i k) t := by
  simp only [mul_apply, Matrix.add_apply]
  rw [← Finset.sum_add_distrib]
  exact HasDerivAt.fun_sum fun j _ => (hA i j).mul (hB j k)

theorem differentiable_det {x : ℕ} {M : ℝ → Matrix (Fin x) (Fin x) ℝ} {t : ℝ}
    (h : ∀ i j, DifferentiableAt ℝ (fun t => M t i j) t) : DifferentiableAt ℝ (fun t => (M t).det) t := by
  simp only [det_apply]
  refine DifferentiableAt.fun_sum fun σ _ => DifferentiableAt.const_smul ?_ _
  exact DifferentiableAt.fun_finset_prod fun i _ => h _ _

theorem differentiable_inv {x : ℕ} {M : ℝ → Matrix (Fin x) (Fin x) ℝ} {t : ℝ}
    (h : ∀ i j, DifferentiableAt ℝ (fun t => M t i j) t) (hd : (M t).det ≠ 0) (i j : Fin x) :
    DifferentiableAt ℝ (fun t => (M t)⁻¹ i j) t := by
  simp only [inv_def, Ring.inverse_eq_inv', Matrix.smul_apply, smul_eq_mul, adjugate_apply]
  refine ((differentiable_det h).inv hd).mul (differentiable_det fun k l => ?_)
  by_cases hk : k = j
  · subst hk
    simp only [updateRow_self]
    exact differentiableAt_const _
  · simp only [updateRow_ne hk]
    exact h _ _

/-- The derivative of the projection onto the columns of a matrix of full column rank (Golub and Pereyra). -/
theorem hasDeriv_proj {A : ℝ → Matrix (Fin a) (Fin b) ℝ} {D : Matrix (Fin a) (Fin b) ℝ} {t₀ : ℝ}
    (hA : ∀ i j, HasDerivAt (fun t => A t i j) (D i j) t₀) (hd : ((A t₀)ᵀ * A t₀).det ≠ 0) (B : Matrix (Fin b) (Fin a) ℝ)
    (hB : B = ((A t₀)ᵀ * A t₀)⁻¹ * (A t₀)ᵀ) (i k : Fin a) :
    HasDerivAt (fun t => (A t * (((A t)ᵀ * A t)⁻¹ * (A t)ᵀ)) i k)
      (((1 - A t₀ * B) * D * B + ((1 - A t₀ * B) * D * B)ᵀ : Matrix (Fin a) (Fin a) ℝ) i k) t₀ := by
  have hG : ∀ i j, HasDerivAt (fun t => ((A t)ᵀ * A t) i j) ((Dᵀ * A t₀ + (A t₀)ᵀ * D) i j) t₀ :=
    hasDeriv_mul (fun i j => hA j i) hA
  have hdet : ∀ᶠ t in nhds t₀, ((A t)ᵀ * A t).det ≠ 0 :=
    (differentiable_det fun i j => (hG i j).differentiableAt).continuousAt.eventually_ne hd
  have hI := fun i j => (differentiable_inv (fun i j => (hG i j).differentiableAt) hd i j).hasDerivAt
  have hT : ∀ i j, HasDerivAt (fun t => (A t)ᵀ i j) (Dᵀ i j) t₀ := fun i j => hA j i
  have hB' := hasDeriv_mul (A' := Matrix.of fun i j => deriv (fun t => ((A t)ᵀ * A t)⁻¹ i j) t₀) hI hT
  obtain ⟨Q', hQ⟩ : ∃ Q' : Matrix (Fin a) (Fin a) ℝ,
      ∀ i k, HasDerivAt (fun t => (A t * (((A t)ᵀ * A t)⁻¹ * (A t)ᵀ)) i k) (Q' i k) t₀ := ⟨_, hasDeriv_mul hA hB'⟩
  suffices h : Q' = (1 - A t₀ * B) * D * B + ((1 - A t₀ * B) * D * B)ᵀ by
    rw [← h]
    exact hQ i k
  -- the identities that hold for all parameters nearby
  have q1 : ∀ t, ((A t)ᵀ * A t).det ≠ 0 → A t * (((A t)ᵀ * A t)⁻¹ * (A t)ᵀ) * A t = A t := fun t ht => by
    rw [Matrix.mul_assoc, Matrix.mul_assoc, nonsing_inv_mul _ (isUnit_iff_ne_zero.2 ht), Matrix.mul_one]
  have q2 : ∀ t, (A t * (((A t)ᵀ * A t)⁻¹ * (A t)ᵀ))ᵀ = A t * (((A t)ᵀ * A t)⁻¹ * (A t)ᵀ) := fun t => by
    rw [transpose_mul, transpose_mul, transpose_nonsing_inv, transpose_mul, transpose_transpose, Matrix.mul_assoc]
  have e1 : Q' * A t₀ + A t₀ * B * D = D := by
    ext x y
    have h1 := hasDeriv_mul hQ hA x y
    rw [← hB] at h1
    refine h1.unique ((hA x y).congr_of_eventuallyEq ?_)
    filter_upwards [hdet] with t ht
    rw [q1 t ht]
  have e2 : Q'ᵀ = Q' := by
    ext x y
    have h1 := hQ y x
    refine h1.unique ((hQ x y).congr_of_eventuallyEq (Filter.Eventually.of_forall fun t => ?_))
    exact congrFun (congrFun (q2 t) x) y
  have e3 : Q' * (A t₀ * B) + A t₀ * B * Q' = Q' := by
    ext x y
    have h1 := hasDeriv_mul hQ hQ x y
    rw [← hB] at h1
    refine h1.unique ((hQ x y).congr_of_eventuallyEq ?_)
    filter_upwards [hdet] with t ht
    rw [← Matrix.mul_assoc, q1 t ht]
  have e4 : Q' * (A t₀ * B) = (1 - A t₀ * B) * D * B := by
    rw [← Matrix.mul_assoc, eq_sub_iff_add_eq.mpr e1, Matrix.sub_mul 1, Matrix.one_mul]
  have hs : (A t₀ * B)ᵀ = A t₀ * B := by rw [hB]; exact q2 t₀
  have e5 : A t₀ * B * Q' = ((1 - A t₀ * B) * D * B)ᵀ := by
    rw [← e4, transpose_mul, e2, hs]
  rw [← e5, ← e4, e3]

/-! ## The columns of the Vandermonde matrix -/

theorem vand_mulVec (P : MParam) (hn : 0 < n) (p : ℕ) (Y : Matrix (Fin K) (Fin n) ℝ) (c : Fin (fitElements n p).length → ℝ) (i : Fin K) :
    (vandermonde P p Y *ᵥ c) i = eval (Y i) (∑ r, c r • phi P n (fitElements n p)[r]) := by
  simp only [mulVec, dotProduct, map_sum, smul_eval]
  exact Finset.sum_congr rfl fun r _ => by rw [vandermonde_eval P hn, mul_comm]

theorem comb_degree (P : MParam) (hP : ∀ k, 1 ≤ k → 0 < (P.ab k).2) (hn : 0 < n) (p : ℕ) (c : Fin (fitElements n p).length → ℝ) :
    (∑ r, c r • phi P n (fitElements n p)[r]).totalDegree ≤ p := by
  refine totalDegree_finsetSum_le fun r _ => (totalDegree_smul_le _ _).trans ?_
  obtain ⟨h1, h2⟩ := (mem_fitElements hn p _).1 (List.getElem_mem r.2)
  exact (phi_degree P hP _ h1).trans h2

/-- An affine function of one coordinate. -/
noncomputable def aff (s o : Fin n → ℝ) (k : Fin n) : MvPolynomial (Fin n) ℝ := C (s k) * X k + C (o k)

theorem aff_degree (s o : Fin n → ℝ) (k : Fin n) : (aff s o k).totalDegree ≤ 1 := by
  unfold aff
  refine (totalDegree_add _ _).trans (max_le ((totalDegree_mul _ _).trans ?_) ?_)
  · rw [totalDegree_C, totalDegree_X]
  · rw [totalDegree_C]
    omega

theorem rescale_aff (lo hi : Fin n → ℝ) (y : Matrix (Fin K) (Fin n) ℝ) (i : Fin K) :
    rescale lo hi y i = fun k => eval (y i) (aff (fun k => 2 / (hi k - lo k)) (fun k => -(2 * lo k / (hi k - lo k)) - 1) k) := by
  ext k
  simp only [rescale, aff, map_add, map_mul, eval_C, eval_X]
  ring

theorem unscale_aff (lo hi : Fin n → ℝ) (h : ∀ k, lo k ≠ hi k) (y : Matrix (Fin K) (Fin n) ℝ) (i : Fin K) :
    y i = fun k => eval (rescale lo hi y i) (aff (fun k => (hi k - lo k) / 2) (fun k => lo k + (hi k - lo k) / 2) k) := by
  ext k
  have : hi k - lo k ≠ 0 := sub_ne_zero.2 (h k).symm
  simp only [rescale, aff, map_add, map_mul, eval_C, eval_X]
  field_simp
  ring

/-- The columns span the polynomials of total degree at most `p` of the points before scaling, whatever the scaling. -/
theorem vand_range (P : MParam) (hP : ∀ k, 1 ≤ k → 0 < (P.ab k).2) (hn : 0 < n) (p : ℕ) (lo hi : Fin n → ℝ) (h : ∀ k, lo k ≠ hi k)
    (y : Matrix (Fin K) (Fin n) ℝ) (v : Fin K → ℝ) :
    (∃ c, v = vandermonde P p (rescale lo hi y) *ᵥ c) ↔ ∃ q : MvPolynomial (Fin n) ℝ, q.totalDegree ≤ p ∧ ∀ i, v i = eval (y i) q := by
  constructor
  · rintro ⟨c, rfl⟩
    refine ⟨bind₁ (aff (fun k => 2 / (hi k - lo k)) (fun k => -(2 * lo k / (hi k - lo k)) - 1)) _,
      (bind_degree _ (aff_degree _ _) _).trans (comb_degree P hP hn p c), fun i => ?_⟩
    rw [vand_mulVec P hn, rescale_aff, ← eval_bind]
  · rintro ⟨q, hq, h2⟩
    obtain ⟨c, hc⟩ := phi_span P hP hn p (bind₁ (aff (fun k => (hi k - lo k) / 2) (fun k => lo k + (hi k - lo k) / 2)) q)
      ((bind_degree _ (aff_degree _ _) _).trans hq)
    refine ⟨c, ?_⟩
    ext i
    rw [vand_mulVec P hn, ← hc, eval_bind, ← unscale_aff lo hi h, h2]

/-- The samples determine the polynomials of total degree at most `p`. -/
def Det (p : ℕ) (y : Matrix (Fin K) (Fin n) ℝ) : Prop :=
  ∀ q : MvPolynomial (Fin n) ℝ, q.totalDegree ≤ p → (∀ i, eval (y i) q = 0) → q = 0

theorem gram_det {A : Matrix (Fin a) (Fin b) ℝ} : (Aᵀ * A).det ≠ 0 ↔ ∀ c, A *ᵥ c = 0 → c = 0 := by
  constructor
  · intro h c hc
    have : (Aᵀ * A) *ᵥ c = 0 := by rw [← mulVec_mulVec, hc, mulVec_zero]
    by_contra hne
    exact h (exists_mulVec_eq_zero_iff.1 ⟨c, hne, this⟩)
  · intro h hd
    obtain ⟨c, hne, hc⟩ := exists_mulVec_eq_zero_iff.2 hd
    refine hne (h c ?_)
    have : (A *ᵥ c) ⬝ᵥ (A *ᵥ c) = 0 := by
      rw [dotProduct_mulVec, ← mulVec_transpose, mulVec_mulVec, hc, zero_dotProduct]
    exact dotProduct_self_eq_zero.1 this

theorem det_iff (P : MParam) (hP : ∀ k, 1 ≤ k → 0 < (P.ab k).2) (hn : 0 < n) (p : ℕ) (lo hi : Fin n → ℝ) (h : ∀ k, lo k ≠ hi k)
    (y : Matrix (Fin K) (Fin n) ℝ) :
    ((vandermonde P p (rescale lo hi y))ᵀ * vandermonde P p (rescale lo hi y)).det ≠ 0 ↔ Det p y := by
  rw [gram_det]
  constructor
  · intro H q hq h0
    obtain ⟨c, hc⟩ := phi_span P hP hn p (bind₁ (aff (fun k => (hi k - lo k) / 2) (fun k => lo k + (hi k - lo k) / 2)) q)
      ((bind_degree _ (aff_degree _ _) _).trans hq)
    have hc0 : c = 0 := by
      refine H c ?_
      ext i
      rw [vand_mulVec P hn, ← hc, eval_bind, ← unscale_aff lo hi h, h0, Pi.zero_apply]
    rw [hc0] at hc
    simp only [Pi.zero_apply, zero_smul, Finset.sum_const_zero] at hc
    refine MvPolynomial.funext fun x => ?_
    have hx := congrArg (eval fun k => 2 * ((x k - lo k) / (hi k - lo k)) - 1) hc
    rw [eval_bind, map_zero] at hx
    rw [map_zero, ← hx]
    congr 1
    congr 1
    ext k
    have : hi k - lo k ≠ 0 := sub_ne_zero.2 (h k).symm
    simp only [aff, map_add, map_mul, eval_C, eval_X]
    field_simp
    ring
  · intro H c hc
    refine phi_indep P hP hn p c ?_
    have h1 := H (bind₁ (aff (fun k => 2 / (hi k - lo k)) (fun k => -(2 * lo k / (hi k - lo k)) - 1)) _)
      ((bind_degree _ (aff_degree _ _) _).trans (comb_degree P hP hn p c)) fun i => by
        rw [eval_bind, ← rescale_aff, ← vand_mulVec P hn, hc, Pi.zero_apply]
    refine MvPolynomial.funext fun x => ?_
    have hx := congrArg (eval fun k => lo k + (hi k - lo k) / 2 + (hi k - lo k) / 2 * x k) h1
    rw [eval_bind, map_zero] at hx
    rw [map_zero, ← hx]
    congr 1
    congr 1
    ext k
    have : hi k - lo k ≠ 0 := sub_ne_zero.2 (h k).symm
    simp only [aff, map_add, map_mul, eval_C, eval_X]
    field_simp
    ring

/-- With degree at least one, no projection is constant over the samples. -/
theorem det_spread [NeZero K] {p : ℕ} (hp : 1 ≤ p) {y : Matrix (Fin K) (Fin n) ℝ} (h : Det p y) (k : Fin n) : lows y k < highs y k := by
  by_contra hne
  have h1 : ∀ i, y i k = lows y k := fun i => by
    have h1 : lows y k ≤ y i k := Finset.inf'_le _ (Finset.mem_univ i)
    have h2 : y i k ≤ highs y k := Finset.le_sup' (fun i => y i k) (Finset.mem_univ i)
    linarith
  have h2 := h (X k - C (lows y k)) ((totalDegree_sub _ _).trans (max_le (by rw [totalDegree_X]; exact hp) (by rw [totalDegree_C]; omega)))
    fun i => by rw [map_sub, eval_X, eval_C, h1 i, sub_self]
  have h3 := congrArg (eval fun _ => lows y k + 1) h2
  rw [map_sub, eval_X, eval_C, map_zero] at h3
  linarith

/-- A linear change of coordinates. -/
noncomputable def lin (B : Matrix (Fin n) (Fin n) ℝ) (k : Fin n) : MvPolynomial (Fin n) ℝ := ∑ j, C (B j k) * X j

theorem lin_degree (B : Matrix (Fin n) (Fin n) ℝ) (k : Fin n) : (lin B k).totalDegree ≤ 1 := by
  refine totalDegree_finsetSum_le fun j _ => (totalDegree_mul _ _).trans ?_
  rw [totalDegree_C, totalDegree_X]

theorem eval_lin (B : Matrix (Fin n) (Fin n) ℝ) (y : Fin n → ℝ) : (fun k => eval y (lin B k)) = y ᵥ* B := by
  ext k
  simp [lin, vecMul, dotProduct, mul_comm]

theorem lin_range {p : ℕ} (y : Matrix (Fin K) (Fin n) ℝ) (B B' : Matrix (Fin n) (Fin n) ℝ) (hB : B * B' = 1) (v : Fin K → ℝ) :
    (∃ q : MvPolynomial (Fin n) ℝ, q.totalDegree ≤ p ∧ ∀ i, v i = eval ((y * B) i) q) ↔
      ∃ q : MvPolynomial (Fin n) ℝ, q.totalDegree ≤ p ∧ ∀ i, v i = eval (y i) q := by
  constructor
  · rintro ⟨q, hq, h⟩
    refine ⟨bind₁ (lin B) q, (bind_degree _ (lin_degree _) _).trans hq, fun i => ?_⟩
    rw [eval_bind, eval_lin, h]
    rfl
  · rintro ⟨q, hq, h⟩
    refine ⟨bind₁ (lin B') q, (bind_degree _ (lin_degree _) _).trans hq, fun i => ?_⟩
    rw [eval_bind, eval_lin, h]
    congr 1
    congr 1
    have : (y * B) i = y i ᵥ* B := rfl
    rw [this, vecMul_vecMul, hB, vecMul_one]

theorem det_lin {p : ℕ} {y : Matrix (Fin K) (Fin n) ℝ} (h : Det p y) (B B' : Matrix (Fin n) (Fin n) ℝ) (hB : B' * B = 1) : Det p (y * B) := by
  intro q hq h0
  have h1 := h (bind₁ (lin B) q) ((bind_degree _ (lin_degree _) _).trans hq) fun i => by
    rw [eval_bind, eval_lin]
    exact h0 i
  refine MvPolynomial.funext fun x => ?_
  have h2 := congrArg (eval (x ᵥ* B')) h1
  rwa [eval_bind, eval_lin, vecMul_vecMul, hB, vecMul_one] at h2

end EQ.Sub
