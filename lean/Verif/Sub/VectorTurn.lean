import Verif.Sub.ActiveProps

/-!
# Vector-valued active subspaces: combinations of the outputs, order and repetition of the samples (C241)
-/

namespace EQ.Sub
open Matrix EQ.Basis

variable {m m' d N N' : ℕ}

theorem vectorCovariance_eq {R S : Matrix (Fin m) (Fin m) ℝ} (hS : SqrtmOK R S) (g : Fin m → Matrix (Fin d) (Fin N) ℝ) (a b : Fin d) :
    vectorCovariance S (jacobianVec g) a b =
      (∑ k, ((Matrix.of fun p i => g p i k)ᵀ * R * (Matrix.of fun p i => g p i k)) a b) / N := by
  unfold vectorCovariance jacobianVec
  simp only
  congr 1
  refine Finset.sum_congr rfl fun k _ => ?_
  rw [transpose_mul, Matrix.mul_assoc, ← Matrix.mul_assoc Sᵀ, hS.1, hS.2, ← Matrix.mul_assoc]

/-- Every element of `Fin N` is met `r` times: sums are multiplied by `r`. -/
theorem sum_repeated (σ : Fin N' → Fin N) (r : ℕ) (hσ : ∀ k, (Finset.univ.filter fun k' => σ k' = k).card = r) (f : Fin N → ℝ) :
    ∑ k', f (σ k') = r * ∑ k, f k := by
  rw [← Finset.sum_fiberwise Finset.univ σ fun k' => f (σ k'), Finset.mul_sum]
  refine Finset.sum_congr rfl fun k _ => ?_
  rw [Finset.sum_congr rfl fun k' hk' => by rw [(Finset.mem_filter.1 hk').2], Finset.sum_const, hσ, nsmul_eq_mul]

/-- **C241, other outputs and samples.** The outputs are replaced by combinations `G` of them, with weights `R'` such that `Gᵀ R' G = R`, and
the samples are taken in any order, each of them equally often. Then the eigenvalues and directions returned are the same. -/
theorem c241_combined (eigh : Matrix (Fin d) (Fin d) ℝ → (Fin d → ℝ) × Matrix (Fin d) (Fin d) ℝ)
    (sqrtm : Matrix (Fin m) (Fin m) ℝ → Matrix (Fin m) (Fin m) ℝ) (sqrtm' : Matrix (Fin m') (Fin m') ℝ → Matrix (Fin m') (Fin m') ℝ)
    (R : Matrix (Fin m) (Fin m) ℝ) (R' : Matrix (Fin m') (Fin m') ℝ) (hS : SqrtmOK R (sqrtm R)) (hS' : SqrtmOK R' (sqrtm' R'))
    (G : Matrix (Fin m') (Fin m) ℝ) (hG : Gᵀ * R' * G = R) (σ : Fin N' → Fin N) (r : ℕ) (hr : 0 < r)
    (hσ : ∀ k, (Finset.univ.filter fun k' => σ k' = k).card = r)
    (g : Fin m → Matrix (Fin d) (Fin N) ℝ) (g' : Fin m' → Matrix (Fin d) (Fin N') ℝ) (hg : ∀ p i k, g' p i k = ∑ q, G p q * g q i (σ k)) :
    vectorAS eigh sqrtm' (some R') (some g') = vectorAS eigh sqrtm (some R) (some g) := by
  have hr' : (0 : ℝ) < r := Nat.cast_pos.2 hr
  have hN : (N' : ℝ) = r * N := by
    have := sum_repeated σ r hσ fun _ => 1
    simpa using this
  have key : vectorCovariance (sqrtm' R') (jacobianVec g') = vectorCovariance (sqrtm R) (jacobianVec g) := by
    ext a b
    rw [vectorCovariance_eq hS', vectorCovariance_eq hS]
    have e : ∀ k', ((Matrix.of fun p i => g' p i k')ᵀ * R' * (Matrix.of fun p i => g' p i k')) a b =
        ((Matrix.of fun p i => g p i (σ k'))ᵀ * R * (Matrix.of fun p i => g p i (σ k'))) a b := by
      intro k'
      have : (Matrix.of fun p i => g' p i k') = G * Matrix.of fun p i => g p i (σ k') := by
        ext p i
        rw [Matrix.of_apply, hg, Matrix.mul_apply]
        rfl
      rw [this, ← hG, transpose_mul]
      simp only [Matrix.mul_assoc]
    simp only [e]
    rw [sum_repeated σ r hσ fun k => ((Matrix.of fun p i => g p i k)ᵀ * R * (Matrix.of fun p i => g p i k)) a b, hN,
      mul_div_mul_left _ _ hr'.ne']
  unfold vectorAS
  simp only [Option.getD_some, key]

/-- **C241, order and units of the outputs.** Renumbering the outputs together with their weights changes nothing, nor do other units of the
outputs if the weights are divided by the products of the factors, nor the order of the samples. -/
theorem c241_units (eigh : Matrix (Fin d) (Fin d) ℝ → (Fin d → ℝ) × Matrix (Fin d) (Fin d) ℝ)
    (sqrtm : Matrix (Fin m) (Fin m) ℝ → Matrix (Fin m) (Fin m) ℝ) (R R' : Matrix (Fin m) (Fin m) ℝ) (hS : SqrtmOK R (sqrtm R))
    (hS' : SqrtmOK R' (sqrtm R')) (π : Equiv.Perm (Fin m)) (c : Fin m → ℝ) (hR : ∀ p q, c p * c q * R' p q = R (π p) (π q))
    (σ : Equiv.Perm (Fin N)) (g g' : Fin m → Matrix (Fin d) (Fin N) ℝ) (hg : ∀ p i k, g' p i k = c p * g (π p) i (σ k)) :
    vectorAS eigh sqrtm (some R') (some g') = vectorAS eigh sqrtm (some R) (some g) := by
  refine c241_combined eigh sqrtm sqrtm R R' hS hS' (Matrix.of fun p q => if π p = q then c p else 0) ?_ σ 1 one_pos ?_ g g' ?_
  · ext a b
    obtain ⟨a, rfl⟩ := π.surjective a
    obtain ⟨b, rfl⟩ := π.surjective b
    simp only [Matrix.mul_apply, Matrix.transpose_apply, Matrix.of_apply, EmbeddingLike.apply_eq_iff_eq, ite_mul, mul_ite, zero_mul, mul_zero,
      Finset.sum_ite_eq', Finset.mem_univ, if_true]
    rw [← hR]
    ring
  · intro k
    rw [Finset.card_eq_one]
    refine ⟨σ.symm k, ?_⟩
    ext k'
    simp [Equiv.eq_symm_apply]
  · intro p i k
    simp [hg]

/-- **C241, an output without weight.** An output whose weights are all zero can be left out. -/
theorem c241_unweighted (eigh : Matrix (Fin d) (Fin d) ℝ → (Fin d → ℝ) × Matrix (Fin d) (Fin d) ℝ)
    (sqrtm : Matrix (Fin m) (Fin m) ℝ → Matrix (Fin m) (Fin m) ℝ) (sqrtm' : Matrix (Fin (m+1)) (Fin (m+1)) ℝ → Matrix (Fin (m+1)) (Fin (m+1)) ℝ)
    (R : Matrix (Fin m) (Fin m) ℝ) (R' : Matrix (Fin (m+1)) (Fin (m+1)) ℝ) (hS : SqrtmOK R (sqrtm R)) (hS' : SqrtmOK R' (sqrtm' R'))
    (o : Fin (m+1)) (h0 : ∀ p, R' o p = 0 ∧ R' p o = 0) (hR : ∀ p q, R' (o.succAbove p) (o.succAbove q) = R p q)
    (g : Fin (m+1) → Matrix (Fin d) (Fin N) ℝ) :
    vectorAS eigh sqrtm' (some R') (some g) = vectorAS eigh sqrtm (some R) (some fun p => g (o.succAbove p)) := by
  have key : vectorCovariance (sqrtm' R') (jacobianVec g) = vectorCovariance (sqrtm R) (jacobianVec fun p => g (o.succAbove p)) := by
    ext a b
    rw [vectorCovariance_eq hS', vectorCovariance_eq hS]
    congr 1
    refine Finset.sum_congr rfl fun k _ => ?_
    simp only [Matrix.mul_apply, Matrix.transpose_apply, Matrix.of_apply]
    rw [Fin.sum_univ_succAbove _ o]
    simp only [(h0 _).2, mul_zero, Finset.sum_const_zero, zero_mul, zero_add]
    refine Finset.sum_congr rfl fun q _ => ?_
    rw [Fin.sum_univ_succAbove _ o]
    simp only [(h0 _).1, mul_zero, zero_add, hR]
  unfold vectorAS
  simp only [Option.getD_some, key]

/-- Two outputs turned by the angle with cosine `3/5`, unit weights. -/
example : (Matrix.of ![![(3/5 : ℝ), -4/5], ![4/5, 3/5]])ᵀ * 1 * Matrix.of ![![(3/5 : ℝ), -4/5], ![4/5, 3/5]] = 1 := by
  ext i j
  fin_cases i <;> fin_cases j <;> simp [Matrix.mul_apply, Fin.sum_univ_two] <;> norm_num

/-- Outputs exchanged and the first multiplied by two, weights `4` and `9`. -/
example : ∀ p q, (![2, 1] : Fin 2 → ℝ) p * (![2, 1] : Fin 2 → ℝ) q * (Matrix.of ![![(9/4 : ℝ), 0], ![0, 4]]) p q =
    (Matrix.of ![![(4 : ℝ), 0], ![0, 9]]) (Equiv.swap 0 1 p) (Equiv.swap 0 1 q) := by
  intro p q
  fin_cases p <;> fin_cases q <;> norm_num

/-- Two samples, each taken twice. -/
example : ∀ k : Fin 2, (Finset.univ.filter fun k' : Fin 4 => (![0, 1, 1, 0] : Fin 4 → Fin 2) k' = k).card = 2 := by decide

end EQ.Sub
