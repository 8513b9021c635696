import Verif.Solver.GradTurn

/-!
# Robust fits with few or no outliers (C239)
-/

namespace EQ.Solver
open Matrix

variable {N d : ℕ}

theorem leastSquares_orth {A : Mat N d} {b : Vec N} {y : Vec d} (hy : ∀ z, sqRes A b y ≤ sqRes A b z) (v : Vec d) :
    ∑ i, (A.mulVec y i - b i) * A.mulVec v i = 0 := by
  have : 2 * ∑ i, (A.mulVec y i - b i) * A.mulVec v i = 0 := by
    refine linear_zero_of_quadratic (q := ∑ i, A.mulVec v i ^ 2) fun t => ?_
    have := hy (y + t • v)
    rw [sqRes_step] at this
    linarith
  linarith

theorem huber_eq_of_le {M r t : ℝ} (hr : |r| < M) (h : huberLoss M t ≤ r * t - r ^ 2 / 2) : t = r := by
  unfold huberLoss at h
  by_cases ht : |t| ≤ M
  · rw [if_pos ht] at h
    have : (t - r) ^ 2 ≤ 0 := by nlinarith
    exact sub_eq_zero.1 (pow_eq_zero_iff two_ne_zero |>.1 (le_antisymm this (sq_nonneg _)))
  · rw [if_neg ht] at h
    exfalso
    have h1 : r * t ≤ |r| * |t| := by rw [← abs_mul]; exact le_abs_self _
    have h2 : r ^ 2 = |r| ^ 2 := (sq_abs r).symm
    have h3 : 0 < (M - |r|) * (|t| - (M + |r|) / 2) := mul_pos (by linarith) (by linarith)
    nlinarith

theorem huber_ge_at_leastSquares {A : Mat N d} {b : Vec N} {y : Vec d} (hy : ∀ z, sqRes A b y ≤ sqRes A b z) (z : Vec d) :
    ∑ i, ((A.mulVec y i - b i) * (A.mulVec z i - b i) - (A.mulVec y i - b i) ^ 2 / 2) = ∑ i, (A.mulVec y i - b i) ^ 2 / 2 := by
  have h := leastSquares_orth hy (z - y)
  rw [← sub_eq_zero, ← Finset.sum_sub_distrib, ← h]
  refine Finset.sum_congr rfl fun i _ => ?_
  rw [mulVec_sub, Pi.sub_apply]
  ring

/-- **C239, Huber without outliers.** If no residual of a least-squares fit `y` exceeds the threshold, `y` minimises the Huber loss, and the
loss of the returned coefficients is half the least sum of squares; if all residuals are below the threshold, the returned fit has the same
values as `y` at all samples, and is `y` itself if the samples determine the coefficients. Conversely a returned fit with no residual above
the threshold is a least-squares fit. -/
theorem c239_huber (qp : ℝ → Mat N d → Vec N → HuberPoint N d) (A : Mat N d) (b : Vec N) (verbose : Bool) (M : Option ℝ) (hM : 0 ≤ M.getD 1)
    (hqp : HuberOptimal (M.getD 1) A b (qp (M.getD 1) A b)) (x : Vec d) (hx : huber qp A b verbose M .osqp = .ok x) :
    (∀ y, (∀ z, sqRes A b y ≤ sqRes A b z) → (∀ i, |∑ k, A i k * y k - b i| ≤ M.getD 1) →
      (∀ z, huberTotal (M.getD 1) A b y ≤ huberTotal (M.getD 1) A b z) ∧ huberTotal (M.getD 1) A b x = sqRes A b y / 2 ∧
      ((∀ i, |∑ k, A i k * y k - b i| < M.getD 1) → A.mulVec x = A.mulVec y ∧ ((∀ v, A.mulVec v = 0 → v = 0) → x = y))) ∧
    ((∀ i, |∑ k, A i k * x k - b i| ≤ M.getD 1) → ∀ z, sqRes A b x ≤ sqRes A b z) := by
  have hv : verbose = true → M ≠ none := by
    intro h1 h2
    unfold huber at hx
    rw [if_pos ⟨h1, h2⟩] at hx
    cases hx
  obtain ⟨w, hw, hmin⟩ := c83_huber_partial qp A b verbose M hv hM hqp
  rw [hx] at hw
  cases hw
  refine ⟨fun y hy hr => ?_, fun hr z => ?_⟩
  · change ∀ i, |A.mulVec y i - b i| ≤ M.getD 1 at hr
    have hval : huberTotal (M.getD 1) A b y = ∑ i, (A.mulVec y i - b i) ^ 2 / 2 :=
      Finset.sum_congr rfl fun i _ => by unfold huberLoss; rw [if_pos (hr i)]
    have hge : ∀ z i, (A.mulVec y i - b i) * (A.mulVec z i - b i) - (A.mulVec y i - b i) ^ 2 / 2 ≤ huberLoss (M.getD 1) (A.mulVec z i - b i) :=
      fun z i => huber_ge (hr i) _
    have hopt : ∀ z, huberTotal (M.getD 1) A b y ≤ huberTotal (M.getD 1) A b z := fun z => by
      rw [hval, ← huber_ge_at_leastSquares hy z]
      exact Finset.sum_le_sum fun i _ => hge z i
    have heq : huberTotal (M.getD 1) A b x = huberTotal (M.getD 1) A b y := le_antisymm (hmin y) (hopt x)
    refine ⟨hopt, ?_, fun hs => ?_⟩
    · rw [heq, hval]
      unfold sqRes
      rw [Finset.sum_div]
    · have hall : ∀ i, huberLoss (M.getD 1) (A.mulVec x i - b i) = (A.mulVec y i - b i) * (A.mulVec x i - b i) - (A.mulVec y i - b i) ^ 2 / 2 := by
        have e : ∑ i, ((A.mulVec y i - b i) * (A.mulVec x i - b i) - (A.mulVec y i - b i) ^ 2 / 2) = ∑ i, huberLoss (M.getD 1) (A.mulVec x i - b i) := by
          rw [huber_ge_at_leastSquares hy x, ← hval, ← heq]
          rfl
        have := (Finset.sum_eq_sum_iff_of_le fun i _ => hge x i).1 e
        exact fun i => (this i (Finset.mem_univ i)).symm
      have hfit : A.mulVec x = A.mulVec y := by
        funext i
        have := huber_eq_of_le (hs i) (hall i).le
        change A.mulVec x i - b i = A.mulVec y i - b i at this
        linarith
      exact ⟨hfit, fun hinj => sub_eq_zero.1 (hinj _ (by rw [mulVec_sub, hfit, sub_self]))⟩
  · change ∀ i, |A.mulVec x i - b i| ≤ M.getD 1 at hr
    have hs := huber_stationary hM A b x hmin z
    have hs' : 0 ≤ ∑ i, (A.mulVec x i - b i) * (A.mulVec z i - A.mulVec x i) := by
      refine hs.trans (le_of_eq (Finset.sum_congr rfl fun i _ => ?_))
      rw [clip_mid (hr i)]
    have e : sqRes A b z - sqRes A b x = 2 * (∑ i, (A.mulVec x i - b i) * (A.mulVec z i - A.mulVec x i)) + ∑ i, (A.mulVec z i - A.mulVec x i) ^ 2 := by
      unfold sqRes
      rw [← Finset.sum_sub_distrib, Finset.mul_sum, ← Finset.sum_add_distrib]
      exact Finset.sum_congr rfl fun i _ => by ring
    have : 0 ≤ ∑ i, (A.mulVec z i - A.mulVec x i) ^ 2 := Finset.sum_nonneg fun i _ => sq_nonneg _
    linarith

/-- **C239, least absolute residuals with some wrong outputs.** The outputs are those of a polynomial with coefficients `y` except at the samples
`S`, where they are arbitrary. If every other polynomial of the basis has more than half of its sum of absolute values outside `S`, exactly
`y` is returned, however wrong the outputs in `S` are. -/
theorem c239_absolute (minimise : (Vec d → ℝ) → Vec d) (hmin : MinimiseContract minimise) (linprog : LP (N + N) (d + N) → Vec (d + N)) (A : Mat N d) (b : Vec N)
    (given : Option Optimiser) (hg : given = none ∨ given = some .osqp) (S : Finset (Fin N)) (y : Vec d) (hb : ∀ i, i ∉ S → b i = ∑ k, A i k * y k)
    (hS : ∀ v : Vec d, v ≠ 0 → ∑ i ∈ S, |∑ k, A i k * v k| < ∑ i ∈ Sᶜ, |∑ k, A i k * v k|) :
    lar minimise linprog A b (optimiser given true) = some y := by
  obtain ⟨x, hx, h1⟩ := c48_default_partial minimise hmin linprog A b given hg
  rw [hx]
  congr 1
  by_contra hne
  have hv := hS (x - y) (sub_ne_zero.2 hne)
  change ∑ i ∈ S, |A.mulVec (x - y) i| < ∑ i ∈ Sᶜ, |A.mulVec (x - y) i| at hv
  have h := h1 y
  have split : ∀ z, absRes A b z = ∑ i ∈ S, |A.mulVec z i - b i| + ∑ i ∈ Sᶜ, |A.mulVec z i - b i| := fun z =>
    (Finset.sum_add_sum_compl S fun i => |A.mulVec z i - b i|).symm
  have hbc : ∀ i ∈ Sᶜ, b i = A.mulVec y i := fun i hi => hb i (Finset.mem_compl.1 hi)
  have e1 : ∑ i ∈ Sᶜ, |A.mulVec y i - b i| = 0 := Finset.sum_eq_zero fun i hi => by rw [hbc i hi, sub_self, abs_zero]
  have e2 : ∑ i ∈ Sᶜ, |A.mulVec x i - b i| = ∑ i ∈ Sᶜ, |A.mulVec (x - y) i| :=
    Finset.sum_congr rfl fun i hi => by rw [hbc i hi, mulVec_sub, Pi.sub_apply]
  have e3 : ∑ i ∈ S, |A.mulVec y i - b i| ≤ ∑ i ∈ S, |A.mulVec x i - b i| + ∑ i ∈ S, |A.mulVec (x - y) i| := by
    rw [← Finset.sum_add_distrib]
    refine Finset.sum_le_sum fun i _ => ?_
    rw [mulVec_sub, Pi.sub_apply]
    have := abs_sub (A.mulVec x i - b i) (A.mulVec x i - A.mulVec y i)
    rwa [show A.mulVec x i - b i - (A.mulVec x i - A.mulVec y i) = A.mulVec y i - b i by ring] at this
  rw [split, split, e1, e2] at h
  linarith

/-- A constant fitted to five outputs, two of which are wrong. -/
example : ∀ v : Vec 1, v ≠ 0 → ∑ i ∈ ({1, 4} : Finset (Fin 5)), |∑ k, (fun _ _ => 1 : Mat 5 1) i k * v k| <
    ∑ i ∈ ({1, 4} : Finset (Fin 5))ᶜ, |∑ k, (fun _ _ => 1 : Mat 5 1) i k * v k| := by
  intro v hv
  have h0 : 0 < |v 0| := abs_pos.2 fun h => hv (funext fun j => by fin_cases j; exact h)
  have hc : (({1, 4} : Finset (Fin 5))ᶜ).card = 3 := by decide
  have hc' : ({1, 4} : Finset (Fin 5)).card = 2 := by decide
  simp only [Fin.sum_univ_one, one_mul, Finset.sum_const, hc, hc', nsmul_eq_mul]
  norm_num
  linarith

/-- The mean `2` of the outputs `1`, `3` with threshold `3/2`. -/
example : (∀ z, sqRes (!![1; 1] : Mat 2 1) ![1, 3] ![2] ≤ sqRes (!![1; 1] : Mat 2 1) ![1, 3] z) ∧
    ∀ i, |∑ k, (!![1; 1] : Mat 2 1) i k * (![2] : Vec 1) k - (![1, 3] : Vec 2) i| < 3 / 2 := by
  constructor
  · intro z
    simp only [sqRes, Fin.sum_univ_two, mulVec, dotProduct, Fin.sum_univ_one]
    norm_num
    nlinarith [sq_nonneg (z 0 - 2)]
  · intro i
    fin_cases i <;> norm_num [abs_lt]

end EQ.Solver
