import Verif.Solver.RobustProps
import Verif.Solver.ElasticProps

/-!
# Robust and penalised fits: units of the outputs, order of the samples and of the basis (C236)
-/

namespace EQ.Solver
open Matrix

variable {N d : ℕ}

/-- The samples in the order `σ` and the basis in the order `τ`. -/
def turned (σ : Equiv.Perm (Fin N)) (τ : Equiv.Perm (Fin d)) (A : Mat N d) : Mat N d := fun i j => A (σ i) (τ j)

theorem turned_mulVec (σ : Equiv.Perm (Fin N)) (τ : Equiv.Perm (Fin d)) (A : Mat N d) (z : Vec d) (i : Fin N) :
    (turned σ τ A).mulVec (fun j => z (τ j)) i = A.mulVec z (σ i) :=
  Equiv.sum_comp τ fun j => A (σ i) j * z j

theorem turned_residual (σ : Equiv.Perm (Fin N)) (τ : Equiv.Perm (Fin d)) (A : Mat N d) (b b' : Vec N) (c : ℝ) (v z : Vec d)
    (hb : ∀ i, b' i = c * b (σ i) + ∑ k, A (σ i) k * v k) (i : Fin N) :
    (turned σ τ A).mulVec (fun j => c * z (τ j) + v (τ j)) i - b' i = c * (A.mulVec z (σ i) - b (σ i)) := by
  have h := turned_mulVec σ τ A (c • z + v) i
  rw [mulVec_add, mulVec_smul] at h
  have e : (fun j => c * z (τ j) + v (τ j)) = fun j => (c • z + v) (τ j) := rfl
  rw [e, h, hb]
  show c * A.mulVec z (σ i) + A.mulVec v (σ i) - (c * b (σ i) + A.mulVec v (σ i)) = _
  ring

theorem huberLoss_scale (M c t : ℝ) (hc : c ≠ 0) : huberLoss (|c| * M) (c * t) = c ^ 2 * huberLoss M t := by
  have h0 : 0 < |c| := abs_pos.2 hc
  have h2 : c ^ 2 = |c| ^ 2 := (sq_abs c).symm
  unfold huberLoss
  rw [abs_mul]
  by_cases h : |t| ≤ M
  · rw [if_pos h, if_pos (mul_le_mul_of_nonneg_left h h0.le)]
    ring
  · rw [if_neg h, if_neg fun h' => h (le_of_mul_le_mul_left h' h0), h2]
    ring

theorem huberTotal_turned (σ : Equiv.Perm (Fin N)) (τ : Equiv.Perm (Fin d)) (A : Mat N d) (b b' : Vec N) (c M : ℝ) (hc : c ≠ 0) (v z : Vec d)
    (hb : ∀ i, b' i = c * b (σ i) + ∑ k, A (σ i) k * v k) :
    huberTotal (|c| * M) (turned σ τ A) b' (fun j => c * z (τ j) + v (τ j)) = c ^ 2 * huberTotal M A b z := by
  unfold huberTotal
  rw [Finset.mul_sum, ← Equiv.sum_comp σ fun i => c ^ 2 * huberLoss M (A.mulVec z i - b i)]
  exact Finset.sum_congr rfl fun i _ => by rw [turned_residual σ τ A b b' c v z hb, huberLoss_scale _ _ _ hc]

theorem absRes_turned (σ : Equiv.Perm (Fin N)) (τ : Equiv.Perm (Fin d)) (A : Mat N d) (b b' : Vec N) (c : ℝ) (v z : Vec d)
    (hb : ∀ i, b' i = c * b (σ i) + ∑ k, A (σ i) k * v k) :
    absRes (turned σ τ A) b' (fun j => c * z (τ j) + v (τ j)) = |c| * absRes A b z := by
  unfold absRes
  rw [Finset.mul_sum, ← Equiv.sum_comp σ fun i => |c| * |A.mulVec z i - b i|]
  exact Finset.sum_congr rfl fun i _ => by rw [turned_residual σ τ A b b' c v z hb, abs_mul]

theorem turned_back (τ : Equiv.Perm (Fin d)) (c : ℝ) (hc : c ≠ 0) (v z : Vec d) :
    z = fun j => c * (fun j => (z (τ.symm j) - v j) / c) (τ j) + v (τ j) := by
  funext j
  simp only [Equiv.symm_apply_apply]
  field_simp
  ring

/-- **C236, Huber regression.** The samples are taken in another order, the basis in another order, and the outputs are multiplied by `c ≠ 0` and shifted by the values
of a polynomial of the basis (coefficients `v`); the threshold is multiplied by `|c|`. Then the coefficients `c x + v`, in the new order, minimise the new loss, where `x`
are the ones returned before; what is returned now has the same loss, and is equal to them if the minimiser is unique. -/
theorem c236_huber (qp : ℝ → Mat N d → Vec N → HuberPoint N d) (A : Mat N d) (b b' : Vec N) (M M' : Option ℝ) (hM : 0 ≤ M.getD 1)
    (σ : Equiv.Perm (Fin N)) (τ : Equiv.Perm (Fin d)) (c : ℝ) (hc : c ≠ 0) (v : Vec d) (hM' : M'.getD 1 = |c| * M.getD 1)
    (hb : ∀ i, b' i = c * b (σ i) + ∑ k, A (σ i) k * v k)
    (hqp : HuberOptimal (M.getD 1) A b (qp (M.getD 1) A b)) (hqp' : HuberOptimal (M'.getD 1) (turned σ τ A) b' (qp (M'.getD 1) (turned σ τ A) b')) (x x' : Vec d)
    (hx : huber qp A b false M .osqp = .ok x) (hx' : huber qp (turned σ τ A) b' false M' .osqp = .ok x') :
    let y : Vec d := fun j => c * x (τ j) + v (τ j)
    (∀ z, huberTotal (M'.getD 1) (turned σ τ A) b' y ≤ huberTotal (M'.getD 1) (turned σ τ A) b' z) ∧
    huberTotal (M'.getD 1) (turned σ τ A) b' x' = c ^ 2 * huberTotal (M.getD 1) A b x ∧
    ((∀ z, huberTotal (M'.getD 1) (turned σ τ A) b' z ≤ huberTotal (M'.getD 1) (turned σ τ A) b' y → z = y) → x' = y) := by
  intro y
  obtain ⟨w, hw, h1⟩ := c83_huber_partial qp A b false M (by simp) hM hqp
  obtain ⟨w', hw', h1'⟩ := c83_huber_partial qp (turned σ τ A) b' false M' (by simp) (by rw [hM']; positivity) hqp'
  rw [hx] at hw
  rw [hx'] at hw'
  cases hw
  cases hw'
  have e : ∀ z, huberTotal (M'.getD 1) (turned σ τ A) b' (fun j => c * z (τ j) + v (τ j)) = c ^ 2 * huberTotal (M.getD 1) A b z := fun z => by
    rw [hM']
    exact huberTotal_turned σ τ A b b' c _ hc v z hb
  have key : ∀ z, huberTotal (M'.getD 1) (turned σ τ A) b' y ≤ huberTotal (M'.getD 1) (turned σ τ A) b' z := fun z => by
    rw [turned_back τ c hc v z, e x, e fun j => (z (τ.symm j) - v j) / c]
    exact mul_le_mul_of_nonneg_left (h1 _) (sq_nonneg c)
  refine ⟨key, ?_, fun hu => hu x' (h1' y)⟩
  rw [← e x]
  exact le_antisymm (h1' y) (key x')

/-- **C236, least absolute residuals** with the default optimiser. The same; there is no threshold. -/
theorem c236_absolute (minimise : (Vec d → ℝ) → Vec d) (hmin : MinimiseContract minimise) (linprog : LP (N + N) (d + N) → Vec (d + N)) (A : Mat N d) (b b' : Vec N)
    (given : Option Optimiser) (hg : given = none ∨ given = some .osqp) (σ : Equiv.Perm (Fin N)) (τ : Equiv.Perm (Fin d)) (c : ℝ) (hc : c ≠ 0) (v : Vec d)
    (hb : ∀ i, b' i = c * b (σ i) + ∑ k, A (σ i) k * v k) (x x' : Vec d)
    (hx : lar minimise linprog A b (optimiser given true) = some x) (hx' : lar minimise linprog (turned σ τ A) b' (optimiser given true) = some x') :
    let y : Vec d := fun j => c * x (τ j) + v (τ j)
    (∀ z, absRes (turned σ τ A) b' y ≤ absRes (turned σ τ A) b' z) ∧ absRes (turned σ τ A) b' x' = |c| * absRes A b x ∧
    ((∀ z, absRes (turned σ τ A) b' z ≤ absRes (turned σ τ A) b' y → z = y) → x' = y) := by
  intro y
  obtain ⟨w, hw, h1⟩ := c48_default_partial minimise hmin linprog A b given hg
  obtain ⟨w', hw', h1'⟩ := c48_default_partial minimise hmin linprog (turned σ τ A) b' given hg
  rw [hx] at hw
  rw [hx'] at hw'
  cases hw
  cases hw'
  have e : ∀ z, absRes (turned σ τ A) b' (fun j => c * z (τ j) + v (τ j)) = |c| * absRes A b z := fun z => absRes_turned σ τ A b b' c v z hb
  have key : ∀ z, absRes (turned σ τ A) b' y ≤ absRes (turned σ τ A) b' z := fun z => by
    rw [turned_back τ c hc v z, e x, e fun j => (z (τ.symm j) - v j) / c]
    exact mul_le_mul_of_nonneg_left (h1 _) (abs_nonneg c)
  refine ⟨key, ?_, fun hu => hu x' (h1' y)⟩
  rw [← e x]
  exact le_antisymm (h1' y) (key x')

theorem elasticLoss_turned (σ : Equiv.Perm (Fin N)) (τ : Equiv.Perm (Fin d)) (A : Mat N d) (b b' : Vec N) (c l a l' a' : ℝ) (z : Vec d)
    (hb : ∀ i, b' i = c * b (σ i)) (h1 : l' * a' = |c| * (l * a)) (h2 : l' * (1 - a') = l * (1 - a)) :
    elasticLoss (turned σ τ A) b' l' a' (fun j => c * z (τ j)) = c ^ 2 * elasticLoss A b l a z := by
  have hr : ∀ i, (turned σ τ A).mulVec (fun j => c * z (τ j)) i - b' i = c * (A.mulVec z (σ i) - b (σ i)) := fun i => by
    have := turned_residual σ τ A b b' c 0 z (fun i => by simp [hb]) i
    simpa using this
  have s1 : sqRes (turned σ τ A) b' (fun j => c * z (τ j)) = c ^ 2 * sqRes A b z := by
    unfold sqRes
    rw [Finset.mul_sum, ← Equiv.sum_comp σ fun i => c ^ 2 * (A.mulVec z i - b i) ^ 2]
    exact Finset.sum_congr rfl fun i _ => by rw [hr]; ring
  have s2 : ∑ j, |c * z (τ j)| = |c| * ∑ j, |z j| := by
    rw [Finset.mul_sum, ← Equiv.sum_comp τ fun j => |c| * |z j|]
    exact Finset.sum_congr rfl fun j _ => abs_mul _ _
  have s3 : ∑ j, (c * z (τ j)) ^ 2 = c ^ 2 * ∑ j, z j ^ 2 := by
    rw [Finset.mul_sum, ← Equiv.sum_comp τ fun j => c ^ 2 * z j ^ 2]
    exact Finset.sum_congr rfl fun j _ => by ring
  unfold elasticLoss
  rw [s1, s2, s3]
  have : l' * (a' * (|c| * ∑ j, |z j|) + (1 - a') / 2 * (c ^ 2 * ∑ j, z j ^ 2)) =
      (l' * a') * (|c| * ∑ j, |z j|) + (l' * (1 - a')) / 2 * (c ^ 2 * ∑ j, z j ^ 2) := by ring
  rw [this, h1, h2, ← sq_abs c]
  ring

/-- **C236, elastic net.** The samples are taken in another order, the basis in another order, and the outputs multiplied by `c ≠ 0`; the weight of the absolute values,
`lamda alpha`, is multiplied by `|c|`, that of the squares, `lamda (1 - alpha)`, stays. Then the coefficients are multiplied by `c` and come in the new order. In
particular the order of samples and basis and the sign of the outputs do not matter, and for ridge regression no unit does. -/
theorem c236_elastic (minimise : (Vec d → ℝ) → Vec d) (hmin : MinimiseContract minimise) (A : Mat N d) (b b' : Vec N) (lamda alpha lamda' alpha' : Option ℝ)
    (l a l' a' : ℝ) (hl : l = lamda.getD 1) (ha : a = alpha.getD (1/2)) (hl' : l' = lamda'.getD 1) (ha' : a' = alpha'.getD (1/2))
    (hl0 : 0 < l) (ha0 : 0 ≤ a) (ha1 : a < 1) (hl0' : 0 < l') (ha0' : 0 ≤ a') (ha1' : a' < 1)
    (σ : Equiv.Perm (Fin N)) (τ : Equiv.Perm (Fin d)) (c : ℝ) (hc : c ≠ 0) (hb : ∀ i, b' i = c * b (σ i)) (h1 : l' * a' = |c| * (l * a)) (h2 : l' * (1 - a') = l * (1 - a))
    (x x' : Vec d) (hx : elasticNet minimise A b lamda alpha .osqp = .ok x) (hx' : elasticNet minimise (turned σ τ A) b' lamda' alpha' .osqp = .ok x') :
    ∀ j, x' j = c * x (τ j) := by
  obtain ⟨hm, -⟩ := elastic_returned minimise hmin A b lamda alpha l a hl ha hl0 ha0 ha1 x hx
  obtain ⟨-, hu⟩ := elastic_returned minimise hmin (turned σ τ A) b' lamda' alpha' l' a' hl' ha' hl0' ha0' ha1' x' hx'
  have : (fun j => c * x (τ j)) = x' := by
    refine hu _ fun w => ?_
    have hw : w = fun j => c * (fun j => w (τ.symm j) / c) (τ j) := by
      funext j
      simp only [Equiv.symm_apply_apply]
      field_simp
    rw [hw, elasticLoss_turned σ τ A b b' c l a l' a' x hb h1 h2, elasticLoss_turned σ τ A b b' c l a l' a' (fun j => w (τ.symm j) / c) hb h1 h2]
    exact mul_le_mul_of_nonneg_left (hm _) (sq_nonneg c)
  exact fun j => (congrFun this j).symm

/-- Outputs in other units: doubled outputs with the default arguments, `lamda = 1` and `alpha = 1/2`, correspond to `lamda = 3/2` and `alpha = 2/3`. -/
example : (0 : ℝ) < 3 / 2 ∧ (0 : ℝ) ≤ 2 / 3 ∧ (2 / 3 : ℝ) < 1 ∧ (3 / 2 * (2 / 3) : ℝ) = |2| * (1 * (1 / 2)) ∧ (3 / 2 * (1 - 2 / 3) : ℝ) = 1 * (1 - 1 / 2) := by
  norm_num

/-- Outputs shifted by a polynomial of the basis, samples in another order. -/
example : ∀ i : Fin 2, (![13, 5] : Vec 2) i = 2 * (![1, 5] : Vec 2) ((Equiv.swap 0 1) i) + ∑ k : Fin 1, (!![1; 1] : Mat 2 1) ((Equiv.swap 0 1) i) k * (![3] : Vec 1) k := by
  intro i
  fin_cases i <;> norm_num [Equiv.swap_apply_left, Equiv.swap_apply_right]

end EQ.Solver
