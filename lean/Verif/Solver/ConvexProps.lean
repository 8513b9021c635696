import Verif.Solver.LinProps
import Mathlib.Topology.Order.Compact
import Mathlib.Analysis.Normed.Group.Bounded
import Mathlib.Analysis.Normed.Lp.PiLp
import Mathlib.Topology.MetricSpace.ProperSpace.Lemmas

/-!
# Least absolute residual, Huber and elastic net (C48, C83, C84)
-/

namespace EQ.Solver
open Matrix EQ.Basis

variable {N d : ℕ}

/-! ## C48 -/

/-- A point satisfies the constraints of a linear program and the default bounds `x ≥ 0`. -/
def LP.Feasible {k n : ℕ} (p : LP k n) (x : Vec n) : Prop :=
  (∀ i, p.Aub.mulVec x i ≤ p.bub i) ∧ ∀ j, 0 ≤ x j

/-- What is assumed of `linprog` with the default bounds: the answer is an optimal point. -/
def LP.Optimal {k n : ℕ} (p : LP k n) (x : Vec n) : Prop :=
  p.Feasible x ∧ ∀ y, p.Feasible y → p.c ⬝ᵥ x ≤ p.c ⬝ᵥ y

/-- Sum of the absolute residuals. -/
def absRes (A : Mat N d) (b : Vec N) (x : Vec d) : ℝ := ∑ i, |A.mulVec x i - b i|

/-- The coefficients of a point of the program. -/
def coefPart (y : Vec (d + N)) : Vec d := fun j => y (Fin.castAdd N j)

theorem lar_feasible (A : Mat N d) (b : Vec N) (y : Vec (d + N)) :
    (larLP A b).Feasible y ↔ (∀ i, |A.mulVec (coefPart y) i - b i| ≤ y (Fin.natAdd d i)) ∧
      ∀ j, 0 ≤ y j := by
  unfold LP.Feasible
  rw [and_congr_left_iff]
  intro _
  have hrow1 : ∀ a : Fin N, (larLP A b).Aub.mulVec y (Fin.castAdd N a) =
      A.mulVec (coefPart y) a - y (Fin.natAdd d a) := by
    intro a
    simp only [mulVec, dotProduct, Fin.sum_univ_add, larLP, Fin.addCases_left, Fin.addCases_right,
      ite_mul, neg_one_mul, zero_mul, Finset.sum_ite_eq, Finset.mem_univ, if_true]
    rfl
  have hrow2 : ∀ a : Fin N, (larLP A b).Aub.mulVec y (Fin.natAdd N a) =
      -A.mulVec (coefPart y) a - y (Fin.natAdd d a) := by
    intro a
    simp only [mulVec, dotProduct, Fin.sum_univ_add, larLP, Fin.addCases_left, Fin.addCases_right,
      ite_mul, zero_mul, Finset.sum_ite_eq, Finset.mem_univ, if_true, neg_mul,
      Finset.sum_neg_distrib]
    rw [one_mul, ← sub_eq_add_neg]
    rfl
  have hb1 : ∀ a : Fin N, (larLP A b).bub (Fin.castAdd N a) = b a := fun a => by simp [larLP]
  have hb2 : ∀ a : Fin N, (larLP A b).bub (Fin.natAdd N a) = -b a := fun a => by
    simp only [larLP, Fin.addCases_right]
  constructor
  · intro h i
    have h1 := h (Fin.castAdd N i)
    have h2 := h (Fin.natAdd N i)
    rw [hrow1, hb1] at h1
    rw [hrow2, hb2] at h2
    exact abs_le.2 ⟨by linarith, by linarith⟩
  · intro h i
    refine Fin.addCases (fun a => ?_) (fun a => ?_) i
    · rw [hrow1, hb1]; have := abs_le.1 (h a); linarith
    · rw [hrow2, hb2]; have := abs_le.1 (h a); linarith

theorem lar_cost (A : Mat N d) (b : Vec N) (y : Vec (d + N)) :
    (larLP A b).c ⬝ᵥ y = ∑ i, y (Fin.natAdd d i) := by
  simp [dotProduct, Fin.sum_univ_add, larLP]

/-- The point of the program belonging to given coefficients. -/
def larPoint (A : Mat N d) (b : Vec N) (z : Vec d) : Vec (d + N) :=
  Fin.addCases z fun i => |A.mulVec z i - b i|

theorem coefPart_larPoint (A : Mat N d) (b : Vec N) (z : Vec d) : coefPart (larPoint A b z) = z := by
  funext j; simp [coefPart, larPoint]

theorem larPoint_feasible (A : Mat N d) (b : Vec N) (z : Vec d) (hz : ∀ j, 0 ≤ z j) :
    (larLP A b).Feasible (larPoint A b z) := by
  rw [lar_feasible, coefPart_larPoint]
  refine ⟨fun i => by simp [larPoint], fun j => ?_⟩
  refine Fin.addCases (fun a => ?_) (fun a => ?_) j
  · simpa [larPoint] using hz a
  · simp [larPoint]

/-- C48, the part that holds, for the `scipy` back end: the coefficients returned are non-negative
and minimise the sum of absolute residuals among all non-negative coefficient vectors. Missing:
coefficient vectors with negative entries, which the default bounds of `linprog` exclude
(`c48_least_absolute_violated`). -/
theorem c48_least_absolute_partial (linprog : LP (N + N) (d + N) → Vec (d + N))
    (A : Mat N d) (b : Vec N) (hlp : (larLP A b).Optimal (linprog (larLP A b))) :
    (∀ j, 0 ≤ leastAbsoluteResidual linprog A b j) ∧
    ∀ z, (∀ j, 0 ≤ z j) → absRes A b (leastAbsoluteResidual linprog A b) ≤ absRes A b z := by
  obtain ⟨hf, ho⟩ := hlp
  have hx : leastAbsoluteResidual linprog A b = coefPart (linprog (larLP A b)) := rfl
  rw [lar_feasible] at hf
  rw [hx]
  refine ⟨fun j => hf.2 _, fun z hz => ?_⟩
  have h1 := ho _ (larPoint_feasible A b z hz)
  rw [lar_cost, lar_cost] at h1
  have h2 : absRes A b (coefPart (linprog (larLP A b))) ≤
      ∑ i, linprog (larLP A b) (Fin.natAdd d i) := Finset.sum_le_sum fun i _ => hf.1 i
  refine h2.trans (h1.trans_eq ?_)
  refine Finset.sum_congr rfl fun i _ => by simp [larPoint]

/-- What is assumed of `cvxpy`: a function that has a minimum is minimised. -/
def MinimiseContract (minimise : (Vec d → ℝ) → Vec d) : Prop :=
  ∀ f : Vec d → ℝ, (∃ x, ∀ z, f x ≤ f z) → ∀ z, f (minimise f) ≤ f z

/-- The sum of absolute residuals has a minimum, whatever the matrix. -/
theorem absRes_min (A : Mat N d) (b : Vec N) : ∃ x, ∀ z, absRes A b x ≤ absRes A b z := by
  let S := LinearMap.range A.mulVecLin
  let g : S → ℝ := fun y => ∑ i, |(y : Vec N) i - b i|
  have hg : Continuous g := continuous_finset_sum _ fun i _ =>
    (((continuous_apply i).comp continuous_subtype_val).sub continuous_const).abs
  obtain ⟨y, hy⟩ := hg.exists_forall_le (by
    rw [← Metric.cobounded_eq_cocompact]
    refine Filter.tendsto_atTop.2 fun B => ?_
    have hset : (Metric.closedBall (0 : S) (B + ∑ i, |b i|))ᶜ ∈ Bornology.cobounded S :=
      Bornology.isBounded_def.1 Metric.isBounded_closedBall
    filter_upwards [hset] with z hz
    simp only [Set.mem_compl_iff, Metric.mem_closedBall, dist_zero_right, not_le] at hz
    have h1 : ‖z‖ ≤ ∑ i, |(z : Vec N) i| := by
      rw [← Submodule.norm_coe, pi_norm_le_iff_of_nonneg (Finset.sum_nonneg fun _ _ => abs_nonneg _)]
      exact fun i => Finset.single_le_sum (f := fun j => |(z : Vec N) j|) (fun j _ => abs_nonneg _) (Finset.mem_univ i)
    have h2 : ∑ i, |(z : Vec N) i| ≤ g z + ∑ i, |b i| := by
      simp only [g]
      rw [← Finset.sum_add_distrib]
      refine Finset.sum_le_sum fun i _ => ?_
      have := abs_add_le ((z : Vec N) i - b i) (b i)
      rwa [sub_add_cancel] at this
    linarith)
  obtain ⟨x, hx⟩ := y.2
  refine ⟨x, fun z => ?_⟩
  have h := hy ⟨A.mulVecLin z, LinearMap.mem_range_self _ z⟩
  simp only [g, ← hx, mulVecLin_apply] at h
  exact h

/-- C48, the part that holds with `cvxpy` installed and no other optimiser asked for: for every matrix and right-hand side the coefficients
minimise the sum of the absolute residuals over all coefficient vectors. -/
theorem c48_default_partial (minimise : (Vec d → ℝ) → Vec d) (hmin : MinimiseContract minimise)
    (linprog : LP (N + N) (d + N) → Vec (d + N)) (A : Mat N d) (b : Vec N) (given : Option Optimiser)
    (hg : given = none ∨ given = some .osqp) :
    ∃ x, lar minimise linprog A b (optimiser given true) = some x ∧ ∀ z, absRes A b x ≤ absRes A b z := by
  refine ⟨minimise (larObjective A b), ?_, hmin (larObjective A b) (absRes_min A b)⟩
  rcases hg with rfl | rfl <;> rfl

/-- Without `cvxpy` the linear program of `c48_least_absolute_partial` is used. -/
theorem c48_without_cvxpy_partial (minimise : (Vec d → ℝ) → Vec d) (linprog : LP (N + N) (d + N) → Vec (d + N)) (A : Mat N d) (b : Vec N)
    (hlp : (larLP A b).Optimal (linprog (larLP A b))) (given : Option Optimiser) (hg : given ≠ some .other) :
    ∃ x, lar minimise linprog A b (optimiser given false) = some x ∧ (∀ j, 0 ≤ x j) ∧
      ∀ z, (∀ j, 0 ≤ z j) → absRes A b x ≤ absRes A b z := by
  refine ⟨leastAbsoluteResidual linprog A b, ?_, c48_least_absolute_partial linprog A b hlp⟩
  rcases given with _ | (_ | _ | _)
  · rfl
  · rfl
  · rfl
  · exact absurd rfl hg

/-- C48, violated as stated: for the single equation `x = -1` the solver without `cvxpy` returns `0`, with absolute
residual `1`, although `x = -1` has residual `0`. -/
theorem c48_least_absolute_violated (minimise : (Vec 1 → ℝ) → Vec 1) (linprog : LP (1 + 1) (1 + 1) → Vec (1 + 1))
    (hlp : (larLP (!![1] : Mat 1 1) ![-1]).Optimal (linprog (larLP !![1] ![-1]))) :
    lar minimise linprog (!![1] : Mat 1 1) ![-1] (optimiser none false) = some ![0] ∧
    absRes (!![1] : Mat 1 1) ![-1] ![-1] < absRes (!![1] : Mat 1 1) ![-1] ![0] := by
  obtain ⟨h0, h1⟩ := c48_least_absolute_partial linprog (!![1] : Mat 1 1) ![-1] hlp
  have hab : ∀ z : Vec 1, absRes (!![1] : Mat 1 1) ![-1] z = |z 0 + 1| := by
    intro z; simp [absRes, mulVec, dotProduct]
  refine ⟨?_, ?_⟩
  · have h2 := h1 ![0] (by simp)
    rw [hab, hab] at h2
    have h3 := h0 0
    rw [abs_of_nonneg (by linarith)] at h2
    simp at h2
    show some _ = some _
    congr 1
    ext i; fin_cases i
    show _ = (0 : ℝ)
    exact le_antisymm (by simpa using h2) h3
  · rw [hab, hab]; simp

/-- The contract of `cvxpy` can be met. -/
example : ∃ m : (Vec d → ℝ) → Vec d, MinimiseContract m := by
  classical
  refine ⟨fun f => if h : ∃ x, ∀ z, f x ≤ f z then h.choose else 0, fun f h => ?_⟩
  simp only [dif_pos h]
  exact h.choose_spec

/-- The program has an optimal point: `x = 2` for the single equation `x = 2`. -/
example : (larLP (!![1] : Mat 1 1) ![2]).Optimal (larPoint !![1] ![2] ![2]) := by
  refine ⟨larPoint_feasible _ _ _ (by simp), fun y hy => ?_⟩
  rw [lar_cost, lar_cost]
  rw [lar_feasible] at hy
  have : ∀ i, (larPoint (!![1] : Mat 1 1) ![2] ![2]) (Fin.natAdd 1 i) = 0 := by
    intro i; simp only [larPoint, Fin.addCases_right]; fin_cases i; simp [mulVec, dotProduct]
  simp only [this]
  rw [Finset.sum_const_zero]
  exact Finset.sum_nonneg fun i _ => hy.2 _

/-! ## C83 -/

/-- The Huber loss of one residual with threshold `M`. -/
noncomputable def huberLoss (M t : ℝ) : ℝ := if |t| ≤ M then t ^ 2 / 2 else M * |t| - M ^ 2 / 2

/-- Total Huber loss. -/
noncomputable def huberTotal (M : ℝ) (A : Mat N d) (b : Vec N) (x : Vec d) : ℝ :=
  ∑ i, huberLoss M (A.mulVec x i - b i)

/-- What is assumed of `cvxpy` for the quadratic program of `huber`. -/
def HuberOptimal (M : ℝ) (A : Mat N d) (b : Vec N) (p : HuberPoint N d) : Prop :=
  p.feasible A b ∧ ∀ q : HuberPoint N d, q.feasible A b → p.objective M ≤ q.objective M

theorem huber_lower {M z r s : ℝ} (hM : 0 ≤ M) (hr : 0 ≤ r) (hs : 0 ≤ s) :
    huberLoss M (z + (r - s)) ≤ 0.5 * z ^ 2 + M * (r + s) := by
  unfold huberLoss
  have habs : |r - s| ≤ r + s := by rw [abs_le]; constructor <;> linarith
  split_ifs with h
  · rw [abs_le] at h
    nlinarith [sq_nonneg (z + (r - s) - z), mul_nonneg hM hr, mul_nonneg hM hs, mul_nonneg hr hs,
      sq_nonneg (r - s), mul_nonneg hr (sub_nonneg.2 h.2), mul_nonneg hs (sub_nonneg.2 h.2),
      mul_nonneg hr (by linarith [h.1] : 0 ≤ M + (z + (r - s))),
      mul_nonneg hs (by linarith [h.1] : 0 ≤ M + (z + (r - s)))]
  · have h1 : |z + (r - s)| ≤ |z| + (r + s) := (abs_add_le _ _).trans (by linarith)
    have h2 : M * |z + (r - s)| ≤ M * (|z| + (r + s)) := mul_le_mul_of_nonneg_left h1 hM
    nlinarith [sq_nonneg (|z| - M), sq_abs z]

theorem huber_attain (M t : ℝ) : ∃ z r s : ℝ, 0 ≤ r ∧ 0 ≤ s ∧ t - z = r - s ∧
    0.5 * z ^ 2 + M * (r + s) = huberLoss M t := by
  unfold huberLoss
  split_ifs with h
  · exact ⟨t, 0, 0, le_rfl, le_rfl, by ring, by ring⟩
  · push Not at h
    rcases le_total 0 t with ht | ht
    · rw [abs_of_nonneg ht] at h ⊢
      exact ⟨M, t - M, 0, by linarith, le_rfl, by ring, by ring⟩
    · rw [abs_of_nonpos ht] at h ⊢
      exact ⟨-M, 0, -M - t, le_rfl, by linarith, by ring, by ring⟩

theorem huberTotal_le_objective {M : ℝ} (hM : 0 ≤ M) (A : Mat N d) (b : Vec N) (p : HuberPoint N d)
    (hp : p.feasible A b) : huberTotal M A b p.x ≤ p.objective M := by
  unfold huberTotal HuberPoint.objective
  rw [Finset.mul_sum, Finset.mul_sum, ← Finset.sum_add_distrib]
  refine Finset.sum_le_sum fun i _ => ?_
  have := hp.1 i
  rw [show A.mulVec p.x i - b i = p.z i + (p.r i - p.s i) by linarith]
  exact huber_lower hM (hp.2.1 i) (hp.2.2 i)

theorem exists_huberPoint (M : ℝ) (A : Mat N d) (b : Vec N) (x : Vec d) :
    ∃ p : HuberPoint N d, p.feasible A b ∧ p.x = x ∧ p.objective M = huberTotal M A b x := by
  choose z r s hr hs he hv using fun i => huber_attain M (A.mulVec x i - b i)
  refine ⟨⟨x, z, r, s⟩, ⟨he, hr, hs⟩, rfl, ?_⟩
  unfold huberTotal HuberPoint.objective
  rw [Finset.mul_sum, Finset.mul_sum, ← Finset.sum_add_distrib]
  exact Finset.sum_congr rfl fun i _ => hv i

/-- C83, the part that holds. With the `osqp` back end, `method='huber'` returns coefficients that
minimise the total Huber loss with threshold `param1 ≥ 0` (default `1`) over all coefficient
vectors, unless `verbose` is on and no threshold is given. Missing: that last case
(`c83_huber_verbose_violated`). -/
theorem c83_huber_partial (qp : ℝ → Mat N d → Vec N → HuberPoint N d) (A : Mat N d) (b : Vec N)
    (verbose : Bool) (M : Option ℝ) (hv : verbose = true → M ≠ none) (hM : 0 ≤ M.getD 1)
    (hqp : HuberOptimal (M.getD 1) A b (qp (M.getD 1) A b)) :
    ∃ x, huber qp A b verbose M .osqp = .ok x ∧
      ∀ z, huberTotal (M.getD 1) A b x ≤ huberTotal (M.getD 1) A b z := by
  have h10 : (1.0 : ℝ) = 1 := by norm_num
  refine ⟨(qp (M.getD 1) A b).x, ?_, fun z => ?_⟩
  · unfold huber
    rw [if_neg (fun h => hv h.1 h.2), h10]
  · obtain ⟨q, hq, rfl, hqo⟩ := exists_huberPoint (M.getD 1) A b z
    rw [← hqo]
    exact (huberTotal_le_objective hM A b _ hqp.1).trans (hqp.2 q hq)

/-- C83, violated as stated: with `verbose` on and the default threshold the call raises
`TypeError`. -/
theorem c83_huber_verbose_violated (qp : ℝ → Mat N d → Vec N → HuberPoint N d) (A : Mat N d)
    (b : Vec N) (opt : Optimiser) : huber qp A b true none opt = .error .typeError := rfl

/-- The quadratic program has an optimal point: the equations `x = 0`, `x = 0`, `x = 9` with
threshold `1` have Huber minimiser `1/2`. -/
example : ∃ p, HuberOptimal 1 (!![1; 1; 1] : Mat 3 1) ![0, 0, 9] p ∧ p.x = ![1/2] := by
  obtain ⟨p, h1, h2, h3⟩ := exists_huberPoint 1 (!![1; 1; 1] : Mat 3 1)
    ![0, 0, 9] ![1/2]
  refine ⟨p, ⟨h1, fun q hq => ?_⟩, h2⟩
  rw [h3]
  refine le_trans ?_ (huberTotal_le_objective (by norm_num) _ _ q hq)
  have hval : ∀ x : Vec 1, huberTotal 1 (!![1; 1; 1] : Mat 3 1) ![0, 0, 9] x =
      2 * huberLoss 1 (x 0) + huberLoss 1 (x 0 - 9) := by
    intro x
    simp [huberTotal, Fin.sum_univ_three, mulVec, dotProduct]
    ring
  rw [hval, hval]
  have hlow : ∀ t : ℝ, |t| - 1/2 ≤ huberLoss 1 t := by
    intro t; unfold huberLoss
    split_ifs with h
    · nlinarith [sq_nonneg (|t| - 1), sq_abs t]
    · linarith
  have hlow2 : ∀ t : ℝ, t / 2 - 1/8 ≤ huberLoss 1 t := by
    intro t; unfold huberLoss
    split_ifs with h
    · nlinarith [sq_nonneg (t - 1/2)]
    · have := le_abs_self t
      push Not at h
      linarith
  have e1 : huberLoss 1 (![(1/2 : ℝ)] 0) = 1/8 := by
    unfold huberLoss; rw [if_pos (by simp [abs_of_pos]; norm_num)]; simp; norm_num
  have e2 : huberLoss 1 (![(1/2 : ℝ)] 0 - 9) = 8 := by
    unfold huberLoss
    have : |![(1/2 : ℝ)] 0 - 9| = 17/2 := by
      simp; rw [abs_of_neg] <;> norm_num
    rw [this, if_neg (by norm_num)]; norm_num
  rw [e1, e2]
  have a1 := hlow2 (q.x 0)
  have a2 := hlow (q.x 0 - 9)
  have a3 := neg_le_abs (q.x 0 - 9)
  linarith

/-! ## C84 -/

/-- The function documented for `elastic-net`. -/
noncomputable def elasticLoss (A : Mat N d) (b : Vec N) (lamda alpha : ℝ) (x : Vec d) : ℝ :=
  sqRes A b x / 2 + lamda * (alpha * ∑ j, |x j| + (1 - alpha) / 2 * ∑ j, x j ^ 2)

theorem elastic_objective_eq (A : Mat N d) (b : Vec N) (l a : ℝ) :
    elasticNetObjective A b (l * a) (l * (1 - a)) = elasticLoss A b l a := by
  funext x
  unfold elasticNetObjective elasticLoss sqRes
  ring

theorem elasticLoss_continuous (A : Mat N d) (b : Vec N) (l a : ℝ) :
    Continuous (elasticLoss A b l a) := by
  unfold elasticLoss sqRes mulVec dotProduct
  fun_prop

/-- With a quadratic penalty the documented function has a minimum. -/
theorem elasticLoss_min (A : Mat N d) (b : Vec N) (l a : ℝ) (ha : 0 ≤ a) (ha1 : a < 1) (hl : 0 < l) :
    ∃ x, ∀ z, elasticLoss A b l a x ≤ elasticLoss A b l a z := by
  have hc := elasticLoss_continuous A b l a
  set c := l * ((1 - a) / 2) with hcdef
  have hcpos : 0 < c := by have : 0 < 1 - a := by linarith
                           positivity
  have hlow : ∀ z, c * ∑ j, z j ^ 2 ≤ elasticLoss A b l a z := by
    intro z
    unfold elasticLoss
    have h1 := sqRes_nonneg A b z
    have h2 : 0 ≤ ∑ j, |z j| := Finset.sum_nonneg fun _ _ => abs_nonneg _
    have h3 : 0 ≤ l * (a * ∑ j, |z j|) := by positivity
    have : l * (a * ∑ j, |z j| + (1 - a) / 2 * ∑ j, z j ^ 2) =
        l * (a * ∑ j, |z j|) + c * ∑ j, z j ^ 2 := by rw [hcdef]; ring
    linarith
  apply hc.exists_forall_le
  -- the function is large far away
  rw [← Metric.cobounded_eq_cocompact]
  refine Filter.tendsto_atTop.2 fun B => ?_
  set r := max 1 (B / c) with hr
  have : (Metric.closedBall (0 : Vec d) r)ᶜ ∈ Bornology.cobounded (Vec d) :=
    Bornology.isBounded_def.1 Metric.isBounded_closedBall
  filter_upwards [this] with z hz
  simp only [Set.mem_compl_iff, Metric.mem_closedBall, dist_zero_right, not_le] at hz
  have h1 : 1 < ‖z‖ := lt_of_le_of_lt (le_max_left _ _) hz
  have h2 : B / c < ‖z‖ := lt_of_le_of_lt (le_max_right _ _) hz
  have h3 : ‖z‖ ^ 2 ≤ ∑ j, z j ^ 2 := by
    have hne : Nonempty (Fin d) := by
      by_contra hcon
      rw [not_nonempty_iff] at hcon
      have : z = 0 := Subsingleton.elim _ _
      rw [this, norm_zero] at h1
      linarith
    obtain ⟨i, hi⟩ := Finite.exists_max fun j => ‖z j‖
    have : ‖z‖ = ‖z i‖ := le_antisymm ((pi_norm_le_iff_of_nonneg (norm_nonneg _)).2 hi) (norm_le_pi_norm z i)
    rw [this, Real.norm_eq_abs, sq_abs]
    exact Finset.single_le_sum (f := fun j => z j ^ 2) (fun j _ => sq_nonneg _) (Finset.mem_univ i)
  refine le_trans ?_ (hlow z)
  rw [div_lt_iff₀ hcpos] at h2
  have h4 : ‖z‖ ≤ ∑ j, z j ^ 2 := by nlinarith
  have h5 := mul_le_mul_of_nonneg_left h4 hcpos.le
  linarith

/-- C84. For every matrix, right-hand side, `0 < λ` and `0 ≤ α < 1` (defaults `λ = 1`, `α = 1/2`), the
coefficients returned by `elastic-net` with the `osqp` back end minimise the documented function over
all coefficient vectors and are its only minimiser; for `α = 0` they solve the ridge equations
`Aᵀ A x + λ x = Aᵀ b`. -/
theorem c84_elastic_net (minimise : (Vec d → ℝ) → Vec d) (hmin : MinimiseContract minimise)
    (A : Mat N d) (b : Vec N) (lamda alpha : Option ℝ) (l a : ℝ) (hl : l = lamda.getD 1)
    (ha : a = alpha.getD (1/2)) (hl0 : 0 < l) (ha0 : 0 ≤ a) (ha1 : a < 1) :
    ∃ x, elasticNet minimise A b lamda alpha .osqp = .ok x ∧
      (∀ z, elasticLoss A b l a x ≤ elasticLoss A b l a z) ∧
      (∀ z, (∀ w, elasticLoss A b l a z ≤ elasticLoss A b l a w) → z = x) ∧
      (a = 0 → ∀ j, (Aᵀ * A).mulVec x j + l * x j = Aᵀ.mulVec b j) := by
  have h10 : (1.0 : ℝ) = 1 := by norm_num
  have h05 : (0.5 : ℝ) = 1/2 := by norm_num
  set x := minimise (elasticLoss A b l a) with hx
  have hopt : ∀ z, elasticLoss A b l a x ≤ elasticLoss A b l a z :=
    hmin _ (elasticLoss_min A b l a ha0 ha1 hl0)
  have h1a : 0 < 1 - a := by linarith
  refine ⟨x, ?_, hopt, fun z hz => ?_, fun ha' j => ?_⟩
  · unfold elasticNet
    simp only
    rw [h10, h05, ← hl, ← ha, if_neg, elastic_objective_eq]
    rintro (h | h)
    · have := mul_nonneg hl0.le ha0; linarith
    · have := mul_pos hl0 h1a; linarith
  · -- the midpoint is strictly better unless both are equal
    by_contra hne
    obtain ⟨j, hj⟩ := Function.ne_iff.1 hne
    set y : Vec d := fun k => (z k + x k) / 2 with hy
    have hAy : ∀ i, A.mulVec y i = (A.mulVec z i + A.mulVec x i) / 2 := by
      intro i
      simp only [mulVec, dotProduct, hy]
      rw [← Finset.sum_add_distrib, Finset.sum_div]
      exact Finset.sum_congr rfl fun k _ => by ring
    have s1 : sqRes A b y ≤ (sqRes A b z + sqRes A b x) / 2 := by
      unfold sqRes
      rw [← Finset.sum_add_distrib, Finset.sum_div]
      refine Finset.sum_le_sum fun i _ => ?_
      rw [hAy]
      nlinarith [sq_nonneg (A.mulVec z i - A.mulVec x i)]
    have s2 : ∑ k, |y k| ≤ (∑ k, |z k| + ∑ k, |x k|) / 2 := by
      rw [← Finset.sum_add_distrib, Finset.sum_div]
      refine Finset.sum_le_sum fun k _ => ?_
      rw [hy]
      simp only [abs_div, abs_two]
      have := abs_add_le (z k) (x k)
      linarith
    have s3 : ∑ k, y k ^ 2 < (∑ k, z k ^ 2 + ∑ k, x k ^ 2) / 2 := by
      rw [← Finset.sum_add_distrib, Finset.sum_div]
      refine Finset.sum_lt_sum (fun k _ => ?_) ⟨j, Finset.mem_univ _, ?_⟩
      · simp only [hy]; nlinarith [sq_nonneg (z k - x k)]
      · simp only [hy]
        have : 0 < (z j - x j) ^ 2 := by
          have := sub_ne_zero.2 hj
          positivity
        nlinarith
    have hzx : elasticLoss A b l a z ≤ elasticLoss A b l a x := hz x
    have hyx := hopt y
    have hla : 0 ≤ l * a := mul_nonneg hl0.le ha0
    have hl1 : 0 < l * ((1 - a) / 2) := by positivity
    have e2 := mul_le_mul_of_nonneg_left s2 hla
    have e3 := mul_lt_mul_of_pos_left s3 hl1
    unfold elasticLoss at hzx hyx
    nlinarith
  · -- derivative along the coordinate direction `j`
    subst ha'
    have hquad : ∀ t : ℝ, 0 ≤ t * ((Aᵀ * A).mulVec x j + l * x j - Aᵀ.mulVec b j) +
        t ^ 2 * ((∑ i, A i j ^ 2) / 2 + l / 2) := by
      intro t
      have h1 := hopt (x + t • Pi.single j 1)
      have hA1 : ∀ i, A.mulVec (x + t • Pi.single j 1) i = A.mulVec x i + t * A i j := by
        intro i
        rw [mulVec_add, mulVec_smul, Pi.add_apply, Pi.smul_apply, mulVec_single_one, smul_eq_mul]
        rfl
      have e1 : sqRes A b (x + t • Pi.single j 1) = sqRes A b x +
          2 * t * ((Aᵀ * A).mulVec x j - Aᵀ.mulVec b j) + t ^ 2 * ∑ i, A i j ^ 2 := by
        have hg : (Aᵀ * A).mulVec x j - Aᵀ.mulVec b j = ∑ i, A i j * (A.mulVec x i - b i) := by
          rw [← mulVec_mulVec, ← Pi.sub_apply, ← mulVec_sub]
          rfl
        rw [hg]
        unfold sqRes
        rw [Finset.mul_sum, Finset.mul_sum, ← Finset.sum_add_distrib, ← Finset.sum_add_distrib]
        refine Finset.sum_congr rfl fun i _ => ?_
        rw [hA1]; ring
      have e2 : ∑ k, (x + t • Pi.single j 1 : Vec d) k ^ 2 = ∑ k, x k ^ 2 + 2 * t * x j + t ^ 2 := by
        have : ∀ k, (x + t • Pi.single j 1 : Vec d) k ^ 2 =
            x k ^ 2 + if k = j then 2 * t * x j + t ^ 2 else 0 := by
          intro k
          by_cases hk : k = j
          · subst hk; simp; ring
          · simp [hk]
        simp only [this]
        rw [Finset.sum_add_distrib, Finset.sum_ite_eq' Finset.univ j]
        simp; ring
      unfold elasticLoss at h1
      rw [e1, e2] at h1
      nlinarith
    set g := (Aᵀ * A).mulVec x j + l * x j - Aᵀ.mulVec b j with hg
    set q := (∑ i, A i j ^ 2) / 2 + l / 2 with hq
    have hq0 : 0 < q := by
      have : 0 ≤ ∑ i, A i j ^ 2 := Finset.sum_nonneg fun _ _ => sq_nonneg _
      rw [hq]; linarith
    have h1 := hquad (-g / (2 * q))
    have h2 : -g / (2 * q) * g + (-g / (2 * q)) ^ 2 * q = -(g ^ 2 / (4 * q)) := by
      field_simp; ring
    rw [h2] at h1
    have h3 : g ^ 2 / (4 * q) ≤ 0 := by linarith
    have h4 : 0 ≤ g ^ 2 / (4 * q) := by positivity
    have h5 : g ^ 2 / (4 * q) = 0 := le_antisymm h3 h4
    have h6 : g = 0 := by
      rcases div_eq_zero_iff.1 h5 with h | h
      · exact pow_eq_zero_iff two_ne_zero |>.1 h
      · linarith
    linarith

/-- The contract of the minimiser can be met. -/
example : ∃ minimise : (Vec d → ℝ) → Vec d, MinimiseContract minimise := by
  classical
  refine ⟨fun f => if h : ∃ x, ∀ z, f x ≤ f z then h.choose else 0, fun f hf => ?_⟩
  simp only
  rw [dif_pos hf]
  exact hf.choose_spec

end EQ.Solver
