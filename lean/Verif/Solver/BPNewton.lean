import Verif.Solver.BPProps
import Mathlib.Analysis.SpecialFunctions.Log.Deriv
import Mathlib.Analysis.Calculus.Deriv.Inv
import Mathlib.Analysis.Calculus.Deriv.Pow
import Mathlib.Analysis.Calculus.Deriv.MeanValue

/-!
# Basis pursuit: the Newton steps of the barrier method and the sum of absolute values (C220)
-/

namespace EQ.Solver
open Matrix EQ.Basis Filter Topology

variable {m n : ℕ}

namespace L1

variable (A : Mat m n) (eps tau : ℝ) (s : L1 m n) (dx du : Vec n)

theorem fe_neg (hs : s.Interior eps) : s.fe eps < 0 := by
  have := hs.2.2
  unfold fe; norm_num; linarith

theorem fu1_move (t : ℝ) (i : Fin n) : (s.move A dx du t).fu1 i = s.fu1 i + t * (dx i - du i) := by
  simp [fu1, move]; ring

theorem fu2_move (t : ℝ) (i : Fin n) : (s.move A dx du t).fu2 i = s.fu2 i + t * (-dx i - du i) := by
  simp [fu2, move]; ring

theorem fe_move (t : ℝ) : (s.move A dx du t).fe eps =
    s.fe eps + t * (s.r ⬝ᵥ A.mulVec dx) + t ^ 2 * (0.5 * (A.mulVec dx ⬝ᵥ A.mulVec dx)) := by
  simp only [fe, move, dotProduct_add, add_dotProduct, dotProduct_smul, smul_dotProduct, smul_eq_mul]
  rw [dotProduct_comm (A.mulVec dx) s.r]
  ring

theorem move_zero : s.move A dx du 0 = s := by
  simp [move]

theorem fu1_deriv (i : Fin n) : HasDerivAt (fun t => (s.move A dx du t).fu1 i) (dx i - du i) 0 := by
  simp only [fu1_move]
  simpa using ((hasDerivAt_id (0 : ℝ)).mul_const (dx i - du i)).const_add (s.fu1 i)

theorem fu2_deriv (i : Fin n) : HasDerivAt (fun t => (s.move A dx du t).fu2 i) (-dx i - du i) 0 := by
  simp only [fu2_move]
  simpa using ((hasDerivAt_id (0 : ℝ)).mul_const (-dx i - du i)).const_add (s.fu2 i)

theorem fe_deriv : HasDerivAt (fun t => (s.move A dx du t).fe eps) (s.r ⬝ᵥ A.mulVec dx) 0 := by
  simp only [fe_move]
  have h1 := ((hasDerivAt_id (0 : ℝ)).mul_const (s.r ⬝ᵥ A.mulVec dx)).const_add (s.fe eps)
  have h2 := (hasDerivAt_pow 2 (0 : ℝ)).mul_const (0.5 * (A.mulVec dx ⬝ᵥ A.mulVec dx))
  refine (h1.add h2).congr_deriv ?_
  simp

theorem atr_dot (v : Vec m) (p : Vec n) : ∑ i, Aᵀ.mulVec v i * p i = v ⬝ᵥ A.mulVec p := by
  have : Aᵀ.mulVec v ⬝ᵥ p = v ⬝ᵥ A.mulVec p := by
    rw [mulVec_transpose, ← dotProduct_mulVec]
  simpa [dotProduct] using this

/-- C220. The slope used in the line search is the derivative of the barrier function `Σ u - (Σ log(u - x) + Σ log(u + x) +
log((eps² - ‖A x - b‖²)/2)) / tau` along the step. -/
theorem c220_slope (hs : s.Interior eps) (ht : 0 < tau) :
    HasDerivAt (fun t => (s.move A dx du t).f eps tau) (s.slope A eps tau dx du) 0 := by
  have h1 : ∀ i, HasDerivAt (fun t => Real.log (-(s.move A dx du t).fu1 i)) (-(dx i - du i) / -s.fu1 i) 0 := by
    intro i
    have := (fu1_deriv A s dx du i).neg.log (by simp only [move_zero, Pi.neg_apply]; linarith [hs.1 i])
    simpa only [move_zero, Pi.neg_apply] using this
  have h2 : ∀ i, HasDerivAt (fun t => Real.log (-(s.move A dx du t).fu2 i)) (-(-dx i - du i) / -s.fu2 i) 0 := by
    intro i
    have := (fu2_deriv A s dx du i).neg.log (by simp only [move_zero, Pi.neg_apply]; linarith [hs.2.1 i])
    simpa only [move_zero, Pi.neg_apply] using this
  have h3 : HasDerivAt (fun t => Real.log (-(s.move A dx du t).fe eps)) (-(s.r ⬝ᵥ A.mulVec dx) / -s.fe eps) 0 := by
    have := (fe_deriv A eps s dx du).neg.log (by simp only [move_zero, Pi.neg_apply]; linarith [fe_neg eps s hs])
    simpa only [move_zero, Pi.neg_apply] using this
  have h0 : HasDerivAt (fun t => ∑ i, (s.move A dx du t).u i) (∑ i, du i) 0 := by
    refine HasDerivAt.fun_sum fun i _ => ?_
    have : (fun t => (s.move A dx du t).u i) = fun t => s.u i + t * du i := by
      funext t; simp [move]
    rw [this]
    simpa using ((hasDerivAt_id (0 : ℝ)).mul_const (du i)).const_add (s.u i)
  have h := h0.sub ((((HasDerivAt.fun_sum fun i (_ : i ∈ Finset.univ) => h1 i).add
    (HasDerivAt.fun_sum fun i (_ : i ∈ Finset.univ) => h2 i)).add h3).const_mul (1 / tau))
  refine h.congr_deriv ?_
  have e1 : ∑ i, -(dx i - du i) / -s.fu1 i = ∑ i, (1 / s.fu1 i * dx i - 1 / s.fu1 i * du i) :=
    Finset.sum_congr rfl fun i _ => by rw [neg_div_neg_eq]; ring
  have e2 : ∑ i, -(-dx i - du i) / -s.fu2 i = ∑ i, (-(1 / s.fu2 i * dx i) - 1 / s.fu2 i * du i) :=
    Finset.sum_congr rfl fun i _ => by rw [neg_div_neg_eq]; ring
  have e3 : ∑ i, s.ntgz A eps i * dx i =
      ∑ i, 1 / s.fu1 i * dx i - ∑ i, 1 / s.fu2 i * dx i + 1 / s.fe eps * (s.r ⬝ᵥ A.mulVec dx) := by
    rw [← atr_dot, Finset.mul_sum, ← Finset.sum_sub_distrib, ← Finset.sum_add_distrib]
    exact Finset.sum_congr rfl fun i _ => by unfold ntgz; ring
  have e4 : ∑ i, s.ntgu tau i * du i = -(tau * ∑ i, du i) - ∑ i, 1 / s.fu1 i * du i - ∑ i, 1 / s.fu2 i * du i := by
    rw [Finset.mul_sum, ← Finset.sum_neg_distrib, ← Finset.sum_sub_distrib, ← Finset.sum_sub_distrib]
    exact Finset.sum_congr rfl fun i _ => by unfold ntgu; ring
  unfold slope
  rw [e1, e2, e3, e4, neg_div_neg_eq, Finset.sum_sub_distrib, Finset.sum_sub_distrib, Finset.sum_neg_distrib]
  field_simp
  ring

/-- The step solves the two block rows of the Newton system. -/
theorem newton_rows (hs : s.Interior eps) (hdx : (s.h11p A eps).mulVec dx = s.w1p A eps tau) (i : Fin n) :
    s.sig12 i * dx i + s.sig11 i * s.du tau dx i = s.ntgu tau i ∧
    s.sig11 i * dx i + s.sig12 i * s.du tau dx i - 1 / s.fe eps * Aᵀ.mulVec (A.mulVec dx) i +
      (1 / s.fe eps) ^ 2 * (s.r ⬝ᵥ A.mulVec dx) * Aᵀ.mulVec s.r i = s.ntgz A eps i := by
  have h1 := (hs.1 i).ne
  have h2 := (hs.2.1 i).ne
  have p : 0 < s.sig11 i := by unfold sig11; positivity
  have hrow := congrFun hdx i
  have e : (s.h11p A eps).mulVec dx i = (s.sig11 i - s.sig12 i ^ 2 / s.sig11 i) * dx i -
      1 / s.fe eps * Aᵀ.mulVec (A.mulVec dx) i + (1 / s.fe eps) ^ 2 * (s.r ⬝ᵥ A.mulVec dx) * Aᵀ.mulVec s.r i := by
    unfold h11p
    rw [add_mulVec, sub_mulVec, smul_mulVec, smul_mulVec, vecMulVec_mulVec, ← mulVec_mulVec]
    simp only [Pi.add_apply, Pi.sub_apply, Pi.smul_apply, smul_eq_mul, mulVec_diagonal]
    have : Aᵀ.mulVec s.r ⬝ᵥ dx = s.r ⬝ᵥ A.mulVec dx := by rw [mulVec_transpose, ← dotProduct_mulVec]
    simp only [this, MulOpposite.smul_eq_mul_unop, MulOpposite.unop_op]
    ring
  rw [e] at hrow
  unfold w1p at hrow
  have r1 : s.sig12 i * dx i + s.sig11 i * s.du tau dx i = s.ntgu tau i := by
    unfold L1.du
    field_simp
    ring
  refine ⟨r1, ?_⟩
  have r2 : s.du tau dx i = (s.ntgu tau i - s.sig12 i * dx i) / s.sig11 i := by
    rw [eq_div_iff p.ne']; linarith
  have : s.sig11 i * dx i + s.sig12 i * s.du tau dx i =
      (s.sig11 i - s.sig12 i ^ 2 / s.sig11 i) * dx i + s.sig12 i / s.sig11 i * s.ntgu tau i := by
    rw [r2]; field_simp; ring
  rw [this]
  linarith

/-- C220. The step computed from `np.linalg.solve` is Newton's step for the barrier function: along it, the slope in every
direction `(p, q)` changes at the rate that would bring it to zero at the full step. -/
theorem c220_newton (hs : s.Interior eps) (hdx : (s.h11p A eps).mulVec dx = s.w1p A eps tau) (p q : Vec n) :
    HasDerivAt (fun t => (s.move A dx (s.du tau dx) t).slope A eps tau p q) (-s.slope A eps tau p q) 0 := by
  have hfe := fe_neg eps s hs
  set dv := s.du tau dx with hdv
  have d1 : ∀ i, HasDerivAt (fun t => 1 / (s.move A dx dv t).fu1 i) (-(dx i - dv i) / s.fu1 i ^ 2) 0 := by
    intro i
    have := (fu1_deriv A s dx dv i).fun_inv (by simp only [move_zero]; exact (hs.1 i).ne)
    simpa only [one_div, move_zero] using this
  have d2 : ∀ i, HasDerivAt (fun t => 1 / (s.move A dx dv t).fu2 i) (-(-dx i - dv i) / s.fu2 i ^ 2) 0 := by
    intro i
    have := (fu2_deriv A s dx dv i).fun_inv (by simp only [move_zero]; exact (hs.2.1 i).ne)
    simpa only [one_div, move_zero] using this
  have d3 : HasDerivAt (fun t => 1 / (s.move A dx dv t).fe eps) (-(s.r ⬝ᵥ A.mulVec dx) / s.fe eps ^ 2) 0 := by
    have := (fe_deriv A eps s dx dv).fun_inv (by simp only [move_zero]; exact hfe.ne)
    simpa only [one_div, move_zero] using this
  have d4 : ∀ i, HasDerivAt (fun t => Aᵀ.mulVec (s.move A dx dv t).r i) (Aᵀ.mulVec (A.mulVec dx) i) 0 := by
    intro i
    have : (fun t => Aᵀ.mulVec (s.move A dx dv t).r i) = fun t => Aᵀ.mulVec s.r i + t * Aᵀ.mulVec (A.mulVec dx) i := by
      funext t
      simp only [move, mulVec_add, mulVec_smul, Pi.add_apply, Pi.smul_apply, smul_eq_mul]
    rw [this]
    simpa using ((hasDerivAt_id (0 : ℝ)).mul_const (Aᵀ.mulVec (A.mulVec dx) i)).const_add (Aᵀ.mulVec s.r i)
  have g1 : ∀ i, HasDerivAt (fun t => (s.move A dx dv t).ntgz A eps i * p i) (-(s.ntgz A eps i) * p i) 0 := by
    intro i
    have := ((((d1 i).fun_sub (d2 i)).fun_add (d3.fun_mul (d4 i))).mul_const (p i))
    refine this.congr_deriv ?_
    congr 1
    rw [← (newton_rows A eps tau s dx hs hdx i).2, ← hdv]
    simp only [move_zero]
    unfold sig11 sig12
    have h1 := (hs.1 i).ne
    have h2 := (hs.2.1 i).ne
    have h3 := hfe.ne
    field_simp
    ring
  have g2 : ∀ i, HasDerivAt (fun t => (s.move A dx dv t).ntgu tau i * q i) (-(s.ntgu tau i) * q i) 0 := by
    intro i
    have := ((((hasDerivAt_const (0 : ℝ) (-tau)).fun_sub (d1 i)).fun_sub (d2 i)).mul_const (q i))
    refine this.congr_deriv ?_
    congr 1
    rw [← (newton_rows A eps tau s dx hs hdx i).1, ← hdv]
    unfold sig11 sig12
    have h1 := (hs.1 i).ne
    have h2 := (hs.2.1 i).ne
    field_simp
    ring
  have h := ((HasDerivAt.fun_sum fun i (_ : i ∈ Finset.univ) => g1 i).fun_add
    (HasDerivAt.fun_sum fun i (_ : i ∈ Finset.univ) => g2 i)).const_mul (-(1 / tau))
  refine h.congr_deriv ?_
  unfold slope
  simp only [neg_mul, Finset.sum_neg_distrib]
  ring

/-- The slope along Newton's step is negative. -/
theorem slope_neg (hs : s.Interior eps) (ht : 0 < tau) (hdx : (s.h11p A eps).mulVec dx = s.w1p A eps tau) (h0 : dx ≠ 0) :
    s.slope A eps tau dx (s.du tau dx) < 0 := by
  have hfe := fe_neg eps s hs
  set dv := s.du tau dx with hdv
  have key : ∑ i, s.ntgz A eps i * dx i + ∑ i, s.ntgu tau i * dv i =
      ∑ i, ((dx i - dv i) ^ 2 / s.fu1 i ^ 2 + (dx i + dv i) ^ 2 / s.fu2 i ^ 2) -
        1 / s.fe eps * (A.mulVec dx ⬝ᵥ A.mulVec dx) + (1 / s.fe eps) ^ 2 * (s.r ⬝ᵥ A.mulVec dx) ^ 2 := by
    have e1 : 1 / s.fe eps * (A.mulVec dx ⬝ᵥ A.mulVec dx) = ∑ i, 1 / s.fe eps * Aᵀ.mulVec (A.mulVec dx) i * dx i := by
      rw [← atr_dot, Finset.mul_sum]
      exact Finset.sum_congr rfl fun i _ => by ring
    have e2 : (1 / s.fe eps) ^ 2 * (s.r ⬝ᵥ A.mulVec dx) ^ 2 =
        ∑ i, (1 / s.fe eps) ^ 2 * (s.r ⬝ᵥ A.mulVec dx) * Aᵀ.mulVec s.r i * dx i := by
      rw [sq (s.r ⬝ᵥ A.mulVec dx)]
      conv_lhs => rw [← mul_assoc]
      rw [← atr_dot A s.r dx, Finset.mul_sum]
      exact Finset.sum_congr rfl fun i _ => by ring
    rw [e1, e2, ← Finset.sum_add_distrib, ← Finset.sum_sub_distrib, ← Finset.sum_add_distrib]
    refine Finset.sum_congr rfl fun i _ => ?_
    rw [← (newton_rows A eps tau s dx hs hdx i).2, ← (newton_rows A eps tau s dx hs hdx i).1, ← hdv]
    unfold sig11 sig12
    ring
  have hpos : 0 < ∑ i, s.ntgz A eps i * dx i + ∑ i, s.ntgu tau i * dv i := by
    rw [key]
    obtain ⟨i0, hi0⟩ := Function.ne_iff.1 h0
    have t1 : 0 < ∑ i, ((dx i - dv i) ^ 2 / s.fu1 i ^ 2 + (dx i + dv i) ^ 2 / s.fu2 i ^ 2) := by
      refine Finset.sum_pos' (fun i _ => by positivity) ⟨i0, Finset.mem_univ _, ?_⟩
      have h1 := (hs.1 i0).ne
      have h2 := (hs.2.1 i0).ne
      by_cases hd : dx i0 - dv i0 = 0
      · have : dx i0 + dv i0 ≠ 0 := fun h => hi0 (by simp only [Pi.zero_apply]; linarith)
        positivity
      · positivity
    have t2 : 0 ≤ -(1 / s.fe eps) * (A.mulVec dx ⬝ᵥ A.mulVec dx) := by
      refine mul_nonneg ?_ (dot_self_nonneg _)
      rw [neg_nonneg]
      exact (one_div_neg.2 hfe).le
    have t3 : 0 ≤ (1 / s.fe eps) ^ 2 * (s.r ⬝ᵥ A.mulVec dx) ^ 2 := by positivity
    linarith
  unfold slope
  have : 0 < 1 / tau := by positivity
  nlinarith

/-- C220. Newton's step goes downhill, every step short enough passes the test of the line search, and the search succeeds from
every first step length if enough halvings are allowed. -/
theorem c220_search (hs : s.Interior eps) (ht : 0 < tau) (hdx : (s.h11p A eps).mulVec dx = s.w1p A eps tau) (h0 : dx ≠ 0) :
    s.slope A eps tau dx (s.du tau dx) < 0 ∧
    (∃ T > 0, ∀ t, 0 < t → t < T → (s.move A dx (s.du tau dx) t).f eps tau ≤
      s.f eps tau + 0.01 * t * s.slope A eps tau dx (s.du tau dx)) ∧
    ∀ t0 > 0, ∃ N, ∀ fuel ≥ N, ∃ t, 0 < t ∧ t ≤ t0 ∧
      s.search A eps tau dx (s.du tau dx) fuel t0 = some (s.move A dx (s.du tau dx) t) ∧
      (s.move A dx (s.du tau dx) t).f eps tau < s.f eps tau := by
  have hneg := slope_neg A eps tau s dx hs ht hdx h0
  set dv := s.du tau dx with hdv
  set g := s.slope A eps tau dx dv with hg
  have hd := c220_slope A eps tau s dx dv hs ht
  have hT : ∃ T > 0, ∀ t, 0 < t → t < T → (s.move A dx dv t).f eps tau ≤ s.f eps tau + 0.01 * t * g := by
    have hsl := hd.tendsto_slope_zero_right
    have hlt : g < 0.01 * g := by nlinarith
    have hev := hsl.eventually (gt_mem_nhds (show s.slope A eps tau dx dv < 0.01 * g from hlt))
    obtain ⟨T, hT0, hT⟩ := mem_nhdsGT_iff_exists_Ioo_subset.1 hev
    refine ⟨T, hT0, fun t h1 h2 => ?_⟩
    have := hT ⟨h1, h2⟩
    simp only [Set.mem_ofPred_eq, zero_add, move_zero, smul_eq_mul] at this
    rw [inv_mul_lt_iff₀ h1] at this
    linarith
  refine ⟨hneg, hT, fun t0 ht0 => ?_⟩
  obtain ⟨T, hT0, hT⟩ := hT
  have hdec : ∀ t, 0 < t → (s.move A dx dv t).f eps tau ≤ s.f eps tau + 0.01 * t * g →
      (s.move A dx dv t).f eps tau < s.f eps tau := by
    intro t h1 h2
    have : 0.01 * t * g < 0 := mul_neg_of_pos_of_neg (by positivity) hneg
    linarith
  obtain ⟨N, hN⟩ : ∃ N : ℕ, t0 * (1 / 2) ^ N < T := by
    obtain ⟨N, hN⟩ := exists_pow_lt_of_lt_one (show 0 < T / t0 by positivity) (show (1 / 2 : ℝ) < 1 by norm_num)
    exact ⟨N, by rw [lt_div_iff₀ ht0] at hN; linarith⟩
  have loop : ∀ (N : ℕ) (t0 : ℝ), 0 < t0 → t0 * (1 / 2) ^ N < T → ∀ fuel ≥ N + 1, ∃ t, 0 < t ∧ t ≤ t0 ∧
      s.search A eps tau dx dv fuel t0 = some (s.move A dx dv t) ∧ (s.move A dx dv t).f eps tau < s.f eps tau := by
    intro N
    induction N with
    | zero =>
      intro t0 h1 h2 fuel hf
      obtain ⟨k, rfl⟩ : ∃ k, fuel = k + 1 := ⟨fuel - 1, by omega⟩
      have hp := hT t0 h1 (by simpa using h2)
      exact ⟨t0, h1, le_refl _, by rw [search]; exact if_pos hp, hdec t0 h1 hp⟩
    | succ N ih =>
      intro t0 h1 h2 fuel hf
      obtain ⟨k, rfl⟩ : ∃ k, fuel = k + 1 := ⟨fuel - 1, by omega⟩
      by_cases hp : (s.move A dx dv t0).f eps tau ≤ s.f eps tau + 0.01 * t0 * s.slope A eps tau dx dv
      · exact ⟨t0, h1, le_refl _, by rw [search]; exact if_pos hp, hdec t0 h1 hp⟩
      · obtain ⟨t, a1, a2, a3, a4⟩ := ih (0.5 * t0) (by positivity)
          (by rw [pow_succ] at h2; norm_num at h2 ⊢; linarith) k (by omega)
        refine ⟨t, a1, a2.trans (by norm_num; linarith), ?_, a4⟩
        rw [search]
        exact (if_neg hp).trans a3
  exact ⟨N + 1, fun fuel hf => loop N t0 ht0 hN fuel hf⟩

theorem foldl_min_mem (l : List ℝ) (a : ℝ) : l.foldl min a = a ∨ l.foldl min a ∈ l := by
  induction l generalizing a with
  | nil => simp
  | cons y l ih =>
    rcases ih (min a y) with h | h
    · rcases min_choice a y with e | e
      · exact .inl (h.trans e)
      · exact .inr (List.mem_cons.2 (.inl (h.trans e)))
    · exact .inr (List.mem_cons_of_mem _ h)

/-- C220. The line search starts with 99% of the longest step that leaves the iterate inside all constraints, at most a full
step: all shorter steps stay inside, and if the limit is below one it is reached at a point where a constraint is active. The
step taken is this first step, halved fewer than 32 times. -/
theorem c220_reach (hs : s.Interior eps) (ha : A.mulVec dx ⬝ᵥ A.mulVec dx ≠ 0) :
    0 < s.smax A eps dx du ∧ s.smax A eps dx du ≤ 1 ∧
    (∀ t, 0 ≤ t → t < s.smax A eps dx du → (s.move A dx du t).Interior eps) ∧
    (s.smax A eps dx du < 1 → ¬ (s.move A dx du (s.smax A eps dx du)).Interior eps) ∧
    ∀ s', s.search A eps tau dx du 32 (0.99 * s.smax A eps dx du) = some s' →
      ∃ j < 32, s' = s.move A dx du (0.99 * s.smax A eps dx du / 2 ^ j) := by
  refine ⟨smax_pos A eps s dx du hs ha, (foldl_min_le _ _).1.trans (by norm_num), move_interior A eps s dx du hs ha, ?_, ?_⟩
  · intro h1 hi
    have hmem : s.smax A eps dx du ∈ s.limits A eps dx du := by
      rcases foldl_min_mem (s.limits A eps dx du) 1.0 with h | h
      · exfalso
        unfold smax at h1
        rw [h] at h1
        norm_num at h1
      · exact h
    generalize s.smax A eps dx du = t at hmem hi
    unfold limits at hmem
    simp only [List.mem_append, List.mem_map, List.mem_filter, decide_eq_true_eq, List.mem_singleton] at hmem
    rcases hmem with (⟨i, ⟨_, hd⟩, rfl⟩ | ⟨i, ⟨_, hd⟩, rfl⟩) | rfl
    · have := hi.1 i
      have e : (s.move A dx du (-s.fu1 i / (dx i - du i))).fu1 i = s.fu1 i + -s.fu1 i / (dx i - du i) * (dx i - du i) := by
        simp only [fu1, move, Pi.sub_apply, Pi.add_apply, Pi.smul_apply, smul_eq_mul]; ring
      rw [e, div_mul_cancel₀ _ (ne_of_gt hd)] at this
      linarith
    · have := hi.2.1 i
      have e : (s.move A dx du (-s.fu2 i / (-dx i - du i))).fu2 i = s.fu2 i + -s.fu2 i / (-dx i - du i) * (-dx i - du i) := by
        simp only [fu2, move, Pi.sub_apply, Pi.neg_apply, Pi.add_apply, Pi.smul_apply, smul_eq_mul]; ring
      rw [e, div_mul_cancel₀ _ (ne_of_gt hd)] at this
      linarith
    · have := hi.2.2
      set a := A.mulVec dx ⬝ᵥ A.mulVec dx with hadef
      set c := s.r ⬝ᵥ A.mulVec dx with hc
      have ha0 : 0 < a := lt_of_le_of_ne (dot_self_nonneg _) ha.symm
      have h2 : (2.0 : ℝ) = 2 := by norm_num
      rw [h2] at this
      set D := (2 * c) ^ 2 - 4 * a * (s.r ⬝ᵥ s.r - eps ^ 2) with hD
      have hD0 : 0 ≤ D := by nlinarith [sq_nonneg (2 * c), hs.2.2]
      have hsq := Real.sq_sqrt hD0
      generalize √D = q at this hsq
      have e : ∀ t, (s.move A dx du t).r ⬝ᵥ (s.move A dx du t).r = s.r ⬝ᵥ s.r + t * (2 * c) + t ^ 2 * a := by
        intro t
        simp only [move, dotProduct_add, add_dotProduct, dotProduct_smul, smul_dotProduct, smul_eq_mul]
        rw [dotProduct_comm (A.mulVec dx) s.r]
        ring
      rw [e] at this
      have e2 : s.r ⬝ᵥ s.r + (-(2 * c) + q) / (2 * a) * (2 * c) + ((-(2 * c) + q) / (2 * a)) ^ 2 * a - eps ^ 2 =
          (q ^ 2 - D) / (4 * a) := by
        rw [hD]
        field_simp
        ring
      rw [hsq, sub_self, zero_div] at e2
      linarith
  · have loop : ∀ (fuel : ℕ) (t : ℝ) (s' : L1 m n), s.search A eps tau dx du fuel t = some s' →
        ∃ j < fuel, s' = s.move A dx du (t / 2 ^ j) := by
      intro fuel
      induction fuel with
      | zero => intro t s' h; simp [search] at h
      | succ fuel ih =>
        intro t s' h
        rw [search] at h
        split_ifs at h
        · exact ⟨0, by omega, by rw [← Option.some.inj h]; simp⟩
        · obtain ⟨j, hj, e⟩ := ih _ s' h
          refine ⟨j + 1, by omega, ?_⟩
          rw [e]
          congr 1
          rw [pow_succ]
          norm_num
          ring
    exact loop 32 _

/-- A step accepted by the line search does not raise the barrier function. -/
theorem search_le (hneg : s.slope A eps tau dx du ≤ 0) : ∀ (fuel : ℕ) (t : ℝ), 0 ≤ t →
    ∀ s', s.search A eps tau dx du fuel t = some s' → s'.f eps tau ≤ s.f eps tau := by
  intro fuel
  induction fuel with
  | zero => intro t _ s' h; simp [search] at h
  | succ fuel ih =>
    intro t h0 s' h
    rw [search] at h
    split_ifs at h with hc
    · rw [← Option.some.inj h]
      have : 0.01 * t * s.slope A eps tau dx du ≤ 0 := mul_nonpos_of_nonneg_of_nonpos (by positivity) hneg
      linarith
    · exact ih (0.5 * t) (by positivity) s' h

/-- C220. The Newton iterations of one pass never raise the barrier function. -/
theorem c220_descent (solve : Solve) (hsolve : SolveContract solve) (ht : 0 < tau) (newtontol : ℝ) :
    ∀ (fuel : ℕ) (s s' : L1 m n), s.Interior eps → newton solve A eps tau newtontol fuel s = .ok s' →
      s'.f eps tau ≤ s.f eps tau := by
  intro fuel
  induction fuel with
  | zero =>
    intro s s' hs h
    simp only [newton, Except.ok.injEq] at h
    exact h ▸ le_refl _
  | succ fuel ih =>
    intro s s' hs h
    unfold newton at h
    obtain ⟨dx, hsol, hdx⟩ := hsolve.1 n (s.h11p A eps) (s.w1p A eps tau) (h11p_unit A eps s hs)
    rw [hsol] at h
    simp only at h
    split at h
    · exact (Except.ok.inj h) ▸ le_refl _
    split at h
    · exact (Except.ok.inj h) ▸ le_refl _
    · rename_i h2
      have h0 : dx ≠ 0 := by rintro rfl; simp at h2
      have hneg := slope_neg A eps tau s dx hs ht hdx h0
      have hpos := smax_pos A eps s dx (s.du tau dx) hs h2
      cases hse : s.search A eps tau dx (s.du tau dx) 32 (0.99 * s.smax A eps dx (s.du tau dx)) with
      | none =>
        rw [hse] at h
        exact (Except.ok.inj h) ▸ le_refl _
      | some s1 =>
        rw [hse] at h
        simp only at h
        have hle := search_le A eps tau s dx (s.du tau dx) hneg.le 32 _ (by positivity) s1 hse
        have hi := (search_interior A eps s dx (s.du tau dx) tau hs h2 32 _ (by positivity) (by linarith) s1 hse).1
        split_ifs at h with h3
        · exact (Except.ok.inj h) ▸ hle
        · exact (ih s1 s' hi h).trans hle

/-- C220. How far the sum of absolute values is from the smallest one: for every vector `z` with `‖A z - b‖ ≤ eps`, up to the
slope of the barrier function towards `z` (zero at its minimum) by at most `(2 n + 1) / tau`. -/
theorem c220_gap (b : Vec m) (hs : s.Interior eps) (hr : s.r = A.mulVec s.x - b) (ht : 0 < tau) (z : Vec n)
    (hz : (A.mulVec z - b) ⬝ᵥ (A.mulVec z - b) ≤ eps ^ 2) :
    ∑ i, |s.x i| ≤ ∑ i, |z i| + (2 * n + 1) / tau - s.slope A eps tau (z - s.x) (fun i => |z i| - s.u i) := by
  have hfe := fe_neg eps s hs
  have hxu : ∀ i, |s.x i| ≤ s.u i := by
    intro i
    have h1 := hs.1 i
    have h2 := hs.2.1 i
    simp only [fu1, fu2, Pi.sub_apply, Pi.neg_apply] at h1 h2
    exact abs_le.2 ⟨by linarith, by linarith⟩
  have hle : ∑ i, |s.x i| ≤ ∑ i, s.u i := Finset.sum_le_sum fun i _ => hxu i
  set Q := ∑ i, s.ntgz A eps i * (z - s.x) i + ∑ i, s.ntgu tau i * (|z i| - s.u i) with hQ
  have hslope : s.slope A eps tau (z - s.x) (fun i => |z i| - s.u i) = -(1 / tau) * Q := rfl
  have e : Q = -(tau * (∑ i, |z i| - ∑ i, s.u i)) +
      ∑ i, (1 / s.fu1 i * ((z i - |z i|) - s.fu1 i) + 1 / s.fu2 i * ((-z i - |z i|) - s.fu2 i)) +
      1 / s.fe eps * (s.r ⬝ᵥ A.mulVec (z - s.x)) := by
    rw [hQ, ← atr_dot, ← Finset.sum_sub_distrib, Finset.mul_sum, Finset.mul_sum, ← Finset.sum_neg_distrib,
      ← Finset.sum_add_distrib, ← Finset.sum_add_distrib, ← Finset.sum_add_distrib]
    refine Finset.sum_congr rfl fun i _ => ?_
    have f1 : s.fu1 i = s.x i - s.u i := rfl
    have f2 : s.fu2 i = -s.x i - s.u i := rfl
    unfold ntgz ntgu
    generalize 1 / s.fu1 i = c1
    generalize 1 / s.fu2 i = c2
    rw [f1, f2]
    simp only [Pi.sub_apply]
    ring
  have l1 : ∀ i, -2 ≤ 1 / s.fu1 i * ((z i - |z i|) - s.fu1 i) + 1 / s.fu2 i * ((-z i - |z i|) - s.fu2 i) := by
    intro i
    have h1 := hs.1 i
    have h2 := hs.2.1 i
    have a1 : 0 ≤ 1 / s.fu1 i * (z i - |z i|) :=
      mul_nonneg_of_nonpos_of_nonpos (one_div_neg.2 h1).le (by linarith [le_abs_self (z i)])
    have a2 : 0 ≤ 1 / s.fu2 i * (-z i - |z i|) :=
      mul_nonneg_of_nonpos_of_nonpos (one_div_neg.2 h2).le (by linarith [neg_le_abs (z i)])
    have b1 : 1 / s.fu1 i * s.fu1 i = 1 := one_div_mul_cancel h1.ne
    have b2 : 1 / s.fu2 i * s.fu2 i = 1 := one_div_mul_cancel h2.ne
    rw [mul_sub _ (z i - |z i|), mul_sub _ (-z i - |z i|), b1, b2]
    linarith
  have l2 : -(2 * (n : ℝ)) ≤ ∑ i, (1 / s.fu1 i * ((z i - |z i|) - s.fu1 i) + 1 / s.fu2 i * ((-z i - |z i|) - s.fu2 i)) := by
    have := Finset.sum_le_sum fun i (_ : i ∈ (Finset.univ : Finset (Fin n))) => l1 i
    simp only [Finset.sum_const, Finset.card_univ, Fintype.card_fin, nsmul_eq_mul] at this
    linarith
  have l3 : -1 ≤ 1 / s.fe eps * (s.r ⬝ᵥ A.mulVec (z - s.x)) := by
    set v := A.mulVec z - b with hv
    have hA : A.mulVec (z - s.x) = v - s.r := by rw [hr, hv, mulVec_sub]; abel
    have hsq := dot_self_nonneg (v - s.r)
    have hexp : (v - s.r) ⬝ᵥ (v - s.r) = v ⬝ᵥ v - 2 * (s.r ⬝ᵥ v) + s.r ⬝ᵥ s.r := by
      simp only [dotProduct_sub, sub_dotProduct]
      rw [dotProduct_comm v s.r]
      ring
    have hub : s.r ⬝ᵥ A.mulVec (z - s.x) ≤ -s.fe eps := by
      rw [hA, dotProduct_sub]
      unfold fe
      norm_num
      linarith
    have := mul_le_mul_of_nonpos_left hub (one_div_neg.2 hfe).le
    rw [mul_neg, one_div_mul_cancel hfe.ne] at this
    exact this
  have htau : tau * (∑ i, s.u i) ≤ tau * (∑ i, |z i|) + (2 * n + 1) + Q := by linarith
  rw [hslope]
  have : ∑ i, s.u i ≤ ∑ i, |z i| + (2 * n + 1) / tau + 1 / tau * Q := by
    have h := (mul_le_mul_iff_of_pos_left (show 0 < 1 / tau by positivity)).2 htau
    have e1 : 1 / tau * (tau * ∑ i, s.u i) = ∑ i, s.u i := by field_simp
    have e2 : 1 / tau * (tau * (∑ i, |z i|) + (2 * n + 1) + Q) = ∑ i, |z i| + (2 * n + 1) / tau + 1 / tau * Q := by
      field_simp
    rw [e1, e2] at h
    exact h
  linarith

end L1

/-- The last pass of the barrier loop. -/
theorem barrier_last (solve : Solve) (hsolve : SolveContract solve) (A : Mat m n) (b : Vec m) (eps : ℝ) :
    ∀ (k : ℕ) (tau : ℝ) (x u x' : Vec n), (∀ i, |x i| < u i) → (A.mulVec x - b) ⬝ᵥ (A.mulVec x - b) < eps ^ 2 →
      barrier solve A b eps (k + 1) tau x u = .ok x' →
      ∃ (y v : Vec n) (s : L1 m n), l1qcNewton solve A b eps (tau * 10 ^ k) 1e-3 y v = .ok s ∧ s.x = x' ∧
        s.Interior eps ∧ s.r = A.mulVec s.x - b := by
  intro k
  induction k with
  | zero =>
    intro tau x u x' hx hr h
    have hint : L1.Interior eps ({ x := x, u := u, r := A.mulVec x - b } : L1 m n) :=
      ⟨fun i => by
        have := abs_lt.1 (hx i)
        simp only [L1.fu1, Pi.sub_apply]; linarith, fun i => by
        have := abs_lt.1 (hx i)
        simp only [L1.fu2, Pi.sub_apply, Pi.neg_apply]; linarith, hr⟩
    obtain ⟨s, hn⟩ := newton_ok solve hsolve A eps tau 1e-3 50 _ hint
    obtain ⟨hi, hres⟩ := L1.newton_interior A eps solve b tau 1e-3 50 _ s hint rfl hn
    have hn' : l1qcNewton solve A b eps tau 1e-3 x u = .ok s := hn
    unfold barrier at h
    rw [hn'] at h
    simp only [barrier, Except.ok.injEq] at h
    exact ⟨x, u, s, by rw [pow_zero, mul_one]; exact hn', h, hi, hres⟩
  | succ k ih =>
    intro tau x u x' hx hr h
    have hint : L1.Interior eps ({ x := x, u := u, r := A.mulVec x - b } : L1 m n) :=
      ⟨fun i => by
        have := abs_lt.1 (hx i)
        simp only [L1.fu1, Pi.sub_apply]; linarith, fun i => by
        have := abs_lt.1 (hx i)
        simp only [L1.fu2, Pi.sub_apply, Pi.neg_apply]; linarith, hr⟩
    obtain ⟨s, hn⟩ := newton_ok solve hsolve A eps tau 1e-3 50 _ hint
    obtain ⟨hi, hres⟩ := L1.newton_interior A eps solve b tau 1e-3 50 _ s hint rfl hn
    have hn' : l1qcNewton solve A b eps tau 1e-3 x u = .ok s := hn
    rw [barrier, hn'] at h
    simp only at h
    obtain ⟨y, v, s', h1, h2⟩ := ih (tau * 10) s.x s.u x' (fun i => by
        have h1 := hi.1 i
        have h2 := hi.2.1 i
        simp only [L1.fu1, L1.fu2, Pi.sub_apply, Pi.neg_apply] at h1 h2
        exact abs_lt.2 ⟨by linarith, by linarith⟩) (by rw [← hres]; exact hi.2.2) h
    refine ⟨y, v, s', ?_, h2⟩
    rw [pow_succ, ← mul_assoc, mul_right_comm]
    exact h1

/-- C220. The vector `_bp_denoise` returns comes from a Newton pass with a weight `tau` of at least `1000 (2 n + 1)`: its sum of
absolute values exceeds that of any vector `z` with `‖A z - b‖ ≤ eps` by at most 0.001, up to the slope of the barrier function
towards `z` at which that pass stopped. -/
theorem c220_result (solve : Solve) (hsolve : SolveContract solve) (A : Mat m n) (b : Vec m) (hb : b ≠ 0) (eps : ℝ) (heps : 0 < eps)
    (x : Vec n) (h : bpDenoise solve A b eps = .ok x) :
    ∃ (tau : ℝ) (y v : Vec n) (s : L1 m n), 1000 * (2 * n + 1) ≤ tau ∧ l1qcNewton solve A b eps tau 1e-3 y v = .ok s ∧ s.x = x ∧
      ∀ z : Vec n, (A.mulVec z - b) ⬝ᵥ (A.mulVec z - b) ≤ eps ^ 2 →
        ∑ i, |x i| ≤ ∑ i, |z i| + 0.001 - s.slope A eps tau (z - x) fun i => |z i| - s.u i := by
  have hu : IsUnit (A * Aᵀ).det := by
    by_contra hu
    unfold bpDenoise at h
    rw [hsolve.2 _ _ b hu] at h
    simp at h
  obtain ⟨w, hw, hww⟩ := hsolve.1 _ _ b hu
  unfold bpDenoise at h
  rw [hw] at h
  simp only at h
  have hAx : A.mulVec (Aᵀ.mulVec w) = b := by rw [mulVec_mulVec]; exact hww
  set x0 := Aᵀ.mulVec w with hx0
  have hx0ne : x0 ≠ 0 := by
    intro h0; rw [h0, mulVec_zero] at hAx; exact hb hAx.symm
  obtain ⟨i0, hi0⟩ := Function.ne_iff.1 hx0ne
  set big := (List.ofFn fun i => |x0 i|).foldl max 0 with hbig
  have hle : ∀ i, |x0 i| ≤ big := fun i => (le_foldl_max _ _).2 _ (by
    rw [List.mem_ofFn]; exact ⟨i, rfl⟩)
  have hbpos : 0 < big := lt_of_lt_of_le (abs_pos.2 hi0) (hle i0)
  set tau0 : ℝ := max ((2.0 * n + 1) / ∑ i, |x0 i|) 1.0 with htau0
  set k := ⌈(Real.log (2.0 * n + 1) - Real.log 1e-3 - Real.log tau0) / Real.log 10⌉₊ with hk
  have ht0 : 0 < tau0 := lt_of_lt_of_le (by norm_num) (le_max_right _ _)
  obtain ⟨y, v, s, h1, h2, h3, h4⟩ := barrier_last solve hsolve A b eps k tau0 x0
    (fun i => 0.95 * |x0 i| + 0.10 * big) x (fun i => by
      have h1 := hle i
      have h2 := abs_nonneg (x0 i)
      norm_num
      nlinarith) (by rw [hAx, sub_self, dotProduct_zero]; positivity) h
  have hl10 : 0 < Real.log 10 := Real.log_pos (by norm_num)
  have hbig : 1000 * (2 * (n : ℝ) + 1) ≤ tau0 * 10 ^ k := by
    have hn : (0 : ℝ) < 2.0 * n + 1 := by positivity
    have hc := Nat.le_ceil ((Real.log (2.0 * n + 1) - Real.log 1e-3 - Real.log tau0) / Real.log 10)
    rw [← hk, div_le_iff₀ hl10] at hc
    have : Real.log ((2.0 * n + 1) / 1e-3) ≤ Real.log (tau0 * 10 ^ k) := by
      rw [Real.log_div hn.ne' (by norm_num), Real.log_mul ht0.ne' (by positivity), Real.log_pow]
      linarith
    have := (Real.log_le_log_iff (by positivity) (by positivity)).1 this
    norm_num at this ⊢
    linarith
  have htau : 0 < tau0 * 10 ^ k := by positivity
  refine ⟨tau0 * 10 ^ k, y, v, s, hbig, h1, h2, fun z hz => ?_⟩
  have hg := L1.c220_gap A eps (tau0 * 10 ^ k) s b h3 h4 htau z hz
  rw [h2] at hg
  have : (2 * (n : ℝ) + 1) / (tau0 * 10 ^ k) ≤ 0.001 := by
    rw [div_le_iff₀ htau]
    norm_num
    linarith
  linarith

/-! ## Examples -/

/-- One equation `x₁ + 2 x₂ = 3` met exactly at `(1, 1)`, inside the constraints for the noise level 1. -/
def bpDemo : L1 1 2 := { x := ![1, 1], u := ![2, 2], r := ![0] }

theorem bpDemo_interior : bpDemo.Interior 1 := by
  refine ⟨fun i => ?_, fun i => ?_, ?_⟩
  · fin_cases i <;> norm_num [bpDemo, L1.fu1]
  · fin_cases i <;> norm_num [bpDemo, L1.fu2]
  · norm_num [bpDemo]

example : HasDerivAt (fun t => (bpDemo.move !![1, 2] ![1, 0] ![0, 0] t).f 1 10) (bpDemo.slope !![1, 2] 1 10 ![1, 0] ![0, 0]) 0 :=
  L1.c220_slope _ _ _ _ _ _ bpDemo_interior (by norm_num)

example : 0 < bpDemo.smax !![1, 2] 1 ![1, 0] ![0, 0] :=
  (L1.c220_reach !![1, 2] 1 10 bpDemo ![1, 0] ![0, 0] bpDemo_interior (by norm_num [Matrix.mulVec, dotProduct, Fin.sum_univ_two])).1

example : ∃ dx, (bpDemo.h11p !![1, 2] 1).mulVec dx = bpDemo.w1p !![1, 2] 1 10 := by
  obtain ⟨solve, hsolve⟩ := exists_solve
  obtain ⟨dx, -, h⟩ := hsolve.1 2 _ (bpDemo.w1p !![1, 2] 1 10) (h11p_unit !![1, 2] 1 bpDemo bpDemo_interior)
  exact ⟨dx, h⟩

example : ∃ s', L1.newton exists_solve.choose !![1, 2] 1 10 1e-3 50 bpDemo = .ok s' ∧ s'.f 1 10 ≤ bpDemo.f 1 10 := by
  obtain ⟨s', h⟩ := newton_ok _ exists_solve.choose_spec !![1, 2] 1 10 1e-3 50 bpDemo bpDemo_interior
  exact ⟨s', h, L1.c220_descent _ _ _ _ exists_solve.choose_spec (by norm_num) _ _ _ _ bpDemo_interior h⟩

example : bpDemo.r = (!![1, 2] : Mat 1 2).mulVec bpDemo.x - ![3] := by
  funext i
  fin_cases i
  simp [bpDemo]
  norm_num

example : ∃ x, bpDenoise exists_solve.choose (!![1, 2] : Mat 1 2) ![3] 1 = .ok x := by
  obtain ⟨x, h, -⟩ := (c85_noise_level _ exists_solve.choose_spec (!![1, 2] : Mat 1 2) ![3]
    (fun h => by have := congrFun h 0; simp at this) 1 one_pos).1 (by
      rw [isUnit_iff_ne_zero, det_unique, mul_apply, Fin.sum_univ_two]
      simp [transpose_apply]
      norm_num)
  exact ⟨x, h⟩

end EQ.Solver
