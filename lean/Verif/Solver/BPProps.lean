import Verif.Solver.BPModel
import Verif.Solver.CGProps
import Verif.Solver.LinProps
import Mathlib.Algebra.Order.BigOperators.Group.List
import Mathlib.Tactic.LinearCombination

/-!
# Compressed sensing: folds, noise level, feasibility (C45, C46, C85, C86)
-/

namespace EQ.Solver
open Matrix EQ.Basis

variable {m n : ℕ}

/-! ## Strict feasibility is kept by every Newton step -/

namespace L1

/-- Strictly inside the constraints `|x| ≤ u`, `‖A x - b‖ ≤ eps`. -/
def Interior (eps : ℝ) (s : L1 m n) : Prop :=
  (∀ i, s.fu1 i < 0) ∧ (∀ i, s.fu2 i < 0) ∧ s.r ⬝ᵥ s.r < eps ^ 2

theorem quad_root {a b c : ℝ} (ha : 0 < a) (hc : c < 0) :
    0 < (-b + √(b ^ 2 - 4 * a * c)) / (2 * a) ∧
    ∀ t, 0 ≤ t → t < (-b + √(b ^ 2 - 4 * a * c)) / (2 * a) → a * t ^ 2 + b * t + c < 0 := by
  set D := b ^ 2 - 4 * a * c with hD
  have hpos : 0 < D - b ^ 2 := by rw [hD]; nlinarith
  have hD0 : 0 ≤ D := by nlinarith [sq_nonneg b]
  have hs := Real.sq_sqrt hD0
  have hs0 := Real.sqrt_nonneg D
  have hroot : |b| < √D := by
    rw [← Real.sqrt_sq_eq_abs]
    exact Real.sqrt_lt_sqrt (sq_nonneg _) (by linarith)
  have hb := abs_lt.1 hroot
  refine ⟨div_pos (by linarith) (by linarith), fun t ht htr => ?_⟩
  rw [lt_div_iff₀ (by linarith)] at htr
  -- `4 a (a t² + b t + c) = (2 a t + b)² - D`
  have h1 : 2 * a * t + b < √D := by linarith
  have h2 : -√D < 2 * a * t + b := by nlinarith
  have h3 : (2 * a * t + b) ^ 2 < D := by
    rw [← hs]; exact sq_lt_sq' h2 h1
  have h4 : 4 * a * (a * t ^ 2 + b * t + c) < 0 := by
    have : 4 * a * (a * t ^ 2 + b * t + c) = (2 * a * t + b) ^ 2 - D := by rw [hD]; ring
    linarith
  by_contra hcon
  push Not at hcon
  have : 0 ≤ 4 * a * (a * t ^ 2 + b * t + c) := by positivity
  linarith

variable (A : Mat m n) (eps : ℝ) (s : L1 m n) (dx du : Vec n)

theorem limits_pos (hs : s.Interior eps) (ha : A.mulVec dx ⬝ᵥ A.mulVec dx ≠ 0) :
    ∀ l ∈ s.limits A eps dx du, 0 < l := by
  intro l hl
  unfold limits at hl
  simp only [List.mem_append, List.mem_map, List.mem_filter, decide_eq_true_eq,
    List.mem_singleton] at hl
  rcases hl with (⟨i, ⟨_, hi⟩, rfl⟩ | ⟨i, ⟨_, hi⟩, rfl⟩) | rfl
  · exact div_pos (by linarith [hs.1 i]) hi
  · exact div_pos (by linarith [hs.2.1 i]) hi
  · have := (quad_root (b := 2 * (s.r ⬝ᵥ A.mulVec dx))
      (lt_of_le_of_ne (dot_self_nonneg _) ha.symm)
      (show s.r ⬝ᵥ s.r - eps ^ 2 < 0 by linarith [hs.2.2])).1
    have h2 : (2.0 : ℝ) = 2 := by norm_num
    rw [h2]
    exact this

theorem foldl_min_le (l : List ℝ) (a : ℝ) : l.foldl min a ≤ a ∧ ∀ x ∈ l, l.foldl min a ≤ x := by
  induction l generalizing a with
  | nil => simp
  | cons y l ih =>
    obtain ⟨h1, h2⟩ := ih (min a y)
    refine ⟨h1.trans (min_le_left _ _), fun x hx => ?_⟩
    rcases List.mem_cons.1 hx with rfl | hx
    · exact h1.trans (min_le_right _ _)
    · exact h2 x hx

theorem foldl_min_pos (l : List ℝ) (a : ℝ) (ha : 0 < a) (hl : ∀ x ∈ l, 0 < x) :
    0 < l.foldl min a := by
  induction l generalizing a with
  | nil => simpa
  | cons y l ih =>
    exact ih (min a y) (lt_min ha (hl y (by simp))) fun x hx => hl x (by simp [hx])

theorem smax_pos (hs : s.Interior eps) (ha : A.mulVec dx ⬝ᵥ A.mulVec dx ≠ 0) :
    0 < s.smax A eps dx du :=
  foldl_min_pos _ _ (by norm_num) (limits_pos A eps s dx du hs ha)

theorem smax_le : ∀ l ∈ s.limits A eps dx du, s.smax A eps dx du ≤ l :=
  (foldl_min_le _ _).2

/-- Any step shorter than the limit stays strictly inside. -/
theorem move_interior (hs : s.Interior eps) (ha : A.mulVec dx ⬝ᵥ A.mulVec dx ≠ 0) (t : ℝ)
    (ht : 0 ≤ t) (hlt : t < s.smax A eps dx du) : (s.move A dx du t).Interior eps := by
  have hl : ∀ l ∈ s.limits A eps dx du, t < l := fun l h => hlt.trans_le (smax_le A eps s dx du l h)
  have hm1 : ∀ i, dx i - du i > 0 → -s.fu1 i / (dx i - du i) ∈ s.limits A eps dx du := by
    intro i hi
    unfold limits
    simp only [List.mem_append, List.mem_map, List.mem_filter, decide_eq_true_eq]
    exact .inl (.inl ⟨i, ⟨List.mem_finRange _, hi⟩, rfl⟩)
  have hm2 : ∀ i, -dx i - du i > 0 → -s.fu2 i / (-dx i - du i) ∈ s.limits A eps dx du := by
    intro i hi
    unfold limits
    simp only [List.mem_append, List.mem_map, List.mem_filter, decide_eq_true_eq]
    exact .inl (.inr ⟨i, ⟨List.mem_finRange _, hi⟩, rfl⟩)
  refine ⟨fun i => ?_, fun i => ?_, ?_⟩
  · have e : (s.move A dx du t).fu1 i = s.fu1 i + t * (dx i - du i) := by
      simp [fu1, move]; ring
    rw [e]
    have h0 := hs.1 i
    by_cases hi : dx i - du i > 0
    · have := hl _ (hm1 i hi)
      rw [lt_div_iff₀ hi] at this
      linarith
    · push Not at hi
      nlinarith
  · have e : (s.move A dx du t).fu2 i = s.fu2 i + t * (-dx i - du i) := by
      simp [fu2, move]; ring
    rw [e]
    have h0 := hs.2.1 i
    by_cases hi : -dx i - du i > 0
    · have := hl _ (hm2 i hi)
      rw [lt_div_iff₀ hi] at this
      linarith
    · push Not at hi
      nlinarith
  · have hroot := (quad_root (b := 2 * (s.r ⬝ᵥ A.mulVec dx))
      (lt_of_le_of_ne (dot_self_nonneg _) ha.symm)
      (show s.r ⬝ᵥ s.r - eps ^ 2 < 0 by linarith [hs.2.2])).2 t ht (by
        have h2 : (2.0 : ℝ) = 2 := by norm_num
        apply hl
        unfold limits
        simp only [List.mem_append, List.mem_singleton, h2]
        exact .inr trivial)
    have e : (s.move A dx du t).r ⬝ᵥ (s.move A dx du t).r =
        s.r ⬝ᵥ s.r + t * (2 * (s.r ⬝ᵥ A.mulVec dx)) + t ^ 2 * (A.mulVec dx ⬝ᵥ A.mulVec dx) := by
      simp only [move, dotProduct_add, add_dotProduct, dotProduct_smul, smul_dotProduct, smul_eq_mul]
      rw [dotProduct_comm (A.mulVec dx) s.r]
      ring
    rw [e]
    linarith

theorem search_interior (tau : ℝ) (hs : s.Interior eps)
    (ha : A.mulVec dx ⬝ᵥ A.mulVec dx ≠ 0) : ∀ (fuel : ℕ) (t : ℝ), 0 ≤ t →
    t < s.smax A eps dx du → ∀ s', s.search A eps tau dx du fuel t = some s' →
      s'.Interior eps ∧ ∃ t', s' = s.move A dx du t' := by
  intro fuel
  induction fuel with
  | zero => intro t _ _ s' h; simp [search] at h
  | succ fuel ih =>
    intro t h0 h1 s' h
    unfold search at h
    split_ifs at h with hc
    · rw [← Option.some.inj h]
      exact ⟨move_interior A eps s dx du hs ha t h0 h1, t, rfl⟩
    · refine ih (0.5 * t) (by linarith) ?_ s' h
      have : (0.5 : ℝ) * t ≤ t := by linarith
      linarith

/-- The Newton loop stays strictly inside and its residual belongs to its point. -/
theorem newton_interior (solve : Solve) (b : Vec m) (tau newtontol : ℝ) : ∀ (fuel : ℕ) (s s' : L1 m n),
    s.Interior eps → s.r = A.mulVec s.x - b → newton solve A eps tau newtontol fuel s = .ok s' →
      s'.Interior eps ∧ s'.r = A.mulVec s'.x - b := by
  intro fuel
  induction fuel with
  | zero =>
    intro s s' hs hr h
    simp only [newton, Except.ok.injEq] at h
    exact h ▸ ⟨hs, hr⟩
  | succ fuel ih =>
    intro s s' hs hr h
    unfold newton at h
    cases hsol : solve n (s.h11p A eps) (s.w1p A eps tau) with
    | error e => rw [hsol] at h; simp at h
    | ok dx =>
      rw [hsol] at h
      simp only at h
      split at h
      · exact (Except.ok.inj h) ▸ ⟨hs, hr⟩
      split at h
      · exact (Except.ok.inj h) ▸ ⟨hs, hr⟩
      · rename_i h2
        have hpos := smax_pos A eps s dx (s.du tau dx) hs h2
        cases hse : s.search A eps tau dx (s.du tau dx) 32 (0.99 * s.smax A eps dx (s.du tau dx)) with
        | none =>
          rw [hse] at h
          exact (Except.ok.inj h) ▸ ⟨hs, hr⟩
        | some s1 =>
          rw [hse] at h
          simp only at h
          obtain ⟨hi, t, ht⟩ := search_interior A eps s dx (s.du tau dx) tau hs h2 32 _
            (by positivity) (by linarith) s1 hse
          have hr1 : s1.r = A.mulVec s1.x - b := by
            rw [ht]
            simp only [move, mulVec_add, mulVec_smul, hr]
            abel
          split_ifs at h with h3
          · exact (Except.ok.inj h) ▸ ⟨hi, hr1⟩
          · exact ih s1 s' hi hr1 h

end L1

theorem le_foldl_max (l : List ℝ) (a : ℝ) : a ≤ l.foldl max a ∧ ∀ x ∈ l, x ≤ l.foldl max a := by
  induction l generalizing a with
  | nil => simp
  | cons y l ih =>
    obtain ⟨h1, h2⟩ := ih (max a y)
    refine ⟨(le_max_left _ _).trans h1, fun x hx => ?_⟩
    rcases List.mem_cons.1 hx with rfl | hx
    · exact (le_max_right _ _).trans h1
    · exact h2 x hx

/-- What is assumed of `np.linalg.solve`: it solves systems with an invertible matrix and raises
`LinAlgError` for singular matrices. -/
def SolveContract (solve : Solve) : Prop :=
  (∀ n (M : Mat n n) v, IsUnit M.det → ∃ z, solve n M v = .ok z ∧ M.mulVec z = v) ∧
  ∀ n (M : Mat n n) v, ¬IsUnit M.det → solve n M v = .error .linAlgError

/-- The matrix of the Newton system is invertible strictly inside the constraints. -/
theorem h11p_unit (A : Mat m n) (eps : ℝ) (s : L1 m n) (hs : s.Interior eps) :
    IsUnit (s.h11p A eps).det := by
  rw [isUnit_iff_ne_zero]
  intro hdet
  obtain ⟨v, hv, hv0⟩ := exists_mulVec_eq_zero_iff.2 hdet
  have hfe : s.fe eps < 0 := by
    have := hs.2.2
    unfold L1.fe; norm_num; linarith
  have hq : v ⬝ᵥ (s.h11p A eps).mulVec v = 0 := by rw [hv0, dotProduct_zero]
  have hsig : ∀ i, 0 < s.sig11 i - s.sig12 i ^ 2 / s.sig11 i := by
    intro i
    have h1 := hs.1 i
    have h2 := hs.2.1 i
    have p1 : 0 < 1 / s.fu1 i ^ 2 := by have := h1.ne; positivity
    have p2 : 0 < 1 / s.fu2 i ^ 2 := by have := h2.ne; positivity
    have e12 : s.sig12 i = 1 / s.fu2 i ^ 2 - 1 / s.fu1 i ^ 2 := by unfold L1.sig12; ring
    have e11 : s.sig11 i = 1 / s.fu1 i ^ 2 + 1 / s.fu2 i ^ 2 := rfl
    rw [e12, e11]
    set p := 1 / s.fu1 i ^ 2
    set q := 1 / s.fu2 i ^ 2
    have : p + q - (q - p) ^ 2 / (p + q) = 4 * p * q / (p + q) := by field_simp; ring
    rw [this]
    positivity
  have hexp : v ⬝ᵥ (s.h11p A eps).mulVec v =
      ∑ i, (s.sig11 i - s.sig12 i ^ 2 / s.sig11 i) * v i ^ 2 +
      -(1 / s.fe eps) * (A.mulVec v ⬝ᵥ A.mulVec v) +
      (1 / s.fe eps) ^ 2 * (v ⬝ᵥ Aᵀ.mulVec s.r) ^ 2 := by
    unfold L1.h11p
    rw [add_mulVec, sub_mulVec, dotProduct_add, dotProduct_sub]
    have e1 : v ⬝ᵥ (Matrix.diagonal fun i => s.sig11 i - s.sig12 i ^ 2 / s.sig11 i).mulVec v =
        ∑ i, (s.sig11 i - s.sig12 i ^ 2 / s.sig11 i) * v i ^ 2 := by
      unfold dotProduct
      refine Finset.sum_congr rfl fun i _ => ?_
      rw [mulVec_diagonal]; ring
    have e2 : v ⬝ᵥ ((1 / s.fe eps) • (Aᵀ * A)).mulVec v =
        (1 / s.fe eps) * (A.mulVec v ⬝ᵥ A.mulVec v) := by
      rw [smul_mulVec, dotProduct_smul, smul_eq_mul, ← mulVec_mulVec, dotProduct_mulVec,
        vecMul_transpose]
    have e3 : v ⬝ᵥ ((1 / s.fe eps) ^ 2 • vecMulVec (Aᵀ.mulVec s.r) (Aᵀ.mulVec s.r)).mulVec v =
        (1 / s.fe eps) ^ 2 * (v ⬝ᵥ Aᵀ.mulVec s.r) ^ 2 := by
      rw [smul_mulVec, dotProduct_smul, smul_eq_mul, vecMulVec_mulVec]
      congr 1
      rw [dotProduct_smul, dotProduct_comm (Aᵀ.mulVec s.r) v]
      simp [sq]
    rw [e1, e2, e3]; ring
  rw [hexp] at hq
  obtain ⟨i0, hi0⟩ := Function.ne_iff.1 hv
  have t1 : 0 < ∑ i, (s.sig11 i - s.sig12 i ^ 2 / s.sig11 i) * v i ^ 2 := by
    refine Finset.sum_pos' (fun i _ => mul_nonneg (hsig i).le (sq_nonneg _)) ⟨i0, Finset.mem_univ _, ?_⟩
    have : v i0 ≠ 0 := hi0
    have := hsig i0
    positivity
  have t2 : 0 ≤ -(1 / s.fe eps) * (A.mulVec v ⬝ᵥ A.mulVec v) := by
    refine mul_nonneg ?_ (dot_self_nonneg _)
    rw [neg_nonneg]
    exact (one_div_neg.2 hfe).le
  have t3 : 0 ≤ (1 / s.fe eps) ^ 2 * (v ⬝ᵥ Aᵀ.mulVec s.r) ^ 2 := by positivity
  linarith

/-- Strictly inside the constraints the Newton loop does not raise. -/
theorem newton_ok (solve : Solve) (hsolve : SolveContract solve) (A : Mat m n) (eps tau tol : ℝ) :
    ∀ (fuel : ℕ) (s : L1 m n), s.Interior eps →
      ∃ s', L1.newton solve A eps tau tol fuel s = .ok s' := by
  intro fuel
  induction fuel with
  | zero => intro s _; exact ⟨s, rfl⟩
  | succ fuel ih =>
    intro s hs
    obtain ⟨dx, hdx, -⟩ := hsolve.1 n (s.h11p A eps) (s.w1p A eps tau) (h11p_unit A eps s hs)
    unfold L1.newton
    rw [hdx]
    simp only
    split
    · exact ⟨s, rfl⟩
    split
    · exact ⟨s, rfl⟩
    · rename_i h2
      have hpos := L1.smax_pos A eps s dx (s.du tau dx) hs h2
      cases hse : s.search A eps tau dx (s.du tau dx) 32 (0.99 * s.smax A eps dx (s.du tau dx)) with
      | none => exact ⟨s, rfl⟩
      | some s1 =>
        simp only
        split
        · exact ⟨s1, rfl⟩
        · exact ih s1 (L1.search_interior A eps s dx (s.du tau dx) tau hs h2 32 _
            (by positivity) (by linarith) s1 hse).1

theorem barrier_feasible (solve : Solve) (hsolve : SolveContract solve) (A : Mat m n) (b : Vec m)
    (eps : ℝ) : ∀ (k : ℕ) (tau : ℝ) (x u : Vec n),
      (∀ i, |x i| < u i) → (A.mulVec x - b) ⬝ᵥ (A.mulVec x - b) < eps ^ 2 →
      ∃ x', barrier solve A b eps k tau x u = .ok x' ∧
      (A.mulVec x' - b) ⬝ᵥ (A.mulVec x' - b) < eps ^ 2 := by
  intro k
  induction k with
  | zero => intro tau x u _ hr; exact ⟨x, rfl, hr⟩
  | succ k ih =>
    intro tau x u hx hr
    have hint : L1.Interior eps ({ x := x, u := u, r := A.mulVec x - b } : L1 m n) :=
      ⟨fun i => by
        have := abs_lt.1 (hx i)
        simp only [L1.fu1, Pi.sub_apply]; linarith, fun i => by
        have := abs_lt.1 (hx i)
        simp only [L1.fu2, Pi.sub_apply, Pi.neg_apply]; linarith, hr⟩
    obtain ⟨s, hn⟩ := newton_ok solve hsolve A eps tau 1e-3 50 _ hint
    obtain ⟨hi, hres⟩ := L1.newton_interior A eps solve b tau 1e-3 50 _ s hint rfl hn
    unfold barrier
    rw [show l1qcNewton solve A b eps tau 1e-3 x u = .ok s from hn]
    simp only
    refine ih (tau * 10) s.x s.u (fun i => ?_) ?_
    · have h1 := hi.1 i
      have h2 := hi.2.1 i
      simp only [L1.fu1, L1.fu2, Pi.sub_apply, Pi.neg_apply] at h1 h2
      exact abs_lt.2 ⟨by linarith, by linarith⟩
    · rw [← hres]; exact hi.2.2

/-- C85. For every matrix `A`, every non-zero right-hand side and every noise level `eps > 0`: if
`A Aᵀ` is invertible, `_bp_denoise` returns a vector with `‖A x - b‖ < eps`; otherwise it raises
`LinAlgError`. -/
theorem c85_noise_level (solve : Solve) (hsolve : SolveContract solve) (A : Mat m n) (b : Vec m)
    (hb : b ≠ 0) (eps : ℝ) (heps : 0 < eps) :
    (IsUnit (A * Aᵀ).det → ∃ x, bpDenoise solve A b eps = .ok x ∧ √(sqRes A b x) < eps) ∧
    (¬IsUnit (A * Aᵀ).det → bpDenoise solve A b eps = .error .linAlgError) := by
  constructor
  · intro hu
    obtain ⟨w, hw, hww⟩ := hsolve.1 _ _ b hu
    unfold bpDenoise
    rw [hw]
    simp only
    have hAx : A.mulVec (Aᵀ.mulVec w) = b := by rw [mulVec_mulVec]; exact hww
    set x0 := Aᵀ.mulVec w with hx0
    have hx0ne : x0 ≠ 0 := by
      intro h0; rw [h0, mulVec_zero] at hAx; exact hb hAx.symm
    obtain ⟨i0, hi0⟩ := Function.ne_iff.1 hx0ne
    set big := (List.ofFn fun i => |x0 i|).foldl max 0 with hbig
    have hle : ∀ i, |x0 i| ≤ big := fun i => (le_foldl_max _ _).2 _ (by
      rw [List.mem_ofFn]; exact ⟨i, rfl⟩)
    have hbpos : 0 < big := lt_of_lt_of_le (abs_pos.2 hi0) (hle i0)
    obtain ⟨x, hx, hres⟩ := barrier_feasible solve hsolve A b eps
      (⌈(Real.log (2.0 * n + 1) - Real.log 1e-3 - Real.log (max ((2.0 * n + 1) / ∑ i, |x0 i|) 1.0)) /
        Real.log 10⌉₊ + 1) (max ((2.0 * n + 1) / ∑ i, |x0 i|) 1.0) x0
      (fun i => 0.95 * |x0 i| + 0.10 * big) (fun i => by
        have h1 := hle i
        have h2 := abs_nonneg (x0 i)
        norm_num
        nlinarith) (by rw [hAx, sub_self, dotProduct_zero]; positivity)
    refine ⟨x, hx, ?_⟩
    have e : sqRes A b x = (A.mulVec x - b) ⬝ᵥ (A.mulVec x - b) := by
      unfold sqRes dotProduct
      exact Finset.sum_congr rfl fun i _ => by simp [sq]
    rw [e, show eps = √(eps ^ 2) by rw [Real.sqrt_sq heps.le]]
    exact Real.sqrt_lt_sqrt (dot_self_nonneg _) hres
  · intro hu
    unfold bpDenoise
    rw [hsolve.2 _ _ b hu]

/-- The contract of `solve` can be met. -/
theorem exists_solve : ∃ solve : Solve, SolveContract solve := by
  classical
  refine ⟨fun n M v => if IsUnit M.det then .ok (M⁻¹.mulVec v) else .error .linAlgError,
    fun n M v h => ⟨M⁻¹.mulVec v, if_pos h, ?_⟩, fun n M v h => if_neg h⟩
  rw [mulVec_mulVec, mul_nonsing_inv _ h, one_mulVec]

/-- An underdetermined system to which C85 applies. -/
example : IsUnit ((!![1, 2] : Mat 1 2) * (!![1, 2] : Mat 1 2)ᵀ).det ∧ (![3] : Vec 1) ≠ 0 := by
  refine ⟨?_, fun h => ?_⟩
  · rw [isUnit_iff_ne_zero]
    rw [det_unique, mul_apply, Fin.sum_univ_two]
    simp [transpose_apply]
    norm_num
  · have := congrFun h 0
    simp at this

end EQ.Solver
