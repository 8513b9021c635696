import Verif.Sub.HitProps
import Mathlib.Tactic.FinCases

/-!
# C67: runs that leave the box, and instances of the hypotheses

Two dimensions, one active direction `(3/5, 4/5)`, active coordinate `0`.
-/

namespace EQ.Sub
open EQ.Basis Matrix

/-- A rotation. -/
noncomputable def Wdemo : Matrix (Fin (1 + 1)) (Fin (1 + 1)) ℝ := Matrix.of ![![3/5, 4/5], ![4/5, -(3/5)]]

lemma Wdemo_orth : Wdemoᵀ * Wdemo = 1 := by
  ext i j
  rw [Matrix.mul_apply, Fin.sum_univ_two]
  fin_cases i <;> fin_cases j <;> simp [Wdemo] <;> norm_num

lemma W2demo0 : W2 Wdemo 0 0 = 4/5 := by simp [W2, Wdemo, Fin.natAdd]
lemma W2demo1 : W2 Wdemo 1 0 = -(3/5) := by simp [W2, Wdemo, Fin.natAdd]

lemma shiftDemo (i) : shift Wdemo 0 i = 0 := by simp [shift]

lemma activeDemo : active Wdemo 0 = 0 := by funext k; simp [active]

lemma zeroBox {m : ℕ} : (0 : Fin m → ℝ) ∈ Box m := fun i => by simp

lemma liftDemo0 (z : Fin 1 → ℝ) : liftPoint Wdemo 0 z 0 = 4/5 * z 0 := by
  rw [lift_apply, shiftDemo, zero_add, Fin.sum_univ_one, W2demo0]

lemma liftDemo1 (z : Fin 1 → ℝ) : liftPoint Wdemo 0 z 1 = -(3/5) * z 0 := by
  rw [lift_apply, shiftDemo, zero_add, Fin.sum_univ_one, W2demo1]

/-- Whatever solver is used, the starting point is the origin. -/
lemma startDemo (linprog : ∀ {k r : ℕ}, LP k r → Option (Fin r → ℝ)) (hLP : LinprogOK linprog) :
    startPoint linprog Wdemo 0 = .ok 0 := by
  have hex := startLP_optimal (n := 1) (r := 1) (by norm_num) Wdemo_orth 0 zeroBox
  rw [activeDemo] at hex
  obtain ⟨v, hv⟩ := (hLP _ _ (startLP Wdemo 0)).2 hex
  have hopt := (hLP _ _ _).1 v hv
  have hn0 : √(∑ k, W2 Wdemo 0 k ^ 2) = 4/5 := by
    rw [Fin.sum_univ_one, W2demo0, Real.sqrt_sq (by norm_num)]
  have hn1 : √(∑ k, W2 Wdemo 1 k ^ 2) = 3/5 := by
    rw [Fin.sum_univ_one, W2demo1, neg_sq, Real.sqrt_sq (by norm_num)]
  have hf := (startLP_feasible Wdemo 0 v).1 hopt.1
  have hbest : (startLP Wdemo 0).Feasible ![0, 5/4] := by
    rw [startLP_feasible]
    intro i
    have h0 : (fun k : Fin 1 => (![0, 5/4] : Fin 2 → ℝ) k.castSucc) = 0 := by
      funext k; fin_cases k; rfl
    have hl : (![0, 5/4] : Fin 2 → ℝ) (Fin.last 1) = 5/4 := rfl
    rw [hl, h0]
    fin_cases i
    · show |liftPoint Wdemo 0 0 0| ≤ 1 - √(∑ k, W2 Wdemo 0 k ^ 2) * (5/4)
      rw [liftDemo0, hn0]; norm_num
    · show |liftPoint Wdemo 0 0 1| ≤ 1 - √(∑ k, W2 Wdemo 1 k ^ 2) * (5/4)
      rw [liftDemo1, hn1]; norm_num
  have h1 := hopt.2 _ hbest
  have hc : ∀ w : Fin 2 → ℝ, ∑ j, (startLP Wdemo 0).c j * w j = -w 1 := by
    intro w
    rw [Fin.sum_univ_two]
    have e0 : (startLP Wdemo 0).c 0 = 0 := rfl
    have e1 : (startLP Wdemo 0).c 1 = -1 := rfl
    rw [e0, e1]; ring
  rw [hc, hc] at h1
  have h2 := hf 0
  rw [liftDemo0, hn0] at h2
  have h3 : (![0, 5/4] : Fin 2 → ℝ) 1 = 5/4 := rfl
  have h4 : v (Fin.last 1) = v 1 := rfl
  have h5 : v (Fin.castSucc (0 : Fin 1)) = v 0 := rfl
  rw [h3] at h1
  rw [h4, h5] at h2
  have h6 := abs_le.1 h2
  have hv0 : v 0 = 0 := by linarith
  rw [startPoint_eq]
  simp only at hv
  rw [hv]
  simp only
  congr 1
  funext k
  fin_cases k
  exact hv0

/-- The four constraints. -/
lemma dotDemo (z : Fin 1 → ℝ) : (dotA (polyA Wdemo) z : Fin 4 → ℝ) = ![4/5 * z 0, -(3/5) * z 0, -(4/5) * z 0, 3/5 * z 0] := by
  funext i
  have hA : ∀ i, dotA (polyA Wdemo) z i = polyA Wdemo i 0 * z 0 := fun i => by rw [dotA, Fin.sum_univ_one]
  rw [hA]
  have h0 : polyA Wdemo 0 0 = 4/5 := W2demo0
  have h1 : polyA Wdemo 1 0 = -(3/5) := W2demo1
  have h2 : polyA Wdemo 2 0 = -(4/5) := by show -W2 Wdemo 0 0 = _; rw [W2demo0]
  have h3 : polyA Wdemo 3 0 = 3/5 := by show -W2 Wdemo 1 0 = _; rw [W2demo1, neg_neg]
  fin_cases i
  · show polyA Wdemo 0 0 * z 0 = _; rw [h0]; rfl
  · show polyA Wdemo 1 0 * z 0 = _; rw [h1]; rfl
  · show polyA Wdemo 2 0 * z 0 = _; rw [h2]; rfl
  · show polyA Wdemo 3 0 * z 0 = _; rw [h3]; rfl

lemma polyBDemo : (polyB Wdemo 0 : Fin 4 → ℝ) = ![-1, -1, -1, -1] := by
  funext i
  fin_cases i
  · show -1 - shift Wdemo 0 0 = -1; rw [shiftDemo]; ring
  · show -1 - shift Wdemo 0 1 = -1; rw [shiftDemo]; ring
  · show -1 + shift Wdemo 0 0 = -1; rw [shiftDemo]; ring
  · show -1 + shift Wdemo 0 1 = -1; rw [shiftDemo]; ring

/-- The first direction drawn is taken if it is not bad. -/
lemma findDirection_first {k r : ℕ} (A : Fin k → Fin r → ℝ) (b : Fin k → ℝ) (z0 : Fin r → ℝ) (draw : ℕ → Fin r → ℝ)
    (h : ∀ i, b i < dotA A (fun j => z0 j + 1/10^6/4 * draw 0 j) i) : findDirection A b z0 draw = some (draw 0) := by
  classical
  unfold findDirection
  rw [List.range_succ_eq_map, List.map_cons, List.find?_cons_of_pos]
  rw [decide_eq_true_iff]
  rintro ⟨i, hi⟩
  exact absurd (h i) (not_lt.2 hi)

/-- The limits of a step, for the four constraints. -/
lemma hitStepDemo {z0 d z1 : Fin 1 → ℝ} {u hi lo : ℝ}
    (hU : upperLimits (fun i => polyB Wdemo 0 i - dotA (polyA Wdemo) z0 i) (fun i => dotA (polyA Wdemo) d i) ≠ [])
    (hmin : amin (upperLimits (fun i => polyB Wdemo 0 i - dotA (polyA Wdemo) z0 i) (fun i => dotA (polyA Wdemo) d i)) =
      .ok (hi : EReal))
    (hmax : amax (lowerLimits (fun i => polyB Wdemo 0 i - dotA (polyA Wdemo) z0 i) (fun i => dotA (polyA Wdemo) d i)) =
      .ok lo) (hz : z1 0 = z0 0 + (lo + u * (hi - lo)) * d 0) :
    hitStep (polyA Wdemo) (polyB Wdemo 0) z0 d u = .ok z1 := by
  unfold hitStep
  simp only
  rw [hmin, hmax]
  simp only [uniform, EReal.coe_ne_bot, EReal.coe_ne_top, or_self, if_false, EReal.toReal_coe]
  congr 1
  funext j
  fin_cases j
  exact hz.symm

/-- The directions and uniform draws of the run. -/
noncomputable def drawEscape : ℕ → ℕ → Fin 1 → ℝ := fun i _ _ => if i = 0 then 1 else 1/100
/-- The uniform draws of the run. -/
noncomputable def uEscape : ℕ → ℝ := fun i => if i = 0 then 1 - 1/2^28 else 99/100

/-- The first point of the run. -/
noncomputable def zOne : Fin 1 → ℝ := fun _ => 5/4 - 5/2^29
/-- The second point of the run. -/
noncomputable def zTwo : Fin 1 → ℝ := fun _ =>
  zOne 0 + ((-2 + 1/2^27) * 125 + 99/100 * ((1/4 + 3/2^29) * (500/3) - (-2 + 1/2^27) * 125)) * (1/100)

lemma finRange4 : List.finRange (1 + 1 + (1 + 1)) = [0, 1, 2, 3] := rfl

lemma filterMap4 {α : Type} {F : Fin 4 → Option α} {a b c d : Option α} (h0 : F 0 = a) (h1 : F 1 = b) (h2 : F 2 = c)
    (h3 : F 3 = d) : List.filterMap F [0, 1, 2, 3] = a.toList ++ (b.toList ++ (c.toList ++ d.toList)) := by
  subst h0 h1 h2 h3
  simp only [List.filterMap_cons, List.filterMap_nil]
  cases F 0 <;> cases F 1 <;> cases F 2 <;> cases F 3 <;> rfl

lemma step_one : hitStep (polyA Wdemo) (polyB Wdemo 0) 0 (fun _ => 1) (1 - 1/2^28) = .ok zOne := by
  have hU : upperLimits (fun i => polyB Wdemo 0 i - dotA (polyA Wdemo) 0 i) (fun i => dotA (polyA Wdemo) (fun _ => 1) i) =
      [((5/3 : ℝ) : EReal), ((5/4 : ℝ) : EReal)] := by
    unfold upperLimits
    rw [finRange4, dotDemo, dotDemo, polyBDemo]
    refine (filterMap4 (a := none) (b := some ((5/3 : ℝ) : EReal)) (c := some ((5/4 : ℝ) : EReal)) (d := none) ?_ ?_ ?_ ?_).trans rfl
    · rw [if_neg]; simp <;> norm_num
    · rw [if_pos ⟨by simp <;> norm_num, by simp <;> norm_num⟩, if_neg (by simp)]; simp <;> norm_num
    · rw [if_pos ⟨by simp <;> norm_num, by simp <;> norm_num⟩, if_neg (by simp)]; simp <;> norm_num
    · rw [if_neg]; simp <;> norm_num
  have hL : lowerLimits (fun i => polyB Wdemo 0 i - dotA (polyA Wdemo) 0 i) (fun i => dotA (polyA Wdemo) (fun _ => 1) i) =
      [-(5/4), -(5/3)] := by
    unfold lowerLimits
    rw [finRange4, dotDemo, dotDemo, polyBDemo]
    refine (filterMap4 (a := some (-(5/4))) (b := none) (c := none) (d := some (-(5/3))) ?_ ?_ ?_ ?_).trans rfl
    · rw [if_pos ⟨by simp <;> norm_num, by simp <;> norm_num⟩]; simp <;> norm_num
    · rw [if_neg]; simp <;> norm_num
    · rw [if_neg]; simp <;> norm_num
    · rw [if_pos ⟨by simp <;> norm_num, by simp <;> norm_num⟩]; simp <;> norm_num
  refine hitStepDemo (hi := 5/4) (lo := -(5/4)) (by rw [hU]; simp) ?_ ?_ ?_
  · rw [hU]
    simp only [amin, List.foldl_cons, List.foldl_nil]
    rw [min_eq_right]
    rw [EReal.coe_le_coe_iff]; norm_num
  · rw [hL]
    simp only [amax, List.foldl_cons, List.foldl_nil]
    rw [max_eq_left]; norm_num
  · simp only [zOne, Pi.zero_apply]; norm_num

lemma step_two : hitStep (polyA Wdemo) (polyB Wdemo 0) zOne (fun _ => 1/100) (99/100) = .ok zTwo := by
  have hU : upperLimits (fun i => polyB Wdemo 0 i - dotA (polyA Wdemo) zOne i) (fun i => dotA (polyA Wdemo) (fun _ => 1/100) i) =
      [(((1/4 + 3/2^29) * (500/3) : ℝ) : EReal)] := by
    unfold upperLimits
    rw [finRange4, dotDemo, dotDemo, polyBDemo]
    refine (filterMap4 (a := none) (b := some (((1/4 + 3/2^29) * (500/3) : ℝ) : EReal)) (c := none) (d := none) ?_ ?_ ?_ ?_).trans rfl
    · rw [if_neg]; simp [zOne] <;> norm_num
    · rw [if_pos ⟨by simp <;> norm_num, by simp [zOne] <;> norm_num⟩, if_neg (by simp)]
      rw [Option.some_inj, EReal.coe_eq_coe_iff]
      simp [zOne]
      norm_num
    · rw [if_neg]; simp [zOne] <;> norm_num
    · rw [if_neg]; simp [zOne] <;> norm_num
  have hL : lowerLimits (fun i => polyB Wdemo 0 i - dotA (polyA Wdemo) zOne i) (fun i => dotA (polyA Wdemo) (fun _ => 1/100) i) =
      [(-2 + 1/2^27) * 125, (-(7/4) + 3/2^29) * (500/3)] := by
    unfold lowerLimits
    rw [finRange4, dotDemo, dotDemo, polyBDemo]
    refine (filterMap4 (a := some ((-2 + 1/2^27) * 125)) (b := none) (c := none) (d := some ((-(7/4) + 3/2^29) * (500/3))) ?_ ?_ ?_ ?_).trans rfl
    · rw [if_pos ⟨by simp [zOne] <;> norm_num, by simp [zOne] <;> norm_num⟩]; simp [zOne] <;> norm_num
    · rw [if_neg]; simp [zOne] <;> norm_num
    · rw [if_neg]; simp [zOne] <;> norm_num
    · rw [if_pos ⟨by simp [zOne] <;> norm_num, by simp [zOne] <;> norm_num⟩]; simp [zOne] <;> norm_num
  refine hitStepDemo (hi := (1/4 + 3/2^29) * (500/3)) (lo := (-2 + 1/2^27) * 125) (by rw [hU]; simp) ?_ ?_ ?_
  · rw [hU]; rfl
  · rw [hL]
    simp only [amax, List.foldl_cons, List.foldl_nil]
    rw [max_eq_left]; norm_num
  · simp only [zTwo]

lemma dir_one : findDirection (polyA Wdemo) (polyB Wdemo 0) 0 (drawEscape 0) = some fun _ => 1 := by
  have h : drawEscape 0 0 = fun _ => 1 := by funext j; simp [drawEscape]
  rw [← h]
  apply findDirection_first
  intro i
  rw [h, dotDemo, polyBDemo]
  fin_cases i <;> simp <;> norm_num

lemma dir_two : findDirection (polyA Wdemo) (polyB Wdemo 0) zOne (drawEscape 1) = some fun _ => 1/100 := by
  have h : drawEscape 1 0 = fun _ => 1/100 := by funext j; simp [drawEscape]
  rw [← h]
  apply findDirection_first
  intro i
  rw [h, dotDemo, polyBDemo]
  fin_cases i <;> simp [zOne] <;> norm_num

lemma runEscape (linprog : ∀ {k r : ℕ}, LP k r → Option (Fin r → ℝ)) (hLP : LinprogOK linprog) :
    hitAndRun linprog Wdemo 2 0 drawEscape uEscape = .ok [liftPoint Wdemo 0 zOne, liftPoint Wdemo 0 zTwo] := by
  have hu0 : uEscape 0 = 1 - 1/2^28 := by simp [uEscape]
  have hu1 : uEscape 1 = 99/100 := by simp [uEscape]
  unfold hitAndRun
  rw [startDemo linprog hLP]
  simp only
  unfold hitLoop
  rw [dir_one]
  simp only
  rw [hu0, step_one]
  simp only
  unfold hitLoop
  rw [zero_add, dir_two]
  simp only
  rw [hu1, step_two]
  simp only
  unfold hitLoop
  rfl

/-- **C67 is false**: with an orthogonal matrix, active coordinates of a point of the box, uniform draws inside the unit
interval and a solver that keeps its promise, two steps leave the box. The first step ends closer to a face than the
tolerance; the second then ignores that face. -/
theorem c67_box_violated : ∃ (W : Matrix (Fin (1 + 1)) (Fin (1 + 1)) ℝ) (x : Fin (1 + 1) → ℝ) (draw : ℕ → ℕ → Fin 1 → ℝ) (u : ℕ → ℝ),
    Wᵀ * W = 1 ∧ x ∈ Box (1 + 1) ∧ (∀ i, 0 < u i ∧ u i < 1) ∧
    ∀ linprog : ∀ {k r : ℕ}, LP k r → Option (Fin r → ℝ), LinprogOK linprog →
      ∃ Xs, hitAndRun linprog W 2 (active W x) draw u = .ok Xs ∧ ∃ x' ∈ Xs, x' ∉ Box (1 + 1) := by
  refine ⟨Wdemo, 0, drawEscape, uEscape, Wdemo_orth, zeroBox, fun i => ?_, fun linprog hLP => ?_⟩
  · unfold uEscape; split <;> norm_num
  · refine ⟨_, by rw [activeDemo]; exact runEscape linprog hLP, liftPoint Wdemo 0 zTwo, by simp, fun hbox => ?_⟩
    have := (hbox 0).2
    rw [liftDemo0] at this
    simp only [zTwo, zOne] at this
    norm_num at this

/-- The same run meets the hypotheses of `c67_active_partial` and, for its first sample, of `c67_box_partial`. -/
example : (∀ x ∈ [liftPoint Wdemo 0 zOne, liftPoint Wdemo 0 zTwo], active Wdemo x = 0) ∧
    liftPoint Wdemo 0 zOne ∈ Box (1 + 1) := by
  have hrun := runEscape @linprogDemo linprogDemo_ok
  refine ⟨(c67_active_partial @linprogDemo Wdemo Wdemo_orth 2 0 drawEscape uEscape _ hrun).2, ?_⟩
  refine c67_box_partial @linprogDemo Wdemo 2 0 drawEscape uEscape (fun i => ?_) 0 (startDemo _ linprogDemo_ok) _ hrun 0
    (by simp) ?_
  · unfold uEscape; split <;> norm_num
  · intro i
    show |liftPoint Wdemo 0 0 i| < _
    fin_cases i
    · show |liftPoint Wdemo 0 0 0| < _; rw [liftDemo0]; norm_num
    · show |liftPoint Wdemo 0 0 1| < _; rw [liftDemo1]; norm_num

/-- `c67_start_partial` at the centre of the box. -/
example : ∃ z0, startPoint @linprogDemo Wdemo 0 = .ok z0 ∧ liftPoint Wdemo 0 z0 ∈ Box (1 + 1) := by
  obtain ⟨z0, h1, h2, -⟩ := c67_start_partial @linprogDemo linprogDemo_ok (by norm_num) Wdemo Wdemo_orth 0 zeroBox
  rw [activeDemo] at h1 h2
  exact ⟨z0, h1, h2⟩

/-- `c67_axis_violated` at the coordinate directions: the inactive block of the identity has a zero row, and from the
centre the direction `1` is accepted. -/
example : W2 (1 : Matrix (Fin (1 + 1)) (Fin (1 + 1)) ℝ) 0 0 = 0 ∧
    findDirection (polyA (1 : Matrix (Fin (1 + 1)) (Fin (1 + 1)) ℝ)) (polyB 1 0) 0 (fun _ _ => 1) = some fun _ => 1 := by
  refine ⟨by simp [W2, Matrix.one_apply, Fin.ext_iff], ?_⟩
  apply findDirection_first (draw := fun _ _ => 1)
  intro i
  have hs : ∀ i, shift (1 : Matrix (Fin (1 + 1)) (Fin (1 + 1)) ℝ) 0 i = 0 := fun i => by simp [shift]
  refine Fin.addCases (fun i => ?_) (fun i => ?_) i
  · simp only [polyA, polyB, dotA, Fin.addCases_left, hs, Fin.sum_univ_one]
    fin_cases i <;> simp [W2, Matrix.one_apply, Fin.ext_iff] <;> norm_num
  · simp only [polyA, polyB, dotA, Fin.addCases_right, hs, Fin.sum_univ_one]
    fin_cases i <;> simp [W2, Matrix.one_apply, Fin.ext_iff] <;> norm_num

end EQ.Sub
