import Verif.Opt.DirProps
import Mathlib.LinearAlgebra.Matrix.DotProduct
import Mathlib.Data.Matrix.Mul
import Mathlib.Tactic.FieldSimp
import Mathlib.Tactic.IntervalCases

/-!
# Do the interpolation sets determine a quadratic? (C90)
-/

namespace EQ.Opt

open EQ.Basis

/-- Specification: the value of the quadratic with coefficients `c` (constant, linear, quadratic) at a point of the plane. -/
def quad2 (c : Fin 6 → ℝ) (x : Pt 2) : ℝ :=
  c 0 + c 1 * x 0 + c 2 * x 1 + c 3 * x 0 ^ 2 + c 4 * x 0 * x 1 + c 5 * x 1 ^ 2

/-- The index set of `_start` for two variables (optimisation.py:823-824, `basis.py:261-268`, columns reversed). -/
def basis2 : ℕ → Fin 2 → ℕ
  | 0 => ![0, 0] | 1 => ![1, 0] | 2 => ![0, 1] | 3 => ![2, 0] | 4 => ![1, 1] | _ => ![0, 2]

/-- It is the total-order index set with its columns reversed. -/
example : (totalOrderBasis [2, 2]) = .ok ((List.range 6).map fun k => [basis2 k 1, basis2 k 0]) := by decide

/-! ### A set that passes but does not determine a quadratic -/

/-- The points at hand. -/
noncomputable def badHat : List (Pt 2) := [![1, 1], ![0, 1], ![-1, 0], ![2, 1], ![2, 0]]

/-- The basis functions of the example. -/
noncomputable def badPhi (x : Pt 2) (k : ℕ) : ℝ := ∏ i, ((x i - (0 : Pt 2) i) / 2) ^ basis2 k i / (basis2 k i).factorial

theorem badPhi_0 (a b : ℝ) : badPhi ![a, b] 0 = 1 := by simp [badPhi, basis2, Fin.prod_univ_two]
theorem badPhi_1 (a b : ℝ) : badPhi ![a, b] 1 = a / 2 := by simp [badPhi, basis2, Fin.prod_univ_two]
theorem badPhi_2 (a b : ℝ) : badPhi ![a, b] 2 = b / 2 := by simp [badPhi, basis2, Fin.prod_univ_two]
theorem badPhi_3 (a b : ℝ) : badPhi ![a, b] 3 = a ^ 2 / 8 := by
  simp [badPhi, basis2, Fin.prod_univ_two, Nat.factorial]; ring
theorem badPhi_4 (a b : ℝ) : badPhi ![a, b] 4 = a * b / 4 := by
  simp [badPhi, basis2, Fin.prod_univ_two, Nat.factorial]; ring
theorem badPhi_5 (a b : ℝ) : badPhi ![a, b] 5 = b ^ 2 / 8 := by
  simp [badPhi, basis2, Fin.prod_univ_two, Nat.factorial]; ring

theorem dot6 (v φ : ℕ → ℝ) : dot 6 v φ = v 0 * φ 0 + v 1 * φ 1 + v 2 * φ 2 + v 3 * φ 3 + v 4 * φ 4 + v 5 * φ 5 := by
  simp [dot, List.range_succ]; ring

/-- Example: first row of the elimination. -/
noncomputable def r0 : ℕ → ℝ := badPhi ![0, 0]
/-- Example: second row of the elimination. -/
noncomputable def r1 : ℕ → ℝ := luRow 6 [r0] 1 (badPhi ![2, 1])
/-- Example: third row of the elimination. -/
noncomputable def r2 : ℕ → ℝ := luRow 6 [r0, r1] 2 (badPhi ![0, 1])
/-- Example: fourth row of the elimination. -/
noncomputable def r3 : ℕ → ℝ := luRow 6 [r0, r1, r2] 3 (badPhi ![-1, 0])
/-- Example: fifth row of the elimination. -/
noncomputable def r4 : ℕ → ℝ := luRow 6 [r0, r1, r2, r3] 4 (badPhi ![2, 0])
/-- Example: sixth row of the elimination. -/
noncomputable def r5 : ℕ → ℝ := luRow 6 [r0, r1, r2, r3, r4] 5 (badPhi ![1, 1])

theorem r0_vals : r0 0 = 1 ∧ r0 1 = 0 ∧ r0 2 = 0 ∧ r0 3 = 0 ∧ r0 4 = 0 ∧ r0 5 = 0 := by
  unfold r0
  rw [badPhi_0, badPhi_1, badPhi_2, badPhi_3, badPhi_4, badPhi_5]
  norm_num

theorem v1_vals : luV [r0] 1 0 = 0 ∧ luV [r0] 1 1 = 1 ∧ luV [r0] 1 2 = 0 ∧ luV [r0] 1 3 = 0 ∧ luV [r0] 1 4 = 0 ∧
    luV [r0] 1 5 = 0 := by
  obtain ⟨a0, a1, a2, a3, a4, a5⟩ := r0_vals
  simp [luV, a0, a1]

theorem r1_vals : r1 1 = 1 ∧ r1 2 = 1/2 ∧ r1 3 = 1/2 ∧ r1 4 = 1/2 ∧ r1 5 = 1/8 := by
  obtain ⟨a0, a1, a2, a3, a4, a5⟩ := r0_vals
  obtain ⟨v0, v1, v2, v3, v4, v5⟩ := v1_vals
  unfold r1 luRow
  rw [dot6]
  simp only [v0, v1, v2, v3, v4, v5]
  simp [List.range_succ, a0, a1, a2, a3, a4, a5, badPhi_0, badPhi_1, badPhi_2, badPhi_3, badPhi_4, badPhi_5]
  norm_num

theorem v2_vals : luV [r0, r1] 2 0 = 0 ∧ luV [r0, r1] 2 1 = -1/2 ∧ luV [r0, r1] 2 2 = 1 ∧ luV [r0, r1] 2 3 = 0 ∧
    luV [r0, r1] 2 4 = 0 ∧ luV [r0, r1] 2 5 = 0 := by
  obtain ⟨a0, a1, a2, a3, a4, a5⟩ := r0_vals
  obtain ⟨b1, b2, b3, b4, b5⟩ := r1_vals
  simp [luV, a0, a2, b1, b2]
  norm_num

theorem r2_vals : r2 2 = 1/2 ∧ r2 3 = 0 ∧ r2 4 = 0 ∧ r2 5 = 1/8 := by
  obtain ⟨a0, a1, a2, a3, a4, a5⟩ := r0_vals
  obtain ⟨b1, b2, b3, b4, b5⟩ := r1_vals
  obtain ⟨v0, v1, v2, v3, v4, v5⟩ := v2_vals
  unfold r2 luRow
  rw [dot6]
  simp only [v0, v1, v2, v3, v4, v5]
  simp [List.range_succ, a0, a1, a2, a3, a4, a5, b1, b2, b3, b4, b5, badPhi_0, badPhi_1, badPhi_2, badPhi_3, badPhi_4, badPhi_5]

theorem v3_vals : luV [r0, r1, r2] 3 0 = 0 ∧ luV [r0, r1, r2] 3 1 = -1/2 ∧ luV [r0, r1, r2] 3 2 = 0 ∧
    luV [r0, r1, r2] 3 3 = 1 ∧ luV [r0, r1, r2] 3 4 = 0 ∧ luV [r0, r1, r2] 3 5 = 0 := by
  obtain ⟨a0, a1, a2, a3, a4, a5⟩ := r0_vals
  obtain ⟨b1, b2, b3, b4, b5⟩ := r1_vals
  obtain ⟨c2, c3, c4, c5⟩ := r2_vals
  simp [luV, a0, a3, b1, b3, c2, c3]
  norm_num

theorem r3_vals : r3 3 = 3/8 ∧ r3 4 = 1/4 ∧ r3 5 = 1/16 := by
  obtain ⟨a0, a1, a2, a3, a4, a5⟩ := r0_vals
  obtain ⟨b1, b2, b3, b4, b5⟩ := r1_vals
  obtain ⟨c2, c3, c4, c5⟩ := r2_vals
  obtain ⟨v0, v1, v2, v3, v4, v5⟩ := v3_vals
  unfold r3 luRow
  rw [dot6]
  simp only [v0, v1, v2, v3, v4, v5]
  simp [List.range_succ, a0, a1, a2, a3, a4, a5, b1, b2, b3, b4, b5, c2, c3, c4, c5, badPhi_0, badPhi_1, badPhi_2, badPhi_3,
    badPhi_4, badPhi_5]
  norm_num

theorem v4_vals : luV [r0, r1, r2, r3] 4 0 = 0 ∧ luV [r0, r1, r2, r3] 4 1 = -1/2 ∧ luV [r0, r1, r2, r3] 4 2 = 0 ∧
    luV [r0, r1, r2, r3] 4 3 = -2/3 ∧ luV [r0, r1, r2, r3] 4 4 = 1 ∧ luV [r0, r1, r2, r3] 4 5 = 0 := by
  obtain ⟨a0, a1, a2, a3, a4, a5⟩ := r0_vals
  obtain ⟨b1, b2, b3, b4, b5⟩ := r1_vals
  obtain ⟨c2, c3, c4, c5⟩ := r2_vals
  obtain ⟨d3, d4, d5⟩ := r3_vals
  simp [luV, a0, a4, b1, b4, c2, c4, d3, d4]
  norm_num

theorem r4_vals : r4 4 = -5/6 ∧ r4 5 = -5/24 := by
  obtain ⟨a0, a1, a2, a3, a4, a5⟩ := r0_vals
  obtain ⟨b1, b2, b3, b4, b5⟩ := r1_vals
  obtain ⟨c2, c3, c4, c5⟩ := r2_vals
  obtain ⟨d3, d4, d5⟩ := r3_vals
  obtain ⟨v0, v1, v2, v3, v4, v5⟩ := v4_vals
  unfold r4 luRow
  rw [dot6]
  simp only [v0, v1, v2, v3, v4, v5]
  simp [List.range_succ, a0, a1, a2, a3, a4, a5, b1, b2, b3, b4, b5, c2, c3, c4, c5, d3, d4, d5, badPhi_0, badPhi_1, badPhi_2,
    badPhi_3, badPhi_4, badPhi_5]
  norm_num

theorem v5_vals : luV [r0, r1, r2, r3, r4] 5 0 = 0 ∧ luV [r0, r1, r2, r3, r4] 5 1 = -1/8 ∧
    luV [r0, r1, r2, r3, r4] 5 2 = -1/4 ∧ luV [r0, r1, r2, r3, r4] 5 3 = -1/6 ∧ luV [r0, r1, r2, r3, r4] 5 4 = -1/4 ∧
    luV [r0, r1, r2, r3, r4] 5 5 = 1 := by
  obtain ⟨a0, a1, a2, a3, a4, a5⟩ := r0_vals
  obtain ⟨b1, b2, b3, b4, b5⟩ := r1_vals
  obtain ⟨c2, c3, c4, c5⟩ := r2_vals
  obtain ⟨d3, d4, d5⟩ := r3_vals
  obtain ⟨e4, e5⟩ := r4_vals
  simp [luV, a0, a5, b1, b5, c2, c5, d3, d5, e4, e5]
  norm_num

theorem r5_val : r5 5 = -7/48 := by
  obtain ⟨v0, v1, v2, v3, v4, v5⟩ := v5_vals
  unfold r5 luRow
  rw [dot6]
  simp only [v0, v1, v2, v3, v4, v5]
  simp [badPhi_0, badPhi_1, badPhi_2, badPhi_3, badPhi_4, badPhi_5]
  norm_num

/-- A step that takes the point with number `index` from the points at hand. -/
theorem luStep_pick (cfg : Cfg n) (env : Env n) (obj : Pt n → ℝ) (psi2 : ℝ) (q : ℕ) (φ : Pt n → ℕ → ℝ) (a : LU n) (k index : ℕ)
    (M : List ℝ) (hM : (a.hatS.map fun x => |dot q (luV a.U k) (φ x)|) = M) (hF : a.hatF ≠ []) (hi : argmax M = index)
    (hb : 1/10^4 ≤ M.getD index 0) : luStep cfg env obj .replace psi2 q φ a k = luPick q φ a k index := by
  unfold luStep
  simp only [hM, hi]
  rw [if_pos]
  unfold luFlag
  rw [if_pos (List.length_pos_of_ne_nil hF), if_neg (not_lt.2 hb), if_neg (by simp), if_neg (by simp)]

theorem badPhi_eq (cfg : Cfg 2) (hb : cfg.basis = basis2) (st : St 2) (h0 : st.sOld = ![0, 0]) : phiTR cfg st badHat = badPhi := by
  funext x k
  unfold phiTR badPhi
  have hD : (if badHat.length > 0 then maxList (badHat.map fun y => normInf fun i => y i - st.sOld i) else st.del) = 2 := by
    rw [h0, if_pos (by simp [badHat])]
    simp [badHat, maxList, normInf, List.ofFn_succ]
  simp only
  rw [hD, hb, h0]
  refine Finset.prod_congr rfl fun i _ => ?_
  fin_cases i <;> simp

theorem bad_pivots : ∀ k < 6, (1/10^4 : ℝ) ≤ |[r0, r1, r2, r3, r4, r5].getD k (fun _ => 0) k| := by
  intro k hk
  match k, hk with
  | 0, _ => show _ ≤ |r0 0|; rw [r0_vals.1]; norm_num
  | 1, _ => show _ ≤ |r1 1|; rw [r1_vals.1]; norm_num
  | 2, _ => show _ ≤ |r2 2|; rw [r2_vals.1]; norm_num
  | 3, _ => show _ ≤ |r3 3|; rw [r3_vals.1]; norm_num
  | 4, _ => show _ ≤ |r4 4|; rw [r4_vals.1]; norm_num [abs_of_neg]
  | 5, _ => show _ ≤ |r5 5|; rw [r5_val]; norm_num [abs_of_neg]

/-- **C90 fails in two variables.** The incumbent is the origin, the stored points are `(1,1), (0,1), (-1,0), (2,1), (2,0)`. All
six points are kept, every pivot is above the threshold, and yet `y (1 - y)` vanishes at all of them: for no objective does the set
determine a quadratic. -/
theorem c90_poised_violated (cfg : Cfg 2) (hb : cfg.basis = basis2) (env : Env 2) (obj : Pt 2 → ℝ) (st : St 2)
    (h0 : st.sOld = ![0, 0]) (psi2 : ℝ) :
    let a := luPivot cfg env obj .replace psi2 (setSize 2) (phiTR cfg st badHat) st badHat (badHat.map obj)
    a.S = [![0, 0], ![2, 1], ![0, 1], ![-1, 0], ![2, 0], ![1, 1]] ∧
    (∀ k < 6, 1/10^4 ≤ |a.u k k|) ∧
    ∃ c : Fin 6 → ℝ, c ≠ 0 ∧ ∀ x ∈ a.S, quad2 c x = 0 := by
  intro a
  have s1 : luStep cfg env obj .replace psi2 6 badPhi
      ⟨st, [st.sOld], [st.fOld], badHat, badHat.map obj, [r0]⟩ 1 =
      ⟨st, [![0, 0], ![2, 1]], [st.fOld, obj ![2, 1]], [![1, 1], ![0, 1], ![-1, 0], ![2, 0]],
        [obj ![1, 1], obj ![0, 1], obj ![-1, 0], obj ![2, 0]], [r0, r1]⟩ := by
    obtain ⟨v0, v1, v2, v3, v4, v5⟩ := v1_vals
    rw [luStep_pick cfg env obj psi2 6 badPhi _ 1 3 [1/2, 0, 1/2, 1, 1]]
    · simp [luPick, badHat, h0, r1]
    · simp only [badHat, List.map_cons, List.map_nil, dot6, v0, v1, v2, v3, v4, v5, badPhi_0, badPhi_1, badPhi_2, badPhi_3, badPhi_4,
        badPhi_5]
      norm_num [abs_of_pos, abs_of_neg]
    · simp [badHat]
    · simp only [argmax, argmin, List.map_cons, List.map_nil, List.getD_cons_zero, List.getD_cons_succ]; norm_num
    · norm_num
  have s2 : luStep cfg env obj .replace psi2 6 badPhi
      ⟨st, [![0, 0], ![2, 1]], [st.fOld, obj ![2, 1]], [![1, 1], ![0, 1], ![-1, 0], ![2, 0]],
        [obj ![1, 1], obj ![0, 1], obj ![-1, 0], obj ![2, 0]], [r0, r1]⟩ 2 =
      ⟨st, [![0, 0], ![2, 1], ![0, 1]], [st.fOld, obj ![2, 1], obj ![0, 1]], [![1, 1], ![-1, 0], ![2, 0]],
        [obj ![1, 1], obj ![-1, 0], obj ![2, 0]], [r0, r1, r2]⟩ := by
    obtain ⟨v0, v1, v2, v3, v4, v5⟩ := v2_vals
    rw [luStep_pick cfg env obj psi2 6 badPhi _ 2 1 [1/4, 1/2, 1/4, 1/2]]
    · simp [luPick, r2]
    · simp only [List.map_cons, List.map_nil, dot6, v0, v1, v2, v3, v4, v5, badPhi_0, badPhi_1, badPhi_2, badPhi_3, badPhi_4,
        badPhi_5]
      norm_num [abs_of_pos, abs_of_neg]
    · simp
    · simp only [argmax, argmin, List.map_cons, List.map_nil, List.getD_cons_zero, List.getD_cons_succ]; norm_num
    · norm_num
  have s3 : luStep cfg env obj .replace psi2 6 badPhi
      ⟨st, [![0, 0], ![2, 1], ![0, 1]], [st.fOld, obj ![2, 1], obj ![0, 1]], [![1, 1], ![-1, 0], ![2, 0]],
        [obj ![1, 1], obj ![-1, 0], obj ![2, 0]], [r0, r1, r2]⟩ 3 =
      ⟨st, [![0, 0], ![2, 1], ![0, 1], ![-1, 0]], [st.fOld, obj ![2, 1], obj ![0, 1], obj ![-1, 0]], [![1, 1], ![2, 0]],
        [obj ![1, 1], obj ![2, 0]], [r0, r1, r2, r3]⟩ := by
    obtain ⟨v0, v1, v2, v3, v4, v5⟩ := v3_vals
    rw [luStep_pick cfg env obj psi2 6 badPhi _ 3 1 [1/8, 3/8, 0]]
    · simp [luPick, r3]
    · simp only [List.map_cons, List.map_nil, dot6, v0, v1, v2, v3, v4, v5, badPhi_0, badPhi_1, badPhi_2, badPhi_3, badPhi_4,
        badPhi_5]
      norm_num [abs_of_pos, abs_of_neg]
    · simp
    · simp only [argmax, argmin, List.map_cons, List.map_nil, List.getD_cons_zero, List.getD_cons_succ]; norm_num
    · norm_num
  have s4 : luStep cfg env obj .replace psi2 6 badPhi
      ⟨st, [![0, 0], ![2, 1], ![0, 1], ![-1, 0]], [st.fOld, obj ![2, 1], obj ![0, 1], obj ![-1, 0]], [![1, 1], ![2, 0]],
        [obj ![1, 1], obj ![2, 0]], [r0, r1, r2, r3]⟩ 4 =
      ⟨st, [![0, 0], ![2, 1], ![0, 1], ![-1, 0], ![2, 0]], [st.fOld, obj ![2, 1], obj ![0, 1], obj ![-1, 0], obj ![2, 0]], [![1, 1]],
        [obj ![1, 1]], [r0, r1, r2, r3, r4]⟩ := by
    obtain ⟨v0, v1, v2, v3, v4, v5⟩ := v4_vals
    rw [luStep_pick cfg env obj psi2 6 badPhi _ 4 1 [1/12, 5/6]]
    · simp [luPick, r4]
    · simp only [List.map_cons, List.map_nil, dot6, v0, v1, v2, v3, v4, v5, badPhi_0, badPhi_1, badPhi_2, badPhi_3, badPhi_4,
        badPhi_5]
      norm_num [abs_of_pos, abs_of_neg]
    · simp
    · simp only [argmax, argmin, List.map_cons, List.map_nil, List.getD_cons_zero, List.getD_cons_succ]; norm_num
    · norm_num
  have s5 : luStep cfg env obj .replace psi2 6 badPhi
      ⟨st, [![0, 0], ![2, 1], ![0, 1], ![-1, 0], ![2, 0]], [st.fOld, obj ![2, 1], obj ![0, 1], obj ![-1, 0], obj ![2, 0]], [![1, 1]],
        [obj ![1, 1]], [r0, r1, r2, r3, r4]⟩ 5 =
      ⟨st, [![0, 0], ![2, 1], ![0, 1], ![-1, 0], ![2, 0], ![1, 1]],
        [st.fOld, obj ![2, 1], obj ![0, 1], obj ![-1, 0], obj ![2, 0], obj ![1, 1]], [], [], [r0, r1, r2, r3, r4, r5]⟩ := by
    obtain ⟨v0, v1, v2, v3, v4, v5⟩ := v5_vals
    rw [luStep_pick cfg env obj psi2 6 badPhi _ 5 0 [7/48]]
    · simp [luPick, r5]
    · simp only [List.map_cons, List.map_nil, dot6, v0, v1, v2, v3, v4, v5, badPhi_0, badPhi_1, badPhi_2, badPhi_3, badPhi_4,
        badPhi_5]
      norm_num [abs_of_pos, abs_of_neg]
    · simp
    · simp [argmax, argmin]
    · norm_num
  have ha : a = ⟨st, [![0, 0], ![2, 1], ![0, 1], ![-1, 0], ![2, 0], ![1, 1]],
        [st.fOld, obj ![2, 1], obj ![0, 1], obj ![-1, 0], obj ![2, 0], obj ![1, 1]], [], [], [r0, r1, r2, r3, r4, r5]⟩ := by
    show luPivot cfg env obj .replace psi2 6 (phiTR cfg st badHat) st badHat (badHat.map obj) = _
    rw [badPhi_eq cfg hb st h0]
    unfold luPivot
    have e : List.range' 1 (6 - 1) = [1, 2, 3, 4, 5] := rfl
    have er : badPhi st.sOld = r0 := by rw [h0]; rfl
    rw [e, er]
    simp only [List.foldl_cons, List.foldl_nil]
    rw [s1, s2, s3, s4, s5]
  rw [ha]
  refine ⟨rfl, ?_, ![0, 0, 1, 0, 0, -1], ?_, ?_⟩
  · exact bad_pivots
  · intro h
    have := congrFun h 2
    simp at this
  · intro x hx
    simp only [List.mem_cons, List.not_mem_nil, or_false] at hx
    rcases hx with rfl | rfl | rfl | rfl | rfl | rfl <;> simp [quad2]

/-! ### Sets that determine a quadratic -/

/-- Specification: a quadratic function of `n` variables. -/
def IsQuadratic (f : Pt n → ℝ) : Prop :=
  ∃ (c : ℝ) (b : Fin n → ℝ) (A : Fin n → Fin n → ℝ), ∀ x, f x = c + ∑ i, b i * x i + ∑ i, ∑ j, A i j * x i * x j

/-- Specification: quadratic functions that agree on the set agree everywhere. -/
def Determines (S : List (Pt n)) : Prop :=
  ∀ f g : Pt n → ℝ, IsQuadratic f → IsQuadratic g → (∀ x ∈ S, f x = g x) → f = g

/-- A difference of quadratics, developed about a point where it vanishes. -/
theorem quad_centre {f g : Pt n → ℝ} (hf : IsQuadratic f) (hg : IsQuadratic g) (s : Pt n) (h : f s = g s) :
    ∃ (b : Fin n → ℝ) (A : Fin n → Fin n → ℝ), ∀ y : Pt n,
      f (fun i => s i + y i) - g (fun i => s i + y i) = ∑ i, b i * y i + ∑ i, ∑ j, A i j * y i * y j := by
  obtain ⟨c, b, A, hf⟩ := hf
  obtain ⟨c', b', A', hg⟩ := hg
  refine ⟨fun i => (b i - b' i) + ∑ j, ((A i j - A' i j) * s j + (A j i - A' j i) * s j), fun i j => A i j - A' i j, fun y => ?_⟩
  have h0 : c - c' + ∑ i, (b i - b' i) * s i + ∑ i, ∑ j, (A i j - A' i j) * s i * s j = 0 := by
    have := hf s
    have := hg s
    simp only [sub_mul, Finset.sum_sub_distrib]
    linarith
  have hl : ∑ i, ((b i - b' i) + ∑ j, ((A i j - A' i j) * s j + (A j i - A' j i) * s j)) * y i =
      ∑ i, (b i - b' i) * y i + ∑ i, ∑ j, ((A i j - A' i j) * y i * s j + (A i j - A' i j) * s i * y j) := by
    simp only [add_mul, Finset.sum_add_distrib, Finset.sum_mul]
    rw [Finset.sum_comm (f := fun i j => (A i j - A' i j) * s i * y j)]
    have e1 : ∀ i j, (A i j - A' i j) * s j * y i = (A i j - A' i j) * y i * s j := fun i j => by ring
    simp only [e1]
  have hq : ∀ B : Fin n → Fin n → ℝ, ∑ i, ∑ j, B i j * (s i + y i) * (s j + y j) = ∑ i, ∑ j, B i j * s i * s j +
      ∑ i, ∑ j, (B i j * y i * s j + B i j * s i * y j) + ∑ i, ∑ j, B i j * y i * y j := by
    intro B
    simp only [← Finset.sum_add_distrib]
    exact Finset.sum_congr rfl fun i _ => Finset.sum_congr rfl fun j _ => by ring
  have hb : ∀ β : Fin n → ℝ, ∑ i, β i * (s i + y i) = ∑ i, β i * s i + ∑ i, β i * y i := by
    intro β
    rw [← Finset.sum_add_distrib]
    exact Finset.sum_congr rfl fun i _ => by ring
  rw [hl, hf, hg, hq, hq, hb, hb]
  simp only [sub_mul, Finset.sum_sub_distrib, Finset.sum_add_distrib] at h0 ⊢
  linarith

/-- A quadratic form at a point with at most one non-zero coordinate. -/
theorem quad_one (b : Fin n → ℝ) (A : Fin n → Fin n → ℝ) (y : Pt n) (p : Fin n) (h : ∀ i, i ≠ p → y i = 0) :
    ∑ i, b i * y i + ∑ i, ∑ j, A i j * y i * y j = b p * y p + A p p * y p * y p := by
  rw [Finset.sum_eq_single p (fun i _ hi => by rw [h i hi, mul_zero]) (fun hp => absurd (Finset.mem_univ _) hp),
    Finset.sum_eq_single p (fun i _ hi => Finset.sum_eq_zero fun j _ => by rw [h i hi]; ring)
      (fun hp => absurd (Finset.mem_univ _) hp),
    Finset.sum_eq_single p (fun i _ hi => by rw [h i hi, mul_zero]) (fun hp => absurd (Finset.mem_univ _) hp)]

/-- A quadratic form at a point with at most two non-zero coordinates. -/
theorem quad_two (b : Fin n → ℝ) (A : Fin n → Fin n → ℝ) (y : Pt n) (p r : Fin n) (hpr : p ≠ r)
    (h : ∀ i, i ≠ p → i ≠ r → y i = 0) :
    ∑ i, b i * y i + ∑ i, ∑ j, A i j * y i * y j = b p * y p + b r * y r + A p p * y p * y p + A r r * y r * y r +
      (A p r + A r p) * (y p * y r) := by
  have two : ∀ F : Fin n → ℝ, (∀ i, i ≠ p → i ≠ r → F i = 0) → ∑ i, F i = F p + F r := by
    intro F hF
    rw [← Finset.sum_pair hpr]
    refine (Finset.sum_subset (Finset.subset_univ _) fun i _ hi => ?_).symm
    simp only [Finset.mem_insert, Finset.mem_singleton, not_or] at hi
    exact hF i hi.1 hi.2
  rw [two (fun i => b i * y i) (fun i h1 h2 => by rw [h i h1 h2, mul_zero]),
    two (fun i => ∑ j, A i j * y i * y j) (fun i h1 h2 => Finset.sum_eq_zero fun j _ => by rw [h i h1 h2]; ring),
    two (fun j => A p j * y p * y j) (fun i h1 h2 => by rw [h i h1 h2, mul_zero]),
    two (fun j => A r j * y r * y j) (fun i h1 h2 => by rw [h i h1 h2, mul_zero])]
  ring

/-- **C90, the first sample set.** For every number of variables, radius and local bounds: if the incumbent is not at a bound, the
`(n + 1)(n + 2) / 2` points of the coordinate start determine a quadratic. -/
theorem c90_initial_partial (cfg : Cfg n) (hr : cfg.random = false) (env : Env n) (s : St n) (h : Interior s) :
    Determines (generateSet cfg env s ((n + 1) * (n + 2) / 2)) := by
  intro f g hf hg hS
  have hS : ∀ x ∈ generateSet cfg env s (setSize n), f x = g x := hS
  have hpos := setSize_pos n
  have hlen : (generateSet cfg env s (setSize n)).length = setSize n := by simp [generateSet]; omega
  have hget : ∀ i, i < setSize n → f (genPoint cfg env s i) = g (genPoint cfg env s i) := by
    intro i hi
    apply hS
    unfold genPoint
    rw [getD_getElem _ _ (by rw [hlen]; exact hi)]
    exact List.getElem_mem _
  obtain ⟨b, A, hq⟩ := quad_centre hf hg s.sOld (by
    have := hget 0 hpos
    have e : genPoint cfg env s 0 = s.sOld := by simp [genPoint, generateSet]
    rwa [e] at this)
  set y : ℕ → Pt n := fun i c => genPoint cfg env s i c - s.sOld c with hy
  have hy0 : ∀ i, i < setSize n → ∑ c, b c * y i c + ∑ c, ∑ d, A c d * y i c * y i d = 0 := by
    intro i hi
    rw [← hq (y i)]
    have e : (fun c => s.sOld c + y i c) = genPoint cfg env s i := by funext c; simp only [hy]; ring
    rw [e, hget i hi, sub_self]
  have hsg : ∀ i, i < setSize n → ∀ c, SignType.sign (y i c) = sig n i c := fun i hi c => genPoint_sign hr env h hi c
  have hs2 := setSize_two n
  have hbig : ∀ c : Fin n, 2 * n + 1 ≤ setSize n := by
    intro c
    have := c.pos
    nlinarith
  have hdiag : ∀ c : Fin n, A c c = 0 ∧ b c = 0 := by
    intro c
    have hc := c.isLt
    have hb1 := hbig c
    have up := hy0 (c.val + 1) (by omega)
    have dn := hy0 (n + c.val + 1) (by omega)
    have sup : ∀ d, SignType.sign (y (c.val + 1) d) = if d = c then 1 else 0 := by
      intro d
      rw [hsg _ (by omega)]
      unfold sig
      rw [if_neg (by omega), if_pos (by omega)]
      simp [Fin.ext_iff]
    have sdn : ∀ d, SignType.sign (y (n + c.val + 1) d) = if d = c then -1 else 0 := by
      intro d
      rw [hsg _ (by omega)]
      unfold sig
      rw [if_neg (by omega), if_neg (by omega), if_pos (by omega)]
      have : n + c.val + 1 - n - 1 = c.val := by omega
      simp [Fin.ext_iff, this]
    rw [quad_one b A _ c fun d hd => sign_eq_zero_iff.1 (by rw [sup, if_neg hd])] at up
    rw [quad_one b A _ c fun d hd => sign_eq_zero_iff.1 (by rw [sdn, if_neg hd])] at dn
    have pu : 0 < y (c.val + 1) c := sign_eq_one_iff.1 (by rw [sup, if_pos rfl])
    have pd : y (n + c.val + 1) c < 0 := sign_eq_neg_one_iff.1 (by rw [sdn, if_pos rfl])
    have e1 : b c + A c c * y (c.val + 1) c = 0 := by
      have : (b c + A c c * y (c.val + 1) c) * y (c.val + 1) c = 0 := by linarith
      exact (mul_eq_zero.1 this).resolve_right pu.ne'
    have e2 : b c + A c c * y (n + c.val + 1) c = 0 := by
      have : (b c + A c c * y (n + c.val + 1) c) * y (n + c.val + 1) c = 0 := by linarith
      exact (mul_eq_zero.1 this).resolve_right pd.ne
    have e3 : A c c = 0 := by
      have : A c c * (y (c.val + 1) c - y (n + c.val + 1) c) = 0 := by linarith
      exact (mul_eq_zero.1 this).resolve_right (by linarith)
    refine ⟨e3, ?_⟩
    rw [e3] at e1
    linarith
  have hoff : ∀ p r : Fin n, r < p → A p r + A r p = 0 := by
    intro p r hpr
    obtain ⟨i, ⟨⟨h1, h2⟩, he⟩, -⟩ := c64_pairs n (p.val + 1) (r.val + 1) (by omega) (by have : r.val < p.val := hpr; omega)
      (by have := p.isLt; omega)
    have hz := hy0 i h2
    have si : ∀ d, SignType.sign (y i d) = if d = r ∨ d = p then 1 else 0 := by
      intro d
      have := p.isLt
      rw [hsg _ h2]
      unfold sig
      rw [if_neg (by omega), if_neg (by omega), if_neg (by omega), he]
      simp [Fin.ext_iff]
    rw [quad_two b A _ p r (ne_of_gt hpr) fun d hd1 hd2 => sign_eq_zero_iff.1 (by rw [si, if_neg (by tauto)])] at hz
    have pp : 0 < y i p := sign_eq_one_iff.1 (by rw [si, if_pos (.inr rfl)])
    have pr : 0 < y i r := sign_eq_one_iff.1 (by rw [si, if_pos (.inl rfl)])
    rw [(hdiag p).1, (hdiag p).2, (hdiag r).1, (hdiag r).2] at hz
    have : (A p r + A r p) * (y i p * y i r) = 0 := by linarith
    exact (mul_eq_zero.1 this).resolve_right (mul_pos pp pr).ne'
  have hanti : ∀ p r : Fin n, A p r + A r p = 0 := by
    intro p r
    rcases lt_trichotomy r p with h | h | h
    · exact hoff p r h
    · rw [h, (hdiag p).1, add_zero]
    · rw [add_comm]; exact hoff r p h
  funext x
  have hx := hq fun i => x i - s.sOld i
  have e : (fun i => s.sOld i + (x i - s.sOld i)) = x := by funext i; ring
  simp only [e] at hx
  have hA : ∀ z : Pt n, ∑ i, ∑ j, A i j * z i * z j = 0 := by
    intro z
    have : ∑ i, ∑ j, A i j * z i * z j + ∑ i, ∑ j, A i j * z i * z j = 0 := by
      nth_rw 2 [Finset.sum_comm]
      rw [← Finset.sum_add_distrib]
      refine Finset.sum_eq_zero fun i _ => ?_
      rw [← Finset.sum_add_distrib]
      refine Finset.sum_eq_zero fun j _ => ?_
      linear_combination (z i * z j) * hanti i j
    linarith
  rw [hA fun i => x i - s.sOld i, Finset.sum_eq_zero fun i _ => by rw [(hdiag i).2, zero_mul]] at hx
  linarith

example : Interior stDemo := by constructor <;> norm_num [stDemo]

/-! ### The pivots -/

theorem luRow_congr {q k : ℕ} {U U' : List (ℕ → ℝ)} (h : ∀ j < k, U.getD j (fun _ => 0) = U'.getD j fun _ => 0) (φ : ℕ → ℝ) :
    luRow q U k φ = luRow q U' k φ := by
  have hv : luV U k = luV U' k := by
    funext j
    unfold luV
    by_cases hj : j < k
    · rw [if_pos hj, if_pos hj, h j hj]
    · rw [if_neg hj, if_neg hj]
  funext i
  unfold luRow
  rw [hv]
  congr 2
  congr 2
  apply List.map_congr_left
  intro j hj
  rw [h j (List.mem_range.1 hj)]

/-- Every row of `U` belongs to its point. -/
theorem luPivot_rows (cfg : Cfg n) (env : Env n) (obj : Pt n → ℝ) (method : LUMethod) (psi2 : ℝ) (q : ℕ) (φ : Pt n → ℕ → ℝ)
    (st : St n) (hatS : List (Pt n)) (hatF : List ℝ) :
    let a := luPivot cfg env obj method psi2 q φ st hatS hatF
    a.S.length = q - 1 + 1 ∧ a.U.length = q - 1 + 1 ∧ a.S.getD 0 st.sOld = st.sOld ∧ a.U.getD 0 (fun _ => 0) = φ st.sOld ∧
    ∀ k, 1 ≤ k → k < q → a.U.getD k (fun _ => 0) = luRow q a.U k (φ (a.S.getD k st.sOld)) := by
  intro a
  have key : ∀ m (b : LU n), b = (List.range' 1 m).foldl (luStep cfg env obj method psi2 q φ)
      ⟨st, [st.sOld], [st.fOld], hatS, hatF, [φ st.sOld]⟩ →
      b.S.length = m + 1 ∧ b.U.length = m + 1 ∧ b.S.getD 0 st.sOld = st.sOld ∧ b.U.getD 0 (fun _ => 0) = φ st.sOld ∧
      ∀ k, 1 ≤ k → k < m + 1 → b.U.getD k (fun _ => 0) = luRow q b.U k (φ (b.S.getD k st.sOld)) := by
    intro m
    induction m with
    | zero =>
      rintro b rfl
      exact ⟨rfl, rfl, rfl, rfl, fun k h1 h2 => by omega⟩
    | succ m ih =>
      rintro b' rfl
      rw [List.range'_concat, List.foldl_append]
      set b := (List.range' 1 m).foldl (luStep cfg env obj method psi2 q φ)
        ⟨st, [st.sOld], [st.fOld], hatS, hatF, [φ st.sOld]⟩ with hb
      obtain ⟨i1, i2, i3, i4, i5⟩ := ih b hb
      simp only [List.foldl_cons, List.foldl_nil, Nat.one_mul]
      obtain ⟨x, h1, h2⟩ : ∃ x, (luStep cfg env obj method psi2 q φ b (1 + m)).S = b.S ++ [x] ∧
          (luStep cfg env obj method psi2 q φ b (1 + m)).U = b.U ++ [luRow q b.U (1 + m) (φ x)] := by
        unfold luStep
        simp only
        split
        · exact ⟨_, rfl, rfl⟩
        · split
          · exact ⟨_, rfl, rfl⟩
          · exact ⟨_, rfl, rfl⟩
      rw [h1, h2]
      have old : ∀ {α : Type} (l : List α) (z : α) (d : α) (k : ℕ), k < l.length → (l ++ [z]).getD k d = l.getD k d := by
        intro α l z d k hk
        rw [List.getD_eq_getElem?_getD, List.getD_eq_getElem?_getD, List.getElem?_append_left hk]
      have last : ∀ {α : Type} (l : List α) (z : α) (d : α), (l ++ [z]).getD l.length d = z := by
        intro α l z d
        rw [List.getD_eq_getElem?_getD, List.getElem?_append_right le_rfl]
        simp
      refine ⟨by simp [i1], by simp [i2], ?_, ?_, fun k hk1 hk2 => ?_⟩
      · rw [old _ _ _ _ (by omega), i3]
      · rw [old _ _ _ _ (by omega), i4]
      · have hc : luRow q (b.U ++ [luRow q b.U (1 + m) (φ x)]) k = luRow q b.U k := by
          funext ψ
          exact luRow_congr (fun j hj => old _ _ _ _ (by omega)) ψ
        rw [hc]
        by_cases hkm : k < m + 1
        · rw [old _ _ _ _ (by omega), old _ _ _ _ (by omega), i5 k hk1 hkm]
        · have e : k = 1 + m := by omega
          have eU : k = b.U.length := by omega
          have eS : k = b.S.length := by omega
          conv_lhs => rw [eU]
          rw [last]
          conv_rhs => rw [show (b.S ++ [x]).getD k st.sOld = x by rw [eS, last]]
          rw [e]
  have := key (q - 1) a rfl
  refine ⟨this.1, this.2.1, this.2.2.1, this.2.2.2.1, fun k h1 h2 => this.2.2.2.2 k h1 (by omega)⟩

theorem sum_map_range (f : ℕ → ℝ) (q : ℕ) : ((List.range q).map f).sum = ∑ j ∈ Finset.range q, f j := by
  induction q with
  | zero => simp
  | succ q ih => rw [List.range_succ, List.map_append, List.sum_append, ih, Finset.sum_range_succ]; simp

theorem dot_luV {q k : ℕ} (hk : k < q) (U : List (ℕ → ℝ)) (φ : ℕ → ℝ) :
    dot q (luV U k) φ = φ k - ∑ j ∈ Finset.range k, φ j * U.getD j (fun _ => 0) k / U.getD j (fun _ => 0) j := by
  unfold dot
  rw [sum_map_range]
  have e : ∑ j ∈ Finset.range q, luV U k j * φ j = ∑ j ∈ Finset.range (k + 1), luV U k j * φ j := by
    refine (Finset.sum_subset (Finset.range_mono (by omega)) fun j _ hj => ?_).symm
    have : k + 1 ≤ j := by simpa using hj
    unfold luV
    rw [if_neg (by omega), if_neg (by omega), zero_mul]
  rw [e, Finset.sum_range_succ]
  have e1 : luV U k k = 1 := by unfold luV; rw [if_neg (by omega), if_pos rfl]
  rw [e1, one_mul, add_comm, sub_eq_add_neg, ← Finset.sum_neg_distrib]
  congr 1
  refine Finset.sum_congr rfl fun j hj => ?_
  unfold luV
  rw [if_pos (Finset.mem_range.1 hj)]
  ring

/-- The first pivots, for basis functions of which the first is 1 and the others vanish at the incumbent. -/
theorem first_pivots (cfg : Cfg n) (env : Env n) (obj : Pt n → ℝ) (method : LUMethod) (psi2 : ℝ) (q : ℕ) (hq : 3 ≤ q)
    (φ : Pt n → ℕ → ℝ) (st : St n) (hatS : List (Pt n)) (hatF : List ℝ) (h0 : φ st.sOld 0 = 1) (h1 : φ st.sOld 1 = 0)
    (h2 : φ st.sOld 2 = 0) :
    let a := luPivot cfg env obj method psi2 q φ st hatS hatF
    a.u 1 1 = φ (a.S.getD 1 st.sOld) 1 ∧
    a.u 2 2 = φ (a.S.getD 2 st.sOld) 2 -
      φ (a.S.getD 2 st.sOld) 1 * φ (a.S.getD 1 st.sOld) 2 / φ (a.S.getD 1 st.sOld) 1 := by
  intro a
  obtain ⟨-, -, -, r0, r⟩ := luPivot_rows cfg env obj method psi2 q φ st hatS hatF
  have q1 : a.U.getD 1 (fun _ => 0) = luRow q a.U 1 (φ (a.S.getD 1 st.sOld)) := r 1 le_rfl (by omega)
  have q2 : a.U.getD 2 (fun _ => 0) = luRow q a.U 2 (φ (a.S.getD 2 st.sOld)) := r 2 (by omega) (by omega)
  have r0 : a.U.getD 0 (fun _ => 0) = φ st.sOld := r0
  have u11 : a.U.getD 1 (fun _ => 0) 1 = φ (a.S.getD 1 st.sOld) 1 := by
    rw [q1]
    unfold luRow
    rw [if_neg (by omega), if_pos rfl, dot_luV (by omega), Finset.sum_range_one, r0, h1]
    ring
  have u12 : a.U.getD 1 (fun _ => 0) 2 = φ (a.S.getD 1 st.sOld) 2 := by
    rw [q1]
    unfold luRow
    rw [if_neg (by omega), if_neg (by omega), sum_map_range, Finset.sum_range_one, r0, h2]
    ring
  refine ⟨u11, ?_⟩
  show a.U.getD 2 (fun _ => 0) 2 = _
  rw [q2]
  unfold luRow
  rw [if_neg (by omega), if_pos rfl, dot_luV (by omega), Finset.sum_range_succ, Finset.sum_range_one, r0, h2, u11, u12]
  ring

/-- **C90, one variable.** For every objective, incumbent, stored points and method: if the pivots do not vanish, the points kept
determine a quadratic. Missing: more than one variable (`c90_poised_violated`), where the pivots are not those of the
elimination from the fourth point on. -/
theorem c90_line_partial (cfg : Cfg 1) (hb : ∀ k, cfg.basis k 0 = k) (env : Env 1) (obj : Pt 1 → ℝ) (method : LUMethod) (psi2 : ℝ)
    (st : St 1) (hatS hatS' : List (Pt 1)) (hatF : List ℝ) (a : LU 1)
    (ha : a = luPivot cfg env obj method psi2 (setSize 1) (phiTR cfg st hatS') st hatS hatF) (h1 : a.u 1 1 ≠ 0)
    (h2 : a.u 2 2 ≠ 0) : Determines a.S := by
  set D := (if hatS'.length > 0 then maxList (hatS'.map fun y => normInf fun i => y i - st.sOld i) else st.del) with hD
  have hphi : ∀ x k, phiTR cfg st hatS' x k = ((x 0 - st.sOld 0) / D) ^ k / k.factorial := by
    intro x k
    unfold phiTR
    simp only [Fin.prod_univ_one, hb]
    rfl
  obtain ⟨p1, p2⟩ := first_pivots cfg env obj method psi2 (setSize 1) (by decide) (phiTR cfg st hatS') st hatS hatF
    (by rw [hphi]; simp) (by rw [hphi]; simp) (by rw [hphi]; simp)
  obtain ⟨l1, -, l2, -, -⟩ := luPivot_rows cfg env obj method psi2 (setSize 1) (phiTR cfg st hatS') st hatS hatF
  rw [← ha] at p1 p2 l1 l2
  have l1 : a.S.length = 3 := l1
  set x1 := a.S.getD 1 st.sOld with hx1
  set x2 := a.S.getD 2 st.sOld with hx2
  have m0 : st.sOld ∈ a.S := by
    rw [← l2, getD_getElem _ _ (by omega)]; exact List.getElem_mem _
  have m1 : x1 ∈ a.S := by
    rw [hx1, getD_getElem _ _ (by omega)]; exact List.getElem_mem _
  have m2 : x2 ∈ a.S := by
    rw [hx2, getD_getElem _ _ (by omega)]; exact List.getElem_mem _
  intro f g hf hg hS
  obtain ⟨b, A, hq⟩ := quad_centre hf hg st.sOld (hS _ m0)
  have at' : ∀ x : Pt 1, f x - g x = b 0 * (x 0 - st.sOld 0) + A 0 0 * (x 0 - st.sOld 0) * (x 0 - st.sOld 0) := by
    intro x
    have := hq fun i => x i - st.sOld i
    have e : (fun i => st.sOld i + (x i - st.sOld i)) = x := by funext i; ring
    simpa [e] using this
  rw [p1, hphi] at h1
  rw [p2, hphi, hphi, hphi, hphi] at h2
  simp only [pow_one, Nat.factorial_one, Nat.cast_one, div_one, Nat.factorial_two] at h1 h2
  have hDne : D ≠ 0 := by rintro h; rw [h, div_zero] at h1; exact h1 rfl
  set y1 := x1 0 - st.sOld 0
  set y2 := x2 0 - st.sOld 0
  have hy1 : y1 ≠ 0 := by rintro h; rw [h, zero_div] at h1; exact h1 rfl
  have h2' : y2 * (y2 - y1) ≠ 0 := by
    intro h
    apply h2
    field_simp
    push_cast
    linear_combination h
  have e1 := at' x1
  have e2 := at' x2
  rw [hS x1 m1, sub_self] at e1
  rw [hS x2 m2, sub_self] at e2
  have hA : A 0 0 = 0 := by
    have : A 0 0 * (y1 * (y2 * (y2 - y1))) = 0 := by linear_combination y2 * e1 - y1 * e2
    exact (mul_eq_zero.1 this).resolve_right (mul_ne_zero hy1 h2')
  have hb0 : b 0 = 0 := by
    rw [hA] at e1
    have : b 0 * y1 = 0 := by linarith
    exact (mul_eq_zero.1 this).resolve_right hy1
  funext x
  have := at' x
  rw [hA, hb0] at this
  linarith

/-- Incumbent 0 and the stored points 1 and -1: both pivots are 1. -/
example (cfg : Cfg 1) (hb : ∀ k, cfg.basis k 0 = k) (env : Env 1) (obj : Pt 1 → ℝ) (st : St 1) (h0 : st.sOld = ![0]) :
    let a := luPivot cfg env obj .replace (1/4) (setSize 1) (phiTR cfg st [![1], ![-1]]) st [![1], ![-1]] [obj ![1], obj ![-1]]
    a.u 1 1 ≠ 0 ∧ a.u 2 2 ≠ 0 := by
  intro a
  set φ := phiTR cfg st [![1], ![-1]] with hφ
  have hphi : ∀ (t : ℝ) k, φ ![t] k = t ^ k / k.factorial := by
    intro t k
    simp only [hφ, phiTR, Fin.prod_univ_one, hb, h0]
    simp [maxList, normInf]
  obtain ⟨p1, p2⟩ := first_pivots cfg env obj .replace (1/4) (setSize 1) (by decide) φ st [![1], ![-1]] [obj ![1], obj ![-1]]
    (by rw [h0, hphi]; simp) (by rw [h0, hphi]; simp) (by rw [h0, hphi]; simp)
  have s1 : luStep cfg env obj .replace (1/4) 3 φ
      ⟨st, [st.sOld], [st.fOld], [![1], ![-1]], [obj ![1], obj ![-1]], [φ st.sOld]⟩ 1 =
      ⟨st, [![0], ![1]], [st.fOld, obj ![1]], [![-1]], [obj ![-1]], [φ ![0], luRow 3 [φ ![0]] 1 (φ ![1])]⟩ := by
    rw [luStep_pick cfg env obj (1/4) 3 φ _ 1 0 [1, 1]]
    · simp [luPick, h0]
    · simp only [List.map_cons, List.map_nil, dot_luV (show 1 < 3 by decide), Finset.sum_range_one, List.getD_cons_zero, h0, hphi]
      norm_num
    · simp
    · simp only [argmax, argmin, List.map_cons, List.map_nil, List.getD_cons_zero]; norm_num
    · norm_num
  have u11 : luRow 3 [φ ![0]] 1 (φ ![1]) 1 = 1 := by
    unfold luRow
    rw [if_neg (by omega), if_pos rfl, dot_luV (by omega), Finset.sum_range_one]
    simp only [List.getD_cons_zero, hphi]
    norm_num
  have u12 : luRow 3 [φ ![0]] 1 (φ ![1]) 2 = 1/2 := by
    unfold luRow
    rw [if_neg (by omega), if_neg (by omega), sum_map_range, Finset.sum_range_one]
    simp only [List.getD_cons_zero, hphi]
    norm_num
  have s2 : (luStep cfg env obj .replace (1/4) 3 φ
      ⟨st, [![0], ![1]], [st.fOld, obj ![1]], [![-1]], [obj ![-1]], [φ ![0], luRow 3 [φ ![0]] 1 (φ ![1])]⟩ 2).S =
      [![0], ![1], ![-1]] := by
    rw [luStep_pick cfg env obj (1/4) 3 φ _ 2 0 [1]]
    · simp [luPick]
    · simp only [List.map_cons, List.map_nil, dot_luV (show 2 < 3 by decide), Finset.sum_range_succ, Finset.sum_range_zero,
        List.getD_cons_zero, List.getD_cons_succ, hphi, u11, u12]
      norm_num
    · simp
    · simp [argmax, argmin]
    · norm_num
  have hS : a.S = [![0], ![1], ![-1]] := by
    show (luPivot cfg env obj .replace (1/4) 3 φ st [![1], ![-1]] [obj ![1], obj ![-1]]).S = _
    unfold luPivot
    rw [show List.range' 1 (3 - 1) = [1, 2] from rfl]
    simp only [List.foldl_cons, List.foldl_nil]
    rw [s1, s2]
  have p1 : a.u 1 1 = φ (a.S.getD 1 st.sOld) 1 := p1
  have p2 : a.u 2 2 = φ (a.S.getD 2 st.sOld) 2 - φ (a.S.getD 2 st.sOld) 1 * φ (a.S.getD 1 st.sOld) 2 /
    φ (a.S.getD 1 st.sOld) 1 := p2
  rw [p1, p2, hS]
  simp only [List.getD_cons_zero, List.getD_cons_succ, hphi]
  norm_num

end EQ.Opt
