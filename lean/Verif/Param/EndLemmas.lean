import Verif.Param.NodeLemmas

/-!
# Helper lemmas: Gauss–Radau and Gauss–Lobatto tables
-/

namespace EQ.Param
open Polynomial Finset

theorem mpoly_congr (ab ab' : Table) : ∀ n, (∀ k, k < n → ab k = ab' k) →
    mpoly ab n = mpoly ab' n := by
  intro n
  induction n using Nat.strong_induction_on with
  | _ n ih =>
    match n with
    | 0 => intros; rfl
    | 1 => intro h; simp only [mpoly]; rw [h 0 (by omega)]
    | n + 2 =>
      intro h
      simp only [mpoly]
      rw [h (n + 1) (by omega), ih (n + 1) (by omega) (fun k hk => h k (by omega)),
        ih n (by omega) (fun k hk => h k (by omega))]

theorem mpoly_root (ab : Table) (n : ℕ) (hb : ∀ k, 1 ≤ k → k ≤ n → 0 < (ab k).2) (x : ℝ) :
    (mpoly ab n).eval x = 0 ↔ (opoly ab n).eval x = 0 := by
  rw [mpoly_opoly ab n hb, eval_mul, eval_C, mul_eq_zero, or_iff_right]
  refine (Finset.prod_pos fun k hk => ?_).ne'
  rw [mem_Icc] at hk
  exact Real.sqrt_pos.2 (hb k hk.1 hk.2)

theorem L_scale (L : ℝ[X] →ₗ[ℝ] ℝ) (p q r : ℝ[X]) (s t : ℝ) (h : C s * p = C t * q) :
    s * L (r * p) = t * L (r * q) := by
  have e1 : s * L (r * p) = L (r * (C s * p)) := by
    rw [← smul_eq_mul, ← map_smul, smul_eq_C_mul]; congr 1; ring
  have e2 : t * L (r * q) = L (r * (C t * q)) := by
    rw [← smul_eq_mul, ← map_smul, smul_eq_C_mul]; congr 1; ring
  rw [e1, e2, h]

/-- Facts about a table with a changed last row, extended by a harmless extra row. -/
theorem radau_rule (ab : Table) (e : ℝ) (N : ℕ) (hb : ∀ k, 1 ≤ k → k ≤ N + 1 → 0 < (ab k).2)
    (hne : (opoly ab (N + 1)).eval e ≠ 0)
    (D : Fin (N + 2) → ℝ) (V : Matrix (Fin (N + 2)) (Fin (N + 2)) ℝ)
    (h : EighContract (jacobiMatrix (radauTable ab e N) (N + 2)) D V) :
    (∃ k, D k = e) ∧
    ∀ (c : ℝ) (L : ℝ[X] →ₗ[ℝ] ℝ), Orth ab (N + 1) c L →
      ∀ f : ℝ[X], f.natDegree ≤ 2 * (N + 1) → ∑ k, c * (V 0 k) ^ 2 * f.eval (D k) = L f := by
  set T' := radauTable ab e N with hT'
  let T : Table := Function.update T' (N + 2) (0, 1)
  have hrow : T' (N + 1) = (e - (ab (N + 1)).2 * (mpoly ab N).eval e / (mpoly ab (N + 1)).eval e,
      (ab (N + 1)).2) := by
    simp only [hT', radauTable, monicLoop_eq, mpoly_eval, Function.update_self]
  have hlow : ∀ k, k < N + 1 → T k = ab k := by
    intro k hk
    simp only [T, hT', radauTable]
    rw [Function.update_of_ne (by omega), Function.update_of_ne (by omega)]
  have hTN : T (N + 1) = T' (N + 1) := by
    simp only [T]; rw [Function.update_of_ne (by omega)]
  have hsnd : ∀ k, k ≤ N + 1 → (T k).2 = (ab k).2 := by
    intro k hk
    rcases Nat.lt_or_ge k (N + 1) with h1 | h1
    · rw [hlow k h1]
    · obtain rfl : k = N + 1 := by omega
      rw [hTN, hrow]
  have hbT : ∀ k, 1 ≤ k → k ≤ N + 1 + 1 → 0 < (T k).2 := by
    intro k h1 h2
    rcases Nat.lt_or_ge k (N + 2) with h3 | h3
    · rw [hsnd k (by omega)]; exact hb k h1 (by omega)
    · obtain rfl : k = N + 2 := by omega
      simp [T]
  have hJ : jacobiMatrix T' (N + 2) = jacobiMatrix T (N + 2) := by
    apply jacobiMatrix_congr
    intro k hk
    simp only [T]; rw [Function.update_of_ne (by omega)]
  rw [hJ] at h
  have hop : ∀ i, i ≤ N + 1 → opoly T i = opoly ab i := fun i hi =>
    opoly_congr T ab i (fun k hk => by rw [hlow k (by omega)]) (fun k _ hk => hsnd k (by omega))
  constructor
  · apply roots_are_nodes T (N + 1) hbT D V h
    rw [← mpoly_root T (N + 2) hbT, mpoly, hTN, hrow,
      mpoly_congr T ab (N + 1) (fun k hk => hlow k hk),
      mpoly_congr T ab N (fun k hk => hlow k (by omega))]
    have hp : (mpoly ab (N + 1)).eval e ≠ 0 := fun h0 => hne ((mpoly_root ab _ hb e).mp h0)
    simp only [eval_sub, eval_mul, eval_X, eval_C]
    field_simp
    ring
  · intro c L hL f hf
    have hb' : ∀ k, 1 ≤ k → k ≤ N + 1 → 0 < (T k).2 := fun k h1 h2 => hbT k h1 (by omega)
    have key := exact_even T (N + 1) hb' (qsum (fun k => c * (V 0 k) ^ 2) D) L ?_ f hf
    · rw [qsum_apply] at key; exact key
    · intro i j hi hj
      rw [qsum_apply]
      have h1 := discrete_orthonormal T (N + 1) hb' D V h i j (by omega) (by omega)
      have h2 := hL i j hi hj
      rw [← hop i hi, ← hop j hj] at h2
      rw [h2]
      have : ∑ k, c * (V 0 k) ^ 2 * (opoly T i * opoly T j).eval (D k) =
          c * ∑ k, (V 0 k) ^ 2 * ((opoly T i).eval (D k) * (opoly T j).eval (D k)) := by
        rw [mul_sum]; exact sum_congr rfl fun k _ => by rw [eval_mul]; ring
      rw [this, h1]
      split_ifs <;> simp

theorem lobatto_rule (ab : Table) (l r : ℝ) (N : ℕ) (hb : ∀ k, 1 ≤ k → k ≤ N + 1 → 0 < (ab k).2)
    (hdet : (mpoly ab (N + 1)).eval l * (mpoly ab N).eval r -
      (mpoly ab (N + 1)).eval r * (mpoly ab N).eval l ≠ 0)
    (hpos : 0 < (lobattoTable ab l r N (N + 1)).2)
    (D : Fin (N + 2) → ℝ) (V : Matrix (Fin (N + 2)) (Fin (N + 2)) ℝ)
    (h : EighContract (jacobiMatrix (lobattoTable ab l r N) (N + 2)) D V) :
    (∃ k, D k = l) ∧ (∃ k, D k = r) ∧
    ∀ (c : ℝ) (L : ℝ[X] →ₗ[ℝ] ℝ), Orth ab (N + 1) c L →
      ∀ f : ℝ[X], f.natDegree ≤ 2 * N + 1 → ∑ k, c * (V 0 k) ^ 2 * f.eval (D k) = L f := by
  set T' := lobattoTable ab l r N with hT'
  let T : Table := Function.update T' (N + 2) (0, 1)
  have hrow : T' (N + 1) =
      ((l * (mpoly ab (N + 1)).eval l * (mpoly ab N).eval r -
        r * (mpoly ab (N + 1)).eval r * (mpoly ab N).eval l) /
        ((mpoly ab (N + 1)).eval l * (mpoly ab N).eval r -
          (mpoly ab (N + 1)).eval r * (mpoly ab N).eval l),
       (r - l) * (mpoly ab (N + 1)).eval l * (mpoly ab (N + 1)).eval r /
        ((mpoly ab (N + 1)).eval l * (mpoly ab N).eval r -
          (mpoly ab (N + 1)).eval r * (mpoly ab N).eval l)) := by
    simp only [hT', lobattoTable, monicLoop_eq, mpoly_eval, Function.update_self]
  have hlow : ∀ k, k < N + 1 → T k = ab k := by
    intro k hk
    simp only [T, hT', lobattoTable]
    rw [Function.update_of_ne (by omega), Function.update_of_ne (by omega)]
  have hTN : T (N + 1) = T' (N + 1) := by
    simp only [T]; rw [Function.update_of_ne (by omega)]
  have hbT : ∀ k, 1 ≤ k → k ≤ N + 1 + 1 → 0 < (T k).2 := by
    intro k h1 h2
    rcases Nat.lt_or_ge k (N + 1) with h3 | h3
    · rw [hlow k (by omega)]; exact hb k h1 (by omega)
    · rcases Nat.lt_or_ge k (N + 2) with h4 | h4
      · obtain rfl : k = N + 1 := by omega
        rw [hTN]; exact hpos
      · obtain rfl : k = N + 2 := by omega
        simp [T]
  have hJ : jacobiMatrix T' (N + 2) = jacobiMatrix T (N + 2) := by
    apply jacobiMatrix_congr
    intro k hk
    simp only [T]; rw [Function.update_of_ne (by omega)]
  rw [hJ] at h
  have hop : ∀ i, i ≤ N → opoly T i = opoly ab i := fun i hi =>
    opoly_congr T ab i (fun k hk => by rw [hlow k (by omega)])
      (fun k _ hk => by rw [hlow k (by omega)])
  have hmp : ∀ i, i ≤ N + 1 → mpoly T i = mpoly ab i := fun i hi =>
    mpoly_congr T ab i (fun k hk => hlow k (by omega))
  have hroot : ∀ x, (mpoly T (N + 2)).eval x =
      (x - (T' (N + 1)).1) * (mpoly ab (N + 1)).eval x -
        (T' (N + 1)).2 * (mpoly ab N).eval x := by
    intro x
    rw [mpoly, hTN, hmp (N + 1) le_rfl, hmp N (by omega)]
    simp only [eval_sub, eval_mul, eval_X, eval_C]
  refine ⟨?_, ?_, ?_⟩
  · apply roots_are_nodes T (N + 1) hbT D V h
    rw [← mpoly_root T (N + 2) hbT, hroot, hrow]
    simp only
    generalize (mpoly ab (N + 1)).eval l = p1l at *
    generalize (mpoly ab (N + 1)).eval r = p1r at *
    generalize (mpoly ab N).eval l = p0l at *
    generalize (mpoly ab N).eval r = p0r at *
    field_simp
    ring
  · apply roots_are_nodes T (N + 1) hbT D V h
    rw [← mpoly_root T (N + 2) hbT, hroot, hrow]
    simp only
    generalize (mpoly ab (N + 1)).eval l = p1l at *
    generalize (mpoly ab (N + 1)).eval r = p1r at *
    generalize (mpoly ab N).eval l = p0l at *
    generalize (mpoly ab N).eval r = p0r at *
    field_simp
    ring
  · intro c L hL f hf
    have hb2 : ∀ k, 1 ≤ k → k ≤ N + 1 → 0 < (T k).2 := fun k h1 h2 => hbT k h1 (by omega)
    have hdo := discrete_orthonormal T (N + 1) hb2 D V h
    have hQ : ∀ i j, i < N + 2 → j < N + 2 →
        qsum (fun k => c * (V 0 k) ^ 2) D (opoly T i * opoly T j) = if i = j then c else 0 := by
      intro i j hi hj
      rw [qsum_apply]
      have : ∑ k, c * (V 0 k) ^ 2 * (opoly T i * opoly T j).eval (D k) =
          c * ∑ k, (V 0 k) ^ 2 * ((opoly T i).eval (D k) * (opoly T j).eval (D k)) := by
        rw [mul_sum]; exact sum_congr rfl fun k _ => by rw [eval_mul]; ring
      rw [this, hdo i j hi hj]
      split_ifs <;> simp
    have key := exact_odd T N N le_rfl hb2 (qsum (fun k => c * (V 0 k) ^ 2) D) L
      ?_ ?_ ?_ f (by omega)
    · rw [qsum_apply] at key; exact key
    · intro i hi
      have h1 := hQ i 0 (by omega) (by omega)
      have h2 := hL i 0 (by omega) (by omega)
      rw [← hop i hi, ← hop 0 (by omega)] at h2
      rw [← h2] at h1
      simpa [opoly] using h1
    · intro i hi
      rw [hQ i (N + 1) (by omega) (by omega), if_neg (by omega)]
    · intro i hi
      have h2 := hL i (N + 1) (by omega) le_rfl
      rw [if_neg (by omega)] at h2
      have hP : C (∏ k ∈ Icc 1 (N + 1), √(T k).2) * opoly T (N + 1) =
          C (∏ k ∈ Icc 1 (N + 1), √(ab k).2) * opoly ab (N + 1) := by
        rw [← mpoly_opoly T (N + 1) hb2, ← mpoly_opoly ab (N + 1) hb, hmp _ le_rfl]
      have h3 : (∏ k ∈ Icc 1 (N + 1), √(T k).2) * L (opoly T i * opoly T (N + 1)) =
          (∏ k ∈ Icc 1 (N + 1), √(ab k).2) * L (opoly ab i * opoly ab (N + 1)) := by
        rw [hop i hi]
        exact L_scale L _ _ _ _ _ hP
      rw [h2, mul_zero] at h3
      refine (mul_eq_zero.mp h3).resolve_left ?_
      refine (Finset.prod_pos fun k hk => ?_).ne'
      rw [mem_Icc] at hk
      exact Real.sqrt_pos.2 (hb2 k hk.1 hk.2)

/-- The Lobatto modification is well defined at the ends of the support. -/
theorem lobatto_defined (ab : Table) (l r : ℝ) (N : ℕ)
    (hlr : l < r)
    (s1 : 0 < (mpoly ab (N + 1)).eval r) (s2 : 0 < (-1) ^ (N + 1) * (mpoly ab (N + 1)).eval l)
    (s3 : 0 < (mpoly ab N).eval r) (s4 : 0 < (-1) ^ N * (mpoly ab N).eval l) :
    ((mpoly ab (N + 1)).eval l * (mpoly ab N).eval r -
      (mpoly ab (N + 1)).eval r * (mpoly ab N).eval l ≠ 0) ∧
    0 < (lobattoTable ab l r N (N + 1)).2 := by
  have hrow : (lobattoTable ab l r N (N + 1)).2 =
       (r - l) * (mpoly ab (N + 1)).eval l * (mpoly ab (N + 1)).eval r /
        ((mpoly ab (N + 1)).eval l * (mpoly ab N).eval r -
          (mpoly ab (N + 1)).eval r * (mpoly ab N).eval l) := by
    simp only [lobattoTable, monicLoop_eq, mpoly_eval, Function.update_self]
  rw [hrow]
  generalize (mpoly ab (N + 1)).eval l = p1l at *
  generalize (mpoly ab (N + 1)).eval r = p1r at *
  generalize (mpoly ab N).eval l = p0l at *
  generalize (mpoly ab N).eval r = p0r at *
  rcases Nat.even_or_odd N with hN | hN
  · have e1 : (-1 : ℝ) ^ (N + 1) = -1 := by rw [pow_add, hN.neg_one_pow]; norm_num
    have e2 : (-1 : ℝ) ^ N = 1 := hN.neg_one_pow
    rw [e1] at s2
    rw [e2] at s4
    have a1 : 0 < (-p1l) * p0r := mul_pos (by linarith) s3
    have a2 : 0 < p1r * p0l := mul_pos s1 (by linarith)
    have a3 : 0 < (r - l) * (-p1l) * p1r := mul_pos (mul_pos (by linarith) (by linarith)) s1
    have hd : p1l * p0r - p1r * p0l < 0 := by linarith
    exact ⟨hd.ne, div_pos_of_neg_of_neg (by linarith) hd⟩
  · have e1 : (-1 : ℝ) ^ (N + 1) = 1 := by rw [pow_add, hN.neg_one_pow]; norm_num
    have e2 : (-1 : ℝ) ^ N = -1 := hN.neg_one_pow
    rw [e1] at s2
    rw [e2] at s4
    have a1 : 0 < p1l * p0r := mul_pos (by linarith) s3
    have a2 : 0 < p1r * (-p0l) := mul_pos s1 (by linarith)
    have a3 : 0 < (r - l) * p1l * p1r := mul_pos (mul_pos (by linarith) (by linarith)) s1
    have hd : 0 < p1l * p0r - p1r * p0l := by linarith
    exact ⟨hd.ne', div_pos a3 hd⟩

end EQ.Param
