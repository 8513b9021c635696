import Verif.Sampling.MeshLemmas

/-!
# Helper lemmas: the sparse grid of two uniform parameters on `[-1, 1]` at level 1
-/

namespace EQ.Sampling
open EQ.Param EQ.Basis Spec

/-- A parameter with given recurrence coefficients, bounds and mean for which the eigenvalue
routine keeps its contract. -/
theorem exists_valid (ab : Table) (h0 : (ab 0).2 = 1) (hb : ∀ k, 1 ≤ k → 0 < (ab k).2)
    (l u : Option ℝ) (m : ℝ) :
    ∃ P : MParam, Valid P ∧ P.ab = ab ∧ P.lower = l ∧ P.upper = u ∧ P.mean = m := by
  choose D V σ h using fun n => c13_eigh_reachable ab n
  exact ⟨⟨ab, l, u, m, D, V, σ⟩, ⟨h0, hb, fun n => (h n).1, fun n => (h n).2⟩, rfl, rfl, rfl, rfl⟩

/-- A uniform parameter on `[-1, 1]`. -/
structure IsUniform (P : MParam) : Prop where
  valid : Valid P
  ab : P.ab = jtab 0 0 (-1) 1
  lower : P.lower = some (-1)
  upper : P.upper = some 1
  mean : P.mean = 0

theorem exists_uniform : ∃ P : MParam, IsUniform P := by
  obtain ⟨P, h1, h2, h3, h4, h5⟩ := exists_valid (jtab 0 0 (-1) 1)
    (by simp [jtab, jacobiRow]; norm_num)
    (jtab_pos (by norm_num) (by norm_num) (by norm_num)) (some (-1)) (some 1) 0
  exact ⟨P, h1, h2, h3, h4, h5⟩

theorem leg_a (k : ℕ) : (jtab 0 0 (-1) 1 k).1 = 0 := by
  simp only [jtab, jacobiRow]
  split_ifs <;> simp

theorem leg_b1 : (jtab 0 0 (-1) 1 1).2 = 1 / 3 := by
  simp [jtab, jacobiRow]; norm_num

theorem leg_b2 : (jtab 0 0 (-1) 1 2).2 = 4 / 15 := by
  simp [jtab, jacobiRow]; norm_num

theorem IsUniform.rule0 {P : MParam} (h : IsUniform P) : P.localRule 0 = ⟨[0], [1]⟩ := by
  simp [MParam.localRule, onePointRule, h.lower, h.upper, falsy]
  norm_num

theorem node_eq (P : MParam) (h : IsUniform P) (n : ℕ) (u : Fin (n + 1)) :
    ∃ v : Fin (n + 1) → ℝ, dotProduct v v = 1 ∧
      (jacobiMatrix (jtab 0 0 (-1) 1) (n + 1)).mulVec v =
        (quadratureOfEigh P.ab (P.eigD n) (P.eigV n) (P.argsort n)).p u • v := by
  obtain ⟨v, h1, h2, _⟩ := (c13_gauss_weights P.ab n (fun k h1 _ => h.valid.pos k h1)
    (by rw [h.valid.b0]; norm_num) _ _ (h.valid.eigh n) _ (h.valid.sort n)).2.2.2 u
  rw [h.ab] at h2 ⊢
  exact ⟨v, h1, h2⟩

theorem node_sq_two (P : MParam) (h : IsUniform P) (u : Fin 2) :
    ((quadratureOfEigh P.ab (P.eigD 1) (P.eigV 1) (P.argsort 1)).p u) ^ 2 = 1 / 3 := by
  obtain ⟨v, h1, h2⟩ : ∃ v : Fin 2 → ℝ, dotProduct v v = 1 ∧
      (jacobiMatrix (jtab 0 0 (-1) 1) 2).mulVec v =
        (quadratureOfEigh P.ab (P.eigD 1) (P.eigV 1) (P.argsort 1)).p u • v := node_eq P h 1 u
  generalize (quadratureOfEigh P.ab (P.eigD 1) (P.eigV 1) (P.argsort 1)).p u = lam at h2
  have e0 := congrFun h2 0
  have e1 := congrFun h2 1
  simp only [Matrix.mulVec, dotProduct, Fin.sum_univ_two, jacobiMatrix, Pi.smul_apply,
    smul_eq_mul] at e0 e1 h1
  rw [jacobiEntries_eq _ _ (by omega) _ _ (by simp) (by simp),
    jacobiEntries_eq _ _ (by omega) _ _ (by simp) (by simp)] at e0 e1
  simp [leg_a, leg_b1] at e0 e1
  have hs : ((√3)⁻¹ : ℝ) ^ 2 = 1 / 3 := by rw [inv_pow, Real.sq_sqrt (by norm_num)]; norm_num
  generalize ((√3)⁻¹ : ℝ) = s at e0 e1 hs
  have : (lam ^ 2 - 1 / 3) * v 0 = 0 ∧ (lam ^ 2 - 1 / 3) * v 1 = 0 := by
    constructor
    · rw [← hs]; linear_combination (-lam) * e0 - s * e1
    · rw [← hs]; linear_combination (-lam) * e1 - s * e0
  by_contra hne
  have hne' : lam ^ 2 - 1 / 3 ≠ 0 := sub_ne_zero.2 hne
  have z0 := (mul_eq_zero.1 this.1).resolve_left hne'
  have z1 := (mul_eq_zero.1 this.2).resolve_left hne'
  rw [z0, z1] at h1
  norm_num at h1

theorem node_cube_three (P : MParam) (h : IsUniform P) (u : Fin 3) :
    (quadratureOfEigh P.ab (P.eigD 2) (P.eigV 2) (P.argsort 2)).p u = 0 ∨
    ((quadratureOfEigh P.ab (P.eigD 2) (P.eigV 2) (P.argsort 2)).p u) ^ 2 = 3 / 5 := by
  obtain ⟨v, h1, h2⟩ : ∃ v : Fin 3 → ℝ, dotProduct v v = 1 ∧
      (jacobiMatrix (jtab 0 0 (-1) 1) 3).mulVec v =
        (quadratureOfEigh P.ab (P.eigD 2) (P.eigV 2) (P.argsort 2)).p u • v := node_eq P h 2 u
  generalize (quadratureOfEigh P.ab (P.eigD 2) (P.eigV 2) (P.argsort 2)).p u = lam at h2 ⊢
  have e0 := congrFun h2 0
  have e1 := congrFun h2 1
  have e2 := congrFun h2 2
  simp only [Matrix.mulVec, dotProduct, Fin.sum_univ_three, jacobiMatrix, Pi.smul_apply,
    smul_eq_mul] at e0 e1 e2 h1
  rw [jacobiEntries_eq _ _ (by omega) _ _ (by simp) (by simp),
    jacobiEntries_eq _ _ (by omega) _ _ (by simp) (by simp),
    jacobiEntries_eq _ _ (by omega) _ _ (by simp) (by simp)] at e0 e1 e2
  have l1 : √(jtab 0 0 (-1) 1 1).2 ^ 2 = 1 / 3 := by rw [leg_b1, Real.sq_sqrt (by norm_num)]
  have l2 : √(jtab 0 0 (-1) 1 2).2 ^ 2 = 4 / 15 := by rw [leg_b2, Real.sq_sqrt (by norm_num)]
  simp [leg_a] at e0 e1 e2
  generalize √(jtab 0 0 (-1) 1 1).2 = s at *
  generalize √(jtab 0 0 (-1) 1 2).2 = t at *
  by_contra hne
  push Not at hne
  obtain ⟨hz, hsq⟩ := hne
  have k1 : (lam ^ 2 - 3 / 5) * v 1 = 0 := by
    linear_combination (-lam) * e1 - s * e0 - t * e2 + v 1 * l1 + v 1 * l2
  have z1 := (mul_eq_zero.1 k1).resolve_left (sub_ne_zero.2 hsq)
  rw [z1] at e0 e2
  have z0 : v 0 = 0 := by
    have : lam * v 0 = 0 := by linarith
    exact (mul_eq_zero.1 this).resolve_left hz
  have z2 : v 2 = 0 := by
    have : lam * v 2 = 0 := by linarith
    exact (mul_eq_zero.1 this).resolve_left hz
  rw [z0, z1, z2] at h1
  norm_num at h1

theorem IsUniform.rule1 {P : MParam} (h : IsUniform P) :
    ∃ a w1 w2, a ^ 2 = 1 / 3 ∧ P.localRule 1 = ⟨[-a, a], [w1, w2]⟩ := by
  have s0 := node_sq_two P h 0
  have s1 := node_sq_two P h 1
  have hlt := (c13_gauss_weights P.ab 1 (fun k h1 _ => h.valid.pos k h1)
    (by rw [h.valid.b0]; norm_num) _ _ (h.valid.eigh 1) _ (h.valid.sort 1)).1
    (show (0 : Fin 2) < 1 by decide)
  refine ⟨_, (quadratureOfEigh P.ab (P.eigD 1) (P.eigV 1) (P.argsort 1)).w 0,
    (quadratureOfEigh P.ab (P.eigD 1) (P.eigV 1) (P.argsort 1)).w 1, s1, ?_⟩
  · simp only [MParam.localRule, if_neg one_ne_zero, List.ofFn_succ, List.ofFn_zero]
    congr 2
    have : ((quadratureOfEigh P.ab (P.eigD 1) (P.eigV 1) (P.argsort 1)).p 0 -
      (quadratureOfEigh P.ab (P.eigD 1) (P.eigV 1) (P.argsort 1)).p 1) *
      ((quadratureOfEigh P.ab (P.eigD 1) (P.eigV 1) (P.argsort 1)).p 0 +
      (quadratureOfEigh P.ab (P.eigD 1) (P.eigV 1) (P.argsort 1)).p 1) = 0 := by
      linear_combination s0 - s1
    have := (mul_eq_zero.1 this).resolve_left (by linarith)
    linarith

theorem IsUniform.rule2 {P : MParam} (h : IsUniform P) :
    ∃ c w1 w2 w3, c ^ 2 = 3 / 5 ∧ 0 < w2 ∧ P.localRule 2 = ⟨[-c, 0, c], [w1, w2, w3]⟩ := by
  have G := c13_gauss_weights P.ab 2 (fun k h1 _ => h.valid.pos k h1)
    (by rw [h.valid.b0]; norm_num) _ _ (h.valid.eigh 2) _ (h.valid.sort 2)
  have s0 := node_cube_three P h 0
  have s1 := node_cube_three P h 1
  have s2 := node_cube_three P h 2
  have h01 := G.1 (show (0 : Fin 3) < 1 by decide)
  have h12 := G.1 (show (1 : Fin 3) < 2 by decide)
  have hw := G.2.1 1
  have e : P.localRule 2 = ⟨List.ofFn (quadratureOfEigh P.ab (P.eigD 2) (P.eigV 2) (P.argsort 2)).p,
      List.ofFn (quadratureOfEigh P.ab (P.eigD 2) (P.eigV 2) (P.argsort 2)).w⟩ := by
    simp only [MParam.localRule, if_neg two_ne_zero]
  rw [e]
  generalize quadratureOfEigh P.ab (P.eigD 2) (P.eigV 2) (P.argsort 2) = R at *
  have key : R.p 1 = 0 ∧ R.p 2 ^ 2 = 3 / 5 ∧ R.p 0 = - R.p 2 := by
    have sq : ∀ x y : ℝ, x ^ 2 = 3 / 5 → y ^ 2 = 3 / 5 → x < y → x = -y := by
      intro x y hx hy hxy
      have : (x - y) * (x + y) = 0 := by linear_combination hx - hy
      have := (mul_eq_zero.1 this).resolve_left (by linarith)
      linarith
    rcases s1 with s1 | s1
    · have s2' : R.p 2 ^ 2 = 3 / 5 := s2.resolve_left (by linarith)
      have s0' : R.p 0 ^ 2 = 3 / 5 := s0.resolve_left (by linarith)
      exact ⟨s1, s2', sq _ _ s0' s2' (by linarith)⟩
    · exfalso
      rcases s0 with s0 | s0
      · have s2' : R.p 2 ^ 2 = 3 / 5 := s2.resolve_left (by linarith)
        have := sq _ _ s1 s2' h12
        linarith
      · have e1 := sq _ _ s0 s1 h01
        rcases s2 with s2 | s2
        · linarith
        · have := sq _ _ s0 s2 (by linarith)
          linarith
  refine ⟨R.p 2, R.w 0, R.w 1, R.w 2, key.2.1, hw, ?_⟩
  simp only [List.ofFn_succ, List.ofFn_zero]
  congr 1
  · rw [← key.2.2]
    show [R.p 0, R.p 1, R.p 2] = _
    rw [key.1]

end EQ.Sampling
