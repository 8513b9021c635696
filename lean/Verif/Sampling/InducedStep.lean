import Verif.Sampling.InducedAlg

/-!
# Helper lemmas: quadratic modifications and linear functionals
-/

namespace EQ.Sampling
open EQ.Param EQ.Basis Polynomial

/-- A table with unit mass whose polynomials are orthonormal for `L`. -/
structure Good (T : Table) (L : ℝ[X] →ₗ[ℝ] ℝ) : Prop where
  unit : (T 0).2 = 1
  pos : ∀ k, 1 ≤ k → 0 < (T k).2
  orth : ∀ m, Orth T m 1 L

/-- Proof device: the table with first norm one. -/
def unitTable (T : Table) : Table := fun i => if i = 0 then ((T 0).1, 1) else T i

/-- Proof device: the functional weighted with `(x - x0)²` and normalised. -/
noncomputable def modL (L : ℝ[X] →ₗ[ℝ] ℝ) (x0 β : ℝ) : ℝ[X] →ₗ[ℝ] ℝ :=
  β⁻¹ • (L ∘ₗ LinearMap.mulLeft ℝ ((X - C x0) ^ 2))

theorem modL_apply (L : ℝ[X] →ₗ[ℝ] ℝ) (x0 β : ℝ) (f : ℝ[X]) : modL L x0 β f = β⁻¹ * L ((X - C x0) ^ 2 * f) := by
  simp [modL]

theorem mpoly_unit (T : Table) : ∀ n, mpoly (unitTable T) n = mpoly T n := by
  intro n
  induction n using Nat.strong_induction_on with
  | _ n ih =>
    match n with
    | 0 => rfl
    | 1 => simp [mpoly, unitTable]
    | n + 2 =>
      simp only [mpoly]
      rw [ih (n + 1) (by omega), ih n (by omega)]
      simp [unitTable]

section
variable {T : Table} {L : ℝ[X] →ₗ[ℝ] ℝ} (G : Good T L)
include G

theorem Good.low (n : ℕ) (r : ℝ[X]) (hr : r.natDegree < n) : L (mpoly T n * r) = 0 := by
  rw [mpoly_opoly T n fun k h _ => G.pos k h, mul_assoc, ← smul_eq_C_mul, map_smul]
  obtain ⟨d, hd⟩ := opoly_span T r.natDegree (fun k h _ => G.pos k h) r le_rfl
  rw [hd, Finset.mul_sum, map_sum, Finset.sum_eq_zero, smul_zero]
  intro i hi
  rw [Finset.mem_range] at hi
  have e : opoly T n * (C (d i) * opoly T i) = d i • (opoly T n * opoly T i) := by rw [smul_eq_C_mul]; ring
  rw [e, map_smul, G.orth n n i le_rfl (by omega), if_neg (by omega), smul_zero]

theorem Good.one : L 1 = 1 := by
  have := G.orth 0 0 0 le_rfl le_rfl
  simpa [opoly] using this

theorem Good.sq (n : ℕ) : L (mpoly T n * mpoly T n) = nrm T n := by
  have orth : ∀ p q, p ≠ q → L (mpoly T p * mpoly T q) = 0 := by
    intro p q h
    rcases lt_or_gt_of_ne h with h | h
    · rw [mul_comm]; exact G.low q _ (by rw [(mpoly_monic T p).2]; exact h)
    · exact G.low p _ (by rw [(mpoly_monic T q).2]; exact h)
  induction n with
  | zero => simp [mpoly, nrm, G.one]
  | succ n ih => rw [sq_step T L n fun p q _ _ h => orth p q h, ih, nrm]

theorem Good.mass (x0 : ℝ) : L ((X - C x0) ^ 2) = (modTable T x0 0).2 ∧ 0 < (modTable T x0 0).2 := by
  have hk := ksum_pos T x0 G.pos 1
  have b1 := G.pos 1 le_rfl
  have e : (modTable T x0 0).2 = (T 1).2 * ksum T x0 1 := by
    simp only [modTable, zero_add]; rw [quadCorrect_zero T x0 G.pos G.unit]
  refine ⟨?_, by rw [e]; positivity⟩
  have h := modTable_mpoly T x0 G.pos G.unit 0
  have g0 : gam T x0 0 = x0 - (T 0).1 := by simp [gam, monicVal, nrm, ksum]
  have d0 : del T x0 0 = (x0 - (T 0).1) ^ 2 := by simp [del, monicVal, nrm, ksum]
  have m0 : ∀ S : Table, mpoly S 0 = 1 := fun S => rfl
  rw [m0, m0, mul_one, mul_one, g0, d0] at h
  have e2 : (X - C (x0 + (x0 - (T 0).1))) * mpoly T (0 + 1) + C ((x0 - (T 0).1) ^ 2) =
      mpoly T 1 * mpoly T 1 + (-2 * (x0 - (T 0).1)) • (mpoly T 1 * 1) + ((x0 - (T 0).1) ^ 2) • 1 := by
    simp only [mpoly, zero_add, smul_eq_C_mul, C_mul, C_add, C_sub, C_pow, C_neg]
    simp only [map_ofNat]
    ring
  rw [h, e2, map_add, map_add, map_smul, map_smul, G.sq, G.low 1 1 (by simp), G.one, e]
  have : ksum T x0 1 = 1 + (x0 - (T 0).1) ^ 2 / (T 1).2 := by simp [ksum, nrm, monicVal]
  rw [this]
  simp [nrm]
  field_simp

theorem Good.step (x0 : ℝ) : Good (unitTable (modTable T x0)) (modL L x0 (modTable T x0 0).2) := by
  obtain ⟨hm, hp⟩ := G.mass x0
  have hpos : ∀ k, 1 ≤ k → 0 < (unitTable (modTable T x0) k).2 := by
    intro k hk
    obtain ⟨k, rfl⟩ : ∃ j, k = j + 1 := ⟨k - 1, by omega⟩
    have : (unitTable (modTable T x0) (k + 1)).2 = (T (k + 2)).2 * quadCorrect T x0 (k + 1) := by
      simp [unitTable, modTable]
    rw [this, quadCorrect_succ T x0 G.pos G.unit]
    have := ksum_pos T x0 G.pos (k + 2)
    have := ksum_pos T x0 G.pos (k + 1)
    have := ksum_pos T x0 G.pos k
    have := G.pos (k + 2) (by omega)
    positivity
  have low : ∀ (n : ℕ) (r : ℝ[X]), r.natDegree < n →
      modL L x0 (modTable T x0 0).2 (mpoly (unitTable (modTable T x0)) n * r) = 0 := by
    intro n r hr
    rw [modL_apply, mpoly_unit, ← mul_assoc, modTable_mpoly T x0 G.pos G.unit n]
    have e : ((X - C (x0 + gam T x0 n)) * mpoly T (n + 1) + C (del T x0 n) * mpoly T n) * r =
        mpoly T (n + 1) * ((X - C (x0 + gam T x0 n)) * r) + del T x0 n • (mpoly T n * r) := by
      rw [smul_eq_C_mul]; ring
    rw [e, map_add, map_smul, G.low n r hr, G.low (n + 1), smul_zero, add_zero, mul_zero]
    refine lt_of_le_of_lt natDegree_mul_le ?_
    rw [natDegree_X_sub_C]; omega
  have orth : ∀ p q, p ≠ q →
      modL L x0 (modTable T x0 0).2 (mpoly (unitTable (modTable T x0)) p * mpoly (unitTable (modTable T x0)) q) = 0 := by
    intro p q h
    rcases lt_or_gt_of_ne h with h | h
    · rw [mul_comm]; exact low q _ (by rw [(mpoly_monic _ p).2]; exact h)
    · exact low p _ (by rw [(mpoly_monic _ q).2]; exact h)
  refine ⟨by simp [unitTable], hpos, ?_⟩
  intro m i j hi hj
  rw [orthonormal_of_monic _ _ m (fun k h _ => hpos k h) (fun p q _ _ h => orth p q h)
    (fun k _ => sq_step _ _ k fun p q _ _ h => orth p q h) i j hi hj, modL_apply, mul_one, hm, inv_mul_cancel₀ hp.ne']

end

/-! ## Lists of rows -/

/-- The rows of a list are those of a table. -/
def Agree (l : List (ℝ × ℝ)) (T : Table) : Prop := ∀ k, k < l.length → rows l k = T k

theorem christoffel_congr {S T : Table} (x : ℝ) : ∀ n, (∀ k ≤ n, S k = T k) → christoffel S x n = christoffel T x n := by
  intro n
  induction n using Nat.strong_induction_on with
  | _ n ih =>
    intro h
    match n with
    | 0 => simp only [christoffel]; rw [h 0 le_rfl]
    | 1 => simp only [christoffel]; rw [h 0 (by omega), h 1 le_rfl]
    | 2 => simp only [christoffel]; rw [h 0 (by omega), h 1 (by omega), h 2 le_rfl]
    | n + 3 =>
      rw [christoffel, christoffel, ih (n + 2) (by omega) fun k hk => h k (by omega),
        ih (n + 1) (by omega) fun k hk => h k (by omega), h (n + 2) (by omega), h (n + 3) le_rfl]

theorem rows_map (n : ℕ) (f : ℕ → ℝ × ℝ) (k : ℕ) (hk : k < n) : rows ((List.range n).map f) k = f k := by
  unfold rows
  rw [List.getD_eq_getElem?_getD, List.getElem?_map, List.getElem?_range hk]
  rfl

theorem quadMod_ok {l : List (ℝ × ℝ)} {T : Table} (h : Agree l T) (hl : 3 ≤ l.length) (x0 : ℝ) :
    ∃ t, quadMod l x0 = .ok t ∧ t.length = l.length - 2 ∧ Agree t (modTable T x0) := by
  unfold quadMod
  rw [if_neg (by omega), if_neg (by omega)]
  refine ⟨_, rfl, by simp, ?_⟩
  intro k hk
  simp only [List.length_map, List.length_range] at hk
  have hc : ∀ j, j < l.length → christoffel (rows l) x0 j = christoffel T x0 j := fun j hj =>
    christoffel_congr x0 j fun i hi => h i (by omega)
  have ht : ∀ j, j + 1 < l.length → quadTemp (rows l) x0 j = quadTemp T x0 j := by
    intro j hj
    unfold quadTemp
    rw [hc j (by omega), hc (j + 1) hj, hc 1 (by omega), h (j + 1) hj, h 1 (by omega)]
  have hq : quadCorrect (rows l) x0 k = quadCorrect T x0 k := by
    unfold quadCorrect
    rw [hc k (by omega), hc (k + 1) (by omega), hc 1 (by omega), hc 0 (by omega)]
  rw [rows_map _ _ _ hk]
  simp only [modTable]
  rw [ht k (by omega), ht (k + 1) (by omega), hq, h (k + 1) (by omega)]

theorem unitMass_agree {l : List (ℝ × ℝ)} {T : Table} (h : Agree l T) :
    (unitMass l).length = l.length ∧ Agree (unitMass l) (unitTable T) := by
  have hl : (unitMass l).length = l.length := by simp [unitMass]
  refine ⟨hl, fun k hk => ?_⟩
  rw [hl] at hk
  have hr := h k hk
  have e0 : l.getD k (0, 0) = l[k] := by simp [List.getD_eq_getElem?_getD, hk]
  unfold rows at hr ⊢
  rw [e0] at hr
  unfold unitMass unitTable
  rw [List.getD_eq_getElem?_getD, List.getElem?_modify]
  simp only [List.getElem?_eq_getElem hk, hr]
  by_cases h0 : k = 0
  · subst h0; simp
  · simp [h0, Ne.symm h0]

/-- The product of the squared linear factors. -/
noncomputable def sqProd (rs : List ℝ) : ℝ[X] := (rs.map fun r => (X - C r) ^ 2).prod

theorem modifyAll_ok : ∀ (rs : List ℝ) {l : List (ℝ × ℝ)} {T : Table} {L : ℝ[X] →ₗ[ℝ] ℝ}, Good T L → Agree l T →
    2 * rs.length + 1 ≤ l.length →
    ∃ t T' L', modifyAll l rs = .ok t ∧ t.length = l.length - 2 * rs.length ∧ Agree t T' ∧ Good T' L' ∧
      0 < L (sqProd rs) ∧ ∀ f, L' f * L (sqProd rs) = L (sqProd rs * f)
  | [], l, T, L, G, h, _ => by
    refine ⟨l, T, L, rfl, by simp, h, G, ?_, ?_⟩
    · simp [sqProd, G.one]
    · intro f; simp [sqProd, G.one]
  | r :: rs, l, T, L, G, h, hl => by
    simp only [List.length_cons] at hl
    obtain ⟨t, h1, h2, h3⟩ := quadMod_ok h (by omega) r
    obtain ⟨u1, u2⟩ := unitMass_agree h3
    obtain ⟨hm, hp⟩ := G.mass r
    obtain ⟨t', T', L', e1, e2, e3, e4, e5, e6⟩ := modifyAll_ok rs (G.step r) u2 (by omega)
    have hs : sqProd (r :: rs) = (X - C r) ^ 2 * sqProd rs := by simp [sqProd]
    have hL : L (sqProd (r :: rs)) = (modTable T r 0).2 * modL L r (modTable T r 0).2 (sqProd rs) := by
      rw [hs, modL_apply, mul_inv_cancel_left₀ hp.ne']
    refine ⟨t', T', L', ?_, by simp only [List.length_cons]; omega, e3, e4, ?_, ?_⟩
    · rw [modifyAll, h1]; exact e1
    · rw [hL]; positivity
    · intro f
      rw [hL, hs, mul_left_comm, e6, modL_apply, mul_inv_cancel_left₀ hp.ne', mul_assoc]

theorem evalLoop_ok (k x : ℝ) (hk : 0 < k) (hx : -1 < x) : ∀ (zs : List ℝ) {l : List (ℝ × ℝ)} {T : Table}
    {L : ℝ[X] →ₗ[ℝ] ℝ} (lf : ℝ), Good T L → Agree l T → 2 * zs.length + 1 ≤ l.length →
    ∃ t T' L' lf', evalLoop k x l lf zs = .ok (t, lf') ∧ t.length = l.length - 2 * zs.length ∧ Agree t T' ∧ Good T' L' ∧
      0 < L (sqProd (zs.map fun z => 2 / (x + 1) * (z + 1) - 1)) ∧
      lf' = lf + Real.log (L (sqProd (zs.map fun z => 2 / (x + 1) * (z + 1) - 1)) * (((x + 1) / 2) ^ 2 * k) ^ zs.length)
  | [], l, T, L, lf, G, h, _ => by
    refine ⟨l, T, L, lf, rfl, by simp, h, G, ?_, ?_⟩ <;> simp [sqProd, G.one]
  | z :: zs, l, T, L, lf, G, h, hl => by
    simp only [List.length_cons] at hl
    have e0 : (2.0 / (x + 1.0) * (z + 1.0) - 1.0 : ℝ) = 2 / (x + 1) * (z + 1) - 1 := by norm_num
    obtain ⟨t, h1, h2, h3⟩ := quadMod_ok h (by omega) (2 / (x + 1) * (z + 1) - 1)
    obtain ⟨u1, u2⟩ := unitMass_agree h3
    obtain ⟨hm, hp⟩ := G.mass (2 / (x + 1) * (z + 1) - 1)
    have hs0 : 0 < ((x + 1) / 2) ^ 2 * k := by
      have : 0 < x + 1 := by linarith
      positivity
    obtain ⟨t', T', L', lf', e1, e2, e3, e4, e5, e6⟩ := evalLoop_ok k x hk hx zs
      (lf + Real.log ((rows t 0).2 * ((x + 1.0) / 2.0) ^ 2 * k)) (G.step (2 / (x + 1) * (z + 1) - 1)) u2 (by omega)
    have hs : sqProd ((z :: zs).map fun z => 2 / (x + 1) * (z + 1) - 1) = (X - C (2 / (x + 1) * (z + 1) - 1)) ^ 2 *
        sqProd (zs.map fun z => 2 / (x + 1) * (z + 1) - 1) := by simp [sqProd]
    have hL : L (sqProd ((z :: zs).map fun z => 2 / (x + 1) * (z + 1) - 1)) = (modTable T (2 / (x + 1) * (z + 1) - 1) 0).2 *
        modL L (2 / (x + 1) * (z + 1) - 1) (modTable T (2 / (x + 1) * (z + 1) - 1) 0).2
          (sqProd (zs.map fun z => 2 / (x + 1) * (z + 1) - 1)) := by
      rw [hs, modL_apply, mul_inv_cancel_left₀ hp.ne']
    refine ⟨t', T', L', lf', ?_, by simp only [List.length_cons]; omega, e3, e4, ?_, ?_⟩
    · rw [evalLoop, e0, h1]; exact e1
    · rw [hL]; positivity
    · rw [e6, hL, h3 0 (by omega), add_assoc, ← Real.log_mul, List.length_cons, pow_succ]
      · congr 2
        norm_num
        ring
      · have h5 : 0 < x + 1 := by linarith
        have h6 : ((x + 1.0) / 2.0 : ℝ) = (x + 1) / 2 := by norm_num
        rw [h6]
        positivity
      · positivity

end EQ.Sampling
