import Verif.Sampling.NewtonLemmas
import Verif.Sampling.SampleProps

/-!
# Properties of Newton subsampling (C133-C135)
-/

namespace EQ.Sampling.Newton
open EQ.Basis Matrix

variable {m n : ℕ} {A : Matrix (Fin m) (Fin n) ℝ}

/-- A relaxed selection of `k` rows: shares strictly between zero and one that add up to `k`. -/
structure Spec.Share (k : ℕ) (z : Fin m → ℝ) : Prop where
  inside : ∀ i, 0 < z i ∧ z i < 1
  sum : ∑ i, z i = k

/-- What the relaxation maximises: the logarithm of the determinant of the information matrix `Σ zᵢ aᵢ aᵢᵀ`, with a barrier. -/
noncomputable def Spec.value (A : Matrix (Fin m) (Fin n) ℝ) (z : Fin m → ℝ) : ℝ :=
  Real.log (∑ i, z i • vecMulVec (A i) (A i)).det +
    Real.log 1.005 * n / m * ∑ i, (Real.log (z i) + Real.log (1 - z i))

theorem info_eq (z : Fin m → ℝ) : info A z = ∑ i, z i • vecMulVec (A i) (A i) := by
  ext a b
  rw [info, mul_apply, Matrix.sum_apply]
  refine Finset.sum_congr rfl fun i _ => ?_
  simp [mul_diagonal, vecMulVec_apply]
  ring

theorem obj_value (z : Fin m → ℝ) : obj A (kappa m n) z = -Spec.value A z := by
  rw [obj, Spec.value, info_eq, kappa]
  norm_num
  ring

theorem foldl_min_pos : ∀ (l : List ℝ) (a : ℝ), 0 < a → (∀ x ∈ l, 0 < x) → 0 < l.foldl min a
  | [], _, ha, _ => ha
  | x :: l, a, ha, h => foldl_min_pos l _ (lt_min ha (h x (by simp))) fun y hy => h y (by simp [hy])

theorem firstStep_defined (z dz : Fin m → ℝ) (h0 : ∑ i, dz i = 0) (hd : dz ≠ 0) :
    ∃ s, firstStep z dz = .ok s ∧ ((∀ i, 0 < z i ∧ z i < 1) → 0 < s) := by
  have hneg : ∃ i, dz i < 0 := by
    by_contra h
    push Not at h
    exact hd (funext fun i => (Finset.sum_eq_zero_iff_of_nonneg fun i _ => h i).1 h0 i (Finset.mem_univ i))
  have hpos : ∃ i, 0 < dz i := by
    by_contra h
    push Not at h
    exact hd (funext fun i => (Finset.sum_eq_zero_iff_of_nonpos fun i _ => h i).1 h0 i (Finset.mem_univ i))
  unfold firstStep
  simp only
  rw [if_neg]
  · refine ⟨_, rfl, fun hz => foldl_min_pos _ _ (by norm_num) fun x hx => ?_⟩
    rcases List.mem_append.1 hx with hx | hx
    · obtain ⟨i, hi, rfl⟩ := List.mem_map.1 hx
      have h1 : dz i < 0 := by simpa using hi
      have h2 := (hz i).1
      exact div_pos_of_neg_of_neg (by linarith) h1
    · obtain ⟨i, hi, rfl⟩ := List.mem_map.1 hx
      have h1 : 0 < dz i := by simpa using hi
      have h2 := (hz i).2
      exact div_pos (by linarith) h1
  · rintro (h | h)
    · obtain ⟨i, hi⟩ := hneg
      simp only [List.map_eq_nil_iff, List.filter_eq_nil_iff] at h
      exact h i (List.mem_finRange i) (by simpa using hi)
    · obtain ⟨i, hi⟩ := hpos
      simp only [List.map_eq_nil_iff, List.filter_eq_nil_iff] at h
      exact h i (List.mem_finRange i) (by simpa using hi)

theorem firstStep_zero (z : Fin m → ℝ) : firstStep z 0 = .error .valueError := by
  unfold firstStep
  simp only
  rw [if_pos]
  left
  simp

theorem loop_unfold (hA : ∀ x, A *ᵥ x = 0 → x = 0) {κ : ℝ} (hκ : 0 < κ) (z : Fin m → ℝ) (h0 : ∀ i, 0 < z i) (h1 : ∀ i, z i ≠ 1)
    (t : ℕ) (fz : Option ℝ) : loop A κ (t + 1) z fz = match firstStep z (direction A κ z) with
      | .error e => .raises e
      | .ok s =>
        match halvings A κ z (direction A κ z) fz s with
        | none => .diverges
        | some j =>
          if -(∑ i, grad A κ z i * direction A κ z i) * 0.5 ≤ 1 / 10 ^ 12 then
            .ok fun i => z i + 0.5 ^ j * s * direction A κ z i
          else loop A κ t (fun i => z i + 0.5 ^ j * s * direction A κ z i)
            (objective A κ fun i => z i + 0.5 ^ j * s * direction A κ z i) := by
  have hdet := (info_posDef hA z h0).det_pos
  have hH := hess_posDef hA hκ z h0
  rw [loop, if_neg hdet.ne', if_neg (by
    rintro ⟨i, h | h⟩
    · exact (h0 i).ne' h
    · exact h1 i (by linarith)), if_neg (not_not.2 hH)]
  rfl

/-- A step that is zero raises. -/
theorem loop_zero (hA : ∀ x, A *ᵥ x = 0 → x = 0) {κ : ℝ} (hκ : 0 < κ) (z : Fin m → ℝ) (h0 : ∀ i, 0 < z i) (h1 : ∀ i, z i ≠ 1)
    (t : ℕ) (fz : Option ℝ) (hd : direction A κ z = 0) : loop A κ (t + 1) z fz = .raises .valueError := by
  rw [loop_unfold hA hκ z h0 h1, hd, firstStep_zero]

/-- One pass of the loop from a relaxed selection: the step is zero and `np.vstack` raises, or the pass ends with a relaxed
selection that is not worse. -/
theorem loop_step (hA : ∀ x, A *ᵥ x = 0 → x = 0) (hn : 0 < n) (hm : 0 < m) {k : ℕ} (z : Fin m → ℝ) (hz : Spec.Share k z) (t : ℕ) :
    (direction A (kappa m n) z = 0 ∧
      loop A (kappa m n) (t + 1) z (some (obj A (kappa m n) z)) = .raises .valueError) ∨
    ∃ zp, Spec.Share k zp ∧ obj A (kappa m n) zp ≤ obj A (kappa m n) z ∧
      (loop A (kappa m n) (t + 1) z (some (obj A (kappa m n) z)) = .ok zp ∨
        loop A (kappa m n) (t + 1) z (some (obj A (kappa m n) z)) = loop A (kappa m n) t zp (some (obj A (kappa m n) zp))) := by
  classical
  have hκ := kappa_pos hm hn
  generalize kappa m n = κ at *
  have hz0 : ∀ i, 0 < z i := fun i => (hz.inside i).1
  have hz1 : ∀ i, z i ≠ 1 := fun i => (hz.inside i).2.ne
  obtain ⟨hsum, -⟩ := direction_ok hA hκ z hz0 hm
  by_cases hd : direction A κ z = 0
  · exact .inl ⟨hd, loop_zero hA hκ z hz0 hz1 t _ hd⟩
  · right
    obtain ⟨s, hs, hs0⟩ := firstStep_defined z _ hsum hd
    have hs0 := hs0 hz.inside
    have hex := search_ends hA hκ z hz.inside hm hd s hs0
    have hacc := Nat.find_spec hex
    rw [loop_unfold hA hκ z hz0 hz1, hs]
    simp only [halvings, dif_pos hex]
    generalize Nat.find hex = j at *
    obtain ⟨f, fp, e1, e2, e3⟩ := hacc
    injection e1 with e1
    obtain ⟨⟨-, hin⟩, rfl⟩ := objective_some.1 e2
    refine ⟨_, ⟨hin, ?_⟩, ?_, ?_⟩
    · rw [Finset.sum_add_distrib, ← Finset.mul_sum, hsum, mul_zero, add_zero, hz.sum]
    · have h1 := (slope_neg hA hκ z hz0 hm).1
      have h2 : (0 : ℝ) ≤ 0.5 ^ j * s := by positivity
      have h3 : 0.01 * ((0.5 : ℝ) ^ j * s) * ∑ i, grad A κ z i * direction A κ z i ≤ 0 :=
        mul_nonpos_of_nonneg_of_nonpos (by linarith) h1
      rw [e1]
      linarith
    · rw [e2]
      split_ifs
      · exact .inl rfl
      · exact .inr rfl

/-- All passes. -/
theorem loop_ok (hA : ∀ x, A *ᵥ x = 0 → x = 0) (hn : 0 < n) (hm : 0 < m) {k : ℕ} : ∀ (t : ℕ) (z : Fin m → ℝ), Spec.Share k z →
    (∃ zp, loop A (kappa m n) t z (some (obj A (kappa m n) z)) = .ok zp ∧ Spec.Share k zp ∧
      obj A (kappa m n) zp ≤ obj A (kappa m n) z) ∨
    (loop A (kappa m n) t z (some (obj A (kappa m n) z)) = .raises .valueError ∧
      ∃ zp, Spec.Share k zp ∧ obj A (kappa m n) zp ≤ obj A (kappa m n) z ∧ direction A (kappa m n) zp = 0)
  | 0, z, hz => .inl ⟨z, rfl, hz, le_rfl⟩
  | t + 1, z, hz => by
    rcases loop_step hA hn hm z hz t with ⟨h1, h2⟩ | ⟨zp, h1, h2, h3 | h3⟩
    · exact .inr ⟨h2, z, hz, le_rfl, h1⟩
    · exact .inl ⟨zp, h3, h1, h2⟩
    · rw [h3]
      rcases loop_ok hA hn hm t zp h1 with ⟨w, a, b, c⟩ | ⟨a, w, b, c, d⟩
      · exact .inl ⟨w, a, b, c.trans h2⟩
      · exact .inr ⟨a, w, b, c.trans h2, d⟩

theorem share_start (hm : 0 < m) {k : ℕ} (hk : 0 < k) (hkm : k < m) : Spec.Share (m := m) k fun _ => (k : ℝ) / m := by
  have hm' : (0 : ℝ) < m := by exact_mod_cast hm
  refine ⟨fun _ => ⟨by positivity, ?_⟩, ?_⟩
  · rw [div_lt_one hm']; exact_mod_cast hkm
  · rw [Finset.sum_const, Finset.card_univ, Fintype.card_fin, nsmul_eq_mul, mul_div_cancel₀ _ hm'.ne']

theorem le_of_inj (hA : ∀ x, A *ᵥ x = 0 → x = 0) : n ≤ m := by
  have hinj : Function.Injective A.mulVecLin := by
    refine (injective_iff_map_eq_zero _).2 fun x h => hA x h
  have := LinearMap.finrank_le_finrank_of_injective hinj
  simpa using this

theorem relaxed_eq (hA : ∀ x, A *ᵥ x = 0 → x = 0) {k : ℕ} (hk : 0 < k) (hkm : k < m) :
    relaxed A k = loop A (kappa m n) 50 (fun _ => k / m) (some (obj A (kappa m n) fun _ => k / m)) := by
  rw [relaxed, if_neg (not_lt.2 (le_of_inj hA)), ← feasible_objective hA _ _ (share_start (by omega) hk hkm).inside]

/-! ## C133: what the relaxation returns -/

/-- Whatever the relaxation returns is a relaxed selection of `k` rows whose value is not below that of the uniform one. -/
theorem c133_progress (hA : ∀ x, A *ᵥ x = 0 → x = 0) (hn : 0 < n) (k : ℕ) (hk : 0 < k) (hkm : k < m) (z : Fin m → ℝ)
    (h : relaxed A k = .ok z) :
    (∀ i, 0 < z i ∧ z i < 1) ∧ ∑ i, z i = k ∧ Spec.value A (fun _ => k / m) ≤ Spec.value A z := by
  rw [relaxed_eq hA hk hkm] at h
  rcases loop_ok hA hn (by omega) 50 _ (share_start (by omega) hk hkm) with ⟨zp, e, h1, h2⟩ | ⟨e, -⟩
  · rw [h] at e
    injection e with e
    subst e
    rw [obj_value, obj_value] at h2
    exact ⟨h1.inside, h1.sum, by linarith⟩
  · rw [h] at e
    cases e

/-! ## C134: the loops end -/

/-- For fewer rows than the mesh has and independent columns, the call ends: with distinct rows, at most `k` of them, or with
`ValueError`. Missing: the exception and the missing rows, see the theorems below and `c25_newton_violated`. -/
theorem c134_ends_partial (hA : ∀ x, A *ᵥ x = 0 → x = 0) (hn : 0 < n) (k : ℕ) (hk : 0 < k) (hkm : k < m) :
    (∃ l, newton A k = .ok l ∧ l.Nodup ∧ (∀ i ∈ l, i < m) ∧ l.length ≤ k) ∨ newton A k = .raises .valueError := by
  unfold newton
  rw [relaxed_eq hA hk hkm]
  rcases loop_ok hA hn (by omega) 50 _ (share_start (by omega) hk hkm) with ⟨zp, e, h1, h2⟩ | ⟨e, -⟩
  · rw [e]
    obtain ⟨a, b, c, -⟩ := c25_newton_partial (List.ofFn zp) k (by simpa using hkm)
    exact .inl ⟨_, rfl, a, by simpa using b, c⟩
  · rw [e]
    exact .inr rfl

theorem leverage_uniform (hA : ∀ x, A *ᵥ x = 0 → x = 0) {a : ℝ} (ha : 0 < a) (i : Fin m) :
    leverage A (fun _ => a) i i = a⁻¹ * (A * (Aᵀ * A)⁻¹ * Aᵀ) i i := by
  have hinfo : info A (fun _ : Fin m => a) = a • (Aᵀ * A) := by
    have : (diagonal fun _ : Fin m => a) = a • (1 : Matrix (Fin m) (Fin m) ℝ) := by rw [smul_one_eq_diagonal]
    rw [info, this, Matrix.mul_smul, Matrix.mul_one, Matrix.smul_mul]
  have hinv : (a • (Aᵀ * A))⁻¹ = a⁻¹ • (Aᵀ * A)⁻¹ := by
    have hu : IsUnit (Aᵀ * A).det := by
      have := (info_posDef hA (fun _ => 1) fun _ => one_pos).det_pos
      rw [info, diagonal_one, Matrix.mul_one] at this
      exact isUnit_iff_ne_zero.2 this.ne'
    refine inv_eq_left_inv ?_
    rw [Matrix.smul_mul, Matrix.mul_smul, smul_smul, nonsing_inv_mul _ hu, inv_mul_cancel₀ (by positivity), one_smul]
  rw [leverage, hinfo, hinv, Matrix.mul_smul, Matrix.smul_mul, Matrix.smul_apply, smul_eq_mul]

/-- Rows that are equally important: the step at the uniform start vanishes. -/
theorem uniform_stationary (hA : ∀ x, A *ᵥ x = 0 → x = 0) (hn : 0 < n) (hm : 0 < m) {a : ℝ} (ha : 0 < a) (c : ℝ)
    (hc : ∀ i, (A * (Aᵀ * A)⁻¹ * Aᵀ) i i = c) : direction A (kappa m n) (fun _ => a) = 0 := by
  have hg : ∃ g, grad A (kappa m n) (fun _ => a) = fun _ => g := by
    refine ⟨-a⁻¹ * c - kappa m n * (1 / a - 1 / (1 - a)), funext fun i => ?_⟩
    rw [grad, leverage_uniform hA ha, hc]
    ring
  obtain ⟨g, hg⟩ := hg
  have hH := hess_posDef hA (kappa_pos hm hn) (fun _ => a) fun i => ha
  have hpos : 0 < ∑ j, ((hess A (kappa m n) fun _ => a)⁻¹ *ᵥ fun _ => (1 : ℝ)) j := by
    have := hH.inv.dotProduct_mulVec_pos (x := fun _ => (1 : ℝ)) (by
      intro h; have := congrFun h ⟨0, hm⟩; simp at this)
    simpa [dotProduct] using this
  have e : (fun _ : Fin m => g) = g • fun _ => (1 : ℝ) := by funext; simp
  funext i
  simp only [direction, hg]
  rw [e, mulVec_smul]
  simp only [Pi.smul_apply, smul_eq_mul, Pi.zero_apply]
  rw [← Finset.mul_sum]
  field_simp
  ring

/-- A mesh whose rows are equally important: the relaxation starts at its optimum and raises. -/
theorem c134_balanced_violated (hA : ∀ x, A *ᵥ x = 0 → x = 0) (hn : 0 < n) (k : ℕ) (hk : 0 < k) (hkm : k < m)
    (c : ℝ) (hc : ∀ i, (A * (Aᵀ * A)⁻¹ * Aᵀ) i i = c) : newton A k = .raises .valueError := by
  have hm : 0 < m := by omega
  have hS := share_start hm hk hkm
  have hd := uniform_stationary hA hn hm (hS.inside ⟨0, hm⟩).1 c hc
  unfold newton
  rw [relaxed_eq hA hk hkm]
  rw [loop_zero hA (kappa_pos hm hn) _ (fun i => (hS.inside i).1) (fun i => (hS.inside i).2.ne) 49 _ hd]

/-- All rows: `1 - z` is zero from the start and the Cholesky factorisation raises. -/
theorem c134_all_rows_violated (hA : ∀ x, A *ᵥ x = 0 → x = 0) (hm : 0 < m) : newton A m = .raises .valueError := by
  have hm' : (0 : ℝ) < m := by exact_mod_cast hm
  have h1 : (fun _ : Fin m => (m : ℝ) / m) = fun _ => 1 := by funext; exact div_self hm'.ne'
  have hdet := (info_posDef hA (fun _ => 1) fun _ => one_pos).det_pos
  unfold newton relaxed
  rw [if_neg (not_lt.2 (le_of_inj hA)), h1]
  simp only
  rw [loop, if_neg hdet.ne', if_pos ⟨⟨0, hm⟩, .inr (by norm_num)⟩]

/-- More rows than the mesh has: the line search compares with `nan` and never ends, unless the first step is zero. -/
theorem c134_too_many_violated (hA : ∀ x, A *ᵥ x = 0 → x = 0) (hn : 0 < n) (k : ℕ) (hk : m < k) (i j : Fin m)
    (hij : (A * (Aᵀ * A)⁻¹ * Aᵀ) i i ≠ (A * (Aᵀ * A)⁻¹ * Aᵀ) j j) : newton A k = .diverges := by
  have hm : 0 < m := i.pos
  have hm' : (0 : ℝ) < m := by exact_mod_cast hm
  have hk' : (m : ℝ) < k := by exact_mod_cast hk
  have hz : 1 < (k : ℝ) / m := by rwa [lt_div_iff₀ hm', one_mul]
  have hz0 : ∀ _ : Fin m, 0 < (k : ℝ) / m := fun _ => by linarith
  have hκ := kappa_pos hm hn
  obtain ⟨hsum, c, hc⟩ := direction_ok hA hκ (fun _ => (k : ℝ) / m) hz0 hm
  have hd : direction A (kappa m n) (fun _ => (k : ℝ) / m) ≠ 0 := by
    intro hd
    rw [hd, mulVec_zero] at hc
    have h1 := hc i
    have h2 := hc j
    simp only [grad, leverage_uniform hA (by linarith : 0 < (k : ℝ) / m), Pi.zero_apply] at h1 h2
    have h3 : ((k : ℝ) / m)⁻¹ * (A * (Aᵀ * A)⁻¹ * Aᵀ) i i = ((k : ℝ) / m)⁻¹ * (A * (Aᵀ * A)⁻¹ * Aᵀ) j j := by linarith
    exact hij (mul_left_cancel₀ (by positivity) h3)
  have ho : objective A (kappa m n) (fun _ => (k : ℝ) / m) = none := by
    unfold objective
    rw [if_neg]
    rintro ⟨-, h⟩
    have := (h i).2
    norm_num at this
    linarith
  obtain ⟨s, hs, -⟩ := firstStep_defined (fun _ => (k : ℝ) / m) _ hsum hd
  have hh : halvings A (kappa m n) (fun _ => (k : ℝ) / m) (direction A (kappa m n) fun _ => (k : ℝ) / m) none s = none := by
    unfold halvings
    rw [dif_neg]
    rintro ⟨-, f, -, h, -⟩
    cases h
  unfold newton relaxed
  rw [if_neg (not_lt.2 (le_of_inj hA))]
  simp only [ho]
  rw [loop_unfold hA hκ _ hz0 (fun _ => hz.ne') 49, hs]
  simp only [hh]

/-! ## C135: optimality -/

open scoped MatrixOrder in
/-- The logarithm of the determinant lies below its tangents. -/
theorem det_tangent {M Y : Matrix (Fin n) (Fin n) ℝ} (hM : M.PosDef) (hY : Y.PosSemidef) :
    Y.det ≤ M.det * Real.exp ((M⁻¹ * Y).trace - n) := by
  obtain ⟨B, hB⟩ := CStarAlgebra.nonneg_iff_eq_star_mul_self.mp hM.inv.posSemidef.nonneg
  rw [star_eq_conjTranspose] at hB
  have hS := hY.mul_mul_conjTranspose_same B
  have htr : (B * Y * Bᴴ).trace = (M⁻¹ * Y).trace := by rw [trace_mul_comm, ← Matrix.mul_assoc, ← hB]
  have hdet : (B * Y * Bᴴ).det = Y.det / M.det := by
    have h1 : B.det * (Bᴴ).det = M.det⁻¹ := by
      rw [mul_comm, ← det_mul, ← hB, det_nonsing_inv, Ring.inverse_eq_inv']
    rw [det_mul, det_mul, div_eq_mul_inv, ← h1]; ring
  have h2 : (B * Y * Bᴴ).det ≤ Real.exp ((B * Y * Bᴴ).trace - n) := by
    rw [hS.isHermitian.det_eq_prod_eigenvalues, hS.isHermitian.trace_eq_sum_eigenvalues]
    have : (∑ i, hS.isHermitian.eigenvalues i) - (n : ℝ) = ∑ i, (hS.isHermitian.eigenvalues i - 1) := by
      rw [Finset.sum_sub_distrib]; simp
    simp only [RCLike.ofReal_real_eq_id, id_eq]
    rw [this, Real.exp_sum]
    refine Finset.prod_le_prod (fun i _ => hS.eigenvalues_nonneg i) fun i _ => ?_
    have := Real.add_one_le_exp (hS.isHermitian.eigenvalues i - 1)
    linarith
  rw [hdet, htr, div_le_iff₀ hM.det_pos, mul_comm] at h2
  exact h2

/-- Where the step vanishes the gradient is constant, and the trace of the tangent is bounded. -/
theorem stationary (hA : ∀ x, A *ᵥ x = 0 → x = 0) (hm : 0 < m) (hn : 0 < n) {k : ℕ} {z : Fin m → ℝ} (hz : Spec.Share k z)
    (hd : direction A (kappa m n) z = 0) (y : Fin m → ℝ) (hy : ∑ i, y i = k) :
    ((info A z)⁻¹ * info A y).trace - n = kappa m n * ∑ i, ((1 - y i / z i) + (y i - z i) / (1 - z i)) := by
  have hκ := kappa_pos hm hn
  obtain ⟨-, c, hc⟩ := direction_ok hA hκ z (fun i => (hz.inside i).1) hm
  rw [hd, mulVec_zero] at hc
  have hu : IsUnit (info A z).det := isUnit_iff_ne_zero.2 (info_posDef hA z fun i => (hz.inside i).1).det_pos.ne'
  have hn' : (n : ℝ) = ∑ i, leverage A z i i * z i := by
    have := trace_info (A := A) (info A z)⁻¹ z
    rw [nonsing_inv_mul _ hu, trace_one, Fintype.card_fin] at this
    exact this
  rw [trace_info, hn', ← Finset.sum_sub_distrib, Finset.mul_sum]
  have : ∀ i, (A * (info A z)⁻¹ * Aᵀ) i i * y i - leverage A z i i * z i =
      kappa m n * (1 - y i / z i + (y i - z i) / (1 - z i)) - c * y i + c * z i := by
    intro i
    have h1 := hc i
    simp only [grad, Pi.zero_apply] at h1
    have h2 : (A * (info A z)⁻¹ * Aᵀ) i i = leverage A z i i := rfl
    have h3 : leverage A z i i = -c - kappa m n * (1 / z i - 1 / (1 - z i)) := by linarith
    have h4 := (hz.inside i).1.ne'
    have h5 : 1 - z i ≠ 0 := by have := (hz.inside i).2; intro h; linarith
    rw [h2, h3]
    field_simp
    ring
  rw [Finset.sum_congr rfl fun i _ => this i, Finset.sum_add_distrib, Finset.sum_sub_distrib, ← Finset.mul_sum, ← Finset.mul_sum,
    ← Finset.mul_sum, hy, hz.sum]
  ring

/-- A relaxed selection at which the Newton step vanishes maximises the relaxed problem. -/
theorem c135_optimal (hA : ∀ x, A *ᵥ x = 0 → x = 0) (hn : 0 < n) (k : ℕ) (z : Fin m → ℝ) (hz : Spec.Share k z)
    (hd : direction A (kappa m n) z = 0) (y : Fin m → ℝ) (hy : Spec.Share k y) : Spec.value A y ≤ Spec.value A z := by
  have hm : 0 < m := lt_of_lt_of_le hn (le_of_inj hA)
  have hκ := kappa_pos hm hn
  have hM := info_posDef hA z fun i => (hz.inside i).1
  have hY := info_posDef hA y fun i => (hy.inside i).1
  have h1 := Real.log_le_log hY.det_pos (det_tangent hM hY.posSemidef)
  rw [Real.log_mul hM.det_pos.ne' (Real.exp_pos _).ne', Real.log_exp, stationary hA hm hn hz hd y hy.sum] at h1
  have hv := fun w => (obj_value (A := A) w)
  have h2 : obj A (kappa m n) z ≤ obj A (kappa m n) y := by
    unfold obj
    have h3 : kappa m n * ∑ i, ((1 - y i / z i) + (y i - z i) / (1 - z i)) ≤
        kappa m n * ∑ i, ((Real.log (z i) + Real.log (1.0 - z i)) - (Real.log (y i) + Real.log (1.0 - y i))) := by
      refine mul_le_mul_of_nonneg_left (Finset.sum_le_sum fun i _ => ?_) hκ.le
      obtain ⟨a1, a2⟩ := hz.inside i
      obtain ⟨b1, b2⟩ := hy.inside i
      have c1 := Real.log_le_sub_one_of_pos (div_pos b1 a1)
      have c2 := Real.log_le_sub_one_of_pos (div_pos (sub_pos.2 b2) (sub_pos.2 a2))
      rw [Real.log_div b1.ne' a1.ne'] at c1
      rw [Real.log_div (sub_pos.2 b2).ne' (sub_pos.2 a2).ne'] at c2
      have c3 : (1 - y i) / (1 - z i) - 1 = -((y i - z i) / (1 - z i)) := by
        have := (sub_pos.2 a2).ne'
        field_simp
        ring
      norm_num
      linarith
    rw [Finset.sum_sub_distrib, mul_sub] at h3
    linarith
  rw [hv, hv] at h2
  linarith

/-- The determinant of every choice of `k` rows is then at most `1.005 ^ (2 n)` times the relaxed one. -/
theorem c135_gap (hA : ∀ x, A *ᵥ x = 0 → x = 0) (hn : 0 < n) (k : ℕ) (z : Fin m → ℝ) (hz : Spec.Share k z)
    (hd : direction A (kappa m n) z = 0) (S : Finset (Fin m)) (hS : S.card = k) :
    (∑ i ∈ S, vecMulVec (A i) (A i)).det ≤ 1.005 ^ (2 * n) * (∑ i, z i • vecMulVec (A i) (A i)).det := by
  classical
  have hm : 0 < m := lt_of_lt_of_le hn (le_of_inj hA)
  have hm' : (0 : ℝ) < m := by exact_mod_cast hm
  have hκ := kappa_pos hm hn
  have hM := info_posDef hA z fun i => (hz.inside i).1
  let y : Fin m → ℝ := fun i => if i ∈ S then 1 else 0
  have hy : info A y = ∑ i ∈ S, vecMulVec (A i) (A i) := by
    rw [info_eq]
    simp [y, ite_smul, Finset.sum_ite_mem]
  have hys : ∑ i, y i = k := by simp [y, hS]
  have hY : (info A y).PosSemidef := info_posSemidef y fun i => by simp only [y]; split_ifs <;> norm_num
  rw [← hy, ← info_eq]
  refine (det_tangent hM hY).trans ?_
  rw [stationary hA hm hn hz hd y hys, mul_comm]
  refine mul_le_mul_of_nonneg_right ?_ hM.det_pos.le
  have h1 : ∑ i, ((1 - y i / z i) + (y i - z i) / (1 - z i)) ≤ ∑ _i : Fin m, (2 : ℝ) := by
    refine Finset.sum_le_sum fun i _ => ?_
    obtain ⟨a1, a2⟩ := hz.inside i
    simp only [y]
    split_ifs
    · rw [div_self (sub_pos.2 a2).ne']
      have : 0 < 1 / z i := by positivity
      linarith
    · have : (0 - z i) / (1 - z i) ≤ 0 := div_nonpos_of_nonpos_of_nonneg (by linarith) (by linarith)
      simp only [zero_div]
      linarith
  have h2 : kappa m n * ∑ i, ((1 - y i / z i) + (y i - z i) / (1 - z i)) ≤ (2 * n : ℕ) * Real.log 1.005 := by
    refine (mul_le_mul_of_nonneg_left h1 hκ.le).trans (le_of_eq ?_)
    simp [kappa]
    field_simp
  calc _ ≤ Real.exp ((2 * n : ℕ) * Real.log 1.005) := Real.exp_le_exp.2 h2
    _ = _ := by rw [Real.exp_nat_mul, Real.exp_log (by norm_num)]

/-! ## Examples -/

theorem pair_lev (a b : ℝ) (h : a ^ 2 + b ^ 2 ≠ 0) (i : Fin 2) :
    ((!![a; b] : Matrix (Fin 2) (Fin 1) ℝ) * ((!![a; b] : Matrix (Fin 2) (Fin 1) ℝ)ᵀ * !![a; b])⁻¹ * (!![a; b])ᵀ) i i =
      (!![a; b] : Matrix (Fin 2) (Fin 1) ℝ) i 0 ^ 2 / (a ^ 2 + b ^ 2) := by
  have h1 : (!![a; b] : Matrix (Fin 2) (Fin 1) ℝ)ᵀ * !![a; b] = !![a ^ 2 + b ^ 2] := by
    ext i j
    fin_cases i; fin_cases j
    simp [mul_apply, Fin.sum_univ_two]
    ring
  have h2 : ((!![a; b] : Matrix (Fin 2) (Fin 1) ℝ)ᵀ * !![a; b])⁻¹ = !![1 / (a ^ 2 + b ^ 2)] := by
    rw [h1]
    refine inv_eq_left_inv ?_
    ext i j
    fin_cases i; fin_cases j
    simp [mul_apply, h]
  rw [h2]
  fin_cases i <;> simp [mul_apply] <;> ring

theorem pair_inj (a b : ℝ) (h : a ≠ 0) : ∀ x, (!![a; b] : Matrix (Fin 2) (Fin 1) ℝ) *ᵥ x = 0 → x = 0 := by
  intro x hx
  have := congrFun hx 0
  funext i
  fin_cases i
  simpa [mulVec, dotProduct, h] using this

/-- Two rows that are nearly equal. -/
def near : Matrix (Fin 2) (Fin 1) ℝ := !![1; 1.00000001]

theorem near_inj : ∀ x, near *ᵥ x = 0 → x = 0 := pair_inj _ _ one_ne_zero

/-- The relaxation returns a solution for the nearly equal rows. -/
theorem near_ok : ∃ z, relaxed near 1 = .ok z := by
  classical
  have hS : Spec.Share (m := 2) 1 (fun _ => (1 : ℝ) / 2) := by
    simpa using share_start (m := 2) (k := 1) two_pos one_pos (by norm_num)
  have hκ := kappa_pos (m := 2) (n := 1) two_pos one_pos
  have hκ2 : 0.002 ≤ kappa 2 1 := by
    have := Real.one_sub_inv_le_log_of_pos (by norm_num : (0 : ℝ) < 1.005)
    have h2 : (0.004 : ℝ) ≤ 1 - 1.005⁻¹ := by norm_num
    simp only [kappa]
    norm_num
    linarith
  obtain ⟨hsum, c, hc⟩ := direction_ok near_inj hκ (fun _ => (1 : ℝ) / 2) (fun _ => by norm_num) two_pos
  have hslope := slope_eq near_inj hκ (fun _ => (1 : ℝ) / 2) (fun _ => by norm_num) two_pos
  have hg : ∀ i, grad near (kappa 2 1) (fun _ => 1 / 2) i = -2 * (near i 0 ^ 2 / (1 ^ 2 + 1.00000001 ^ 2)) := by
    intro i
    rw [grad, leverage_uniform near_inj (by norm_num)]
    have := pair_lev 1 1.00000001 (by norm_num) i
    unfold near
    rw [this]
    norm_num
  have hd : direction near (kappa 2 1) (fun _ => 1 / 2) ≠ 0 := by
    intro hd
    rw [hd, mulVec_zero] at hc
    have h0 := hc 0
    have h1 := hc 1
    rw [hg] at h0 h1
    simp [near] at h0 h1
    norm_num at h0 h1
    linarith
  have hquad : (kappa 2 1 * 8) * (direction near (kappa 2 1) (fun _ => 1 / 2) ⬝ᵥ direction near (kappa 2 1) fun _ => 1 / 2) ≤
      direction near (kappa 2 1) (fun _ => 1 / 2) ⬝ᵥ hess near (kappa 2 1) (fun _ => 1 / 2) *ᵥ
        direction near (kappa 2 1) fun _ => 1 / 2 := by
    have hV := leverage_posSemidef near_inj (fun _ => (1 : ℝ) / 2) fun _ => by norm_num
    have := (hV.hadamard hV).dotProduct_mulVec_nonneg (direction near (kappa 2 1) fun _ => 1 / 2)
    simp only [star_trivial] at this
    have e : (kappa 2 1 • diagonal fun _ : Fin 2 => (1 : ℝ) / (1 / 2) ^ 2 + 1 / (1 - 1 / 2) ^ 2) = (kappa 2 1 * 8) • 1 := by
      rw [← smul_one_eq_diagonal, smul_smul]
      norm_num
    rw [hess, add_mulVec, dotProduct_add, e, smul_mulVec, one_mulVec, dotProduct_smul, smul_eq_mul]
    linarith
  generalize hdz : direction near (kappa 2 1) (fun _ => 1 / 2) = dz at *
  have hsmall : -(∑ i, grad near (kappa 2 1) (fun _ => 1 / 2) i * dz i) * 0.5 ≤ 1 / 10 ^ 12 := by
    generalize dz ⬝ᵥ hess near (kappa 2 1) (fun _ => 1 / 2) *ᵥ dz = Q at hslope hquad
    have h16 : 0.032 * (dz 0 * dz 0) ≤ Q := by
      rw [Fin.sum_univ_two] at hsum
      have e : dz 1 = -dz 0 := by linarith
      simp only [dotProduct, Fin.sum_univ_two] at hquad
      rw [e] at hquad
      nlinarith [mul_nonneg (sub_nonneg.mpr hκ2) (mul_self_nonneg (dz 0))]
    rw [Fin.sum_univ_two] at hsum hslope ⊢
    have e : dz 1 = -dz 0 := by linarith
    rw [e] at hslope ⊢
    rw [hg, hg] at hslope ⊢
    simp only [near, Matrix.of_apply, Matrix.cons_val', Matrix.cons_val_zero, Matrix.cons_val_one, Matrix.cons_val_fin_one] at hslope ⊢
    norm_num at hslope ⊢
    have hQ : Q = -(400000002 / 20000000200000001 * dz 0) := by linarith
    nlinarith [sq_nonneg (dz 0 + 400000002 / 20000000200000001 / 0.064)]
  obtain ⟨s, hs, hs0⟩ := firstStep_defined (fun _ => (1 : ℝ) / 2) dz hsum hd
  have hex := search_ends near_inj hκ _ hS.inside two_pos (hdz ▸ hd) s (hs0 hS.inside)
  rw [hdz] at hex
  refine ⟨fun i => 1 / 2 + 0.5 ^ Nat.find hex * s * dz i, ?_⟩
  rw [relaxed_eq near_inj one_pos (by norm_num)]
  push_cast
  rw [loop_unfold near_inj hκ _ (fun _ => by norm_num) (fun _ => by norm_num) 49, hdz, hs]
  simp only [halvings]
  rw [dif_pos hex]
  simp only
  rw [if_pos hsmall]

/-- C133 applies to the nearly equal rows. -/
example : ∃ z, relaxed near 1 = .ok z ∧ ∑ i, z i = 1 := by
  obtain ⟨z, h⟩ := near_ok
  exact ⟨z, h, by simpa using (c133_progress near_inj one_pos 1 one_pos (by norm_num) z h).2.1⟩

/-- Three rows and one column. -/
def demo : Matrix (Fin 3) (Fin 1) ℝ := !![1; 2; 3]

/-- Two equal rows. -/
def even : Matrix (Fin 2) (Fin 1) ℝ := !![1; 1]

theorem demo_inj : ∀ x, demo *ᵥ x = 0 → x = 0 := by
  intro x h
  have := congrFun h 0
  funext i
  fin_cases i
  simpa [demo, mulVec, dotProduct] using this

theorem even_inj : ∀ x, even *ᵥ x = 0 → x = 0 := pair_inj _ _ one_ne_zero

theorem even_lev (i : Fin 2) : (even * (evenᵀ * even)⁻¹ * evenᵀ) i i = 1 / 2 := by
  unfold even
  rw [pair_lev 1 1 (by norm_num)]
  fin_cases i <;> norm_num

/-- One of three rows: the call ends. -/
example : (∃ l, newton demo 1 = .ok l ∧ l.Nodup ∧ (∀ i ∈ l, i < 3) ∧ l.length ≤ 1) ∨ newton demo 1 = .raises .valueError :=
  c134_ends_partial demo_inj one_pos 1 one_pos (by norm_num)

/-- One of two equal rows: an exception. -/
example : newton even 1 = .raises .valueError :=
  c134_balanced_violated even_inj one_pos 1 one_pos (by norm_num) (1 / 2) even_lev

/-- Both rows: an exception. -/
example : newton even 2 = .raises .valueError := c134_all_rows_violated even_inj two_pos

/-- Four of three rows: the call does not end. -/
example : newton demo 4 = .diverges := by
  have h : demoᵀ * demo = !![14] := by
    ext i j
    fin_cases i; fin_cases j
    simp [demo, mul_apply, Fin.sum_univ_three]
    norm_num
  have h' : (demoᵀ * demo)⁻¹ = !![1 / 14] := by
    rw [h]
    refine inv_eq_left_inv ?_
    ext i j
    fin_cases i; fin_cases j
    simp [mul_apply]
  refine c134_too_many_violated demo_inj one_pos 4 (by norm_num) 0 1 ?_
  rw [h']
  simp [demo, mul_apply]
  norm_num

/-- The hypotheses of C135 are met by two equal rows. -/
example : Spec.Share (m := 2) 1 (fun _ => (1 : ℝ) / 2) ∧ direction even (kappa 2 1) (fun _ => 1 / 2) = 0 :=
  ⟨by simpa using share_start (m := 2) (k := 1) two_pos one_pos (by norm_num),
    uniform_stationary even_inj one_pos two_pos (by norm_num) (1 / 2) even_lev⟩

end EQ.Sampling.Newton
