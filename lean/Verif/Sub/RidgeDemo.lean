import Verif.Sub.RidgeProps
import Verif.Sub.FitDemo
import Mathlib.Data.Fin.Tuple.Sort

/-!
# C142: where recovery fails, and examples
-/

namespace EQ.Sub
open EQ.Basis EQ.Param EQ.Sampling EQ.Poly Matrix MvPolynomial
variable {K k m n : ℕ}

/-! ## The contracts can be met -/

theorem eigh_exists (C : Matrix (Fin m) (Fin m) ℝ) (hC : Cᵀ = C) : ∃ r : (Fin m → ℝ) × Matrix (Fin m) (Fin m) ℝ, EighOK C r.1 r.2 := by
  have hA : C.IsHermitian := by rw [IsHermitian, conjTranspose_eq_transpose_of_trivial, hC]
  have h1 := hA.spectral_theorem
  rw [Unitary.conjStarAlgAut_apply] at h1
  have h2 : (star (hA.eigenvectorUnitary : Matrix (Fin m) (Fin m) ℝ)) * hA.eigenvectorUnitary = 1 := Unitary.coe_star_mul_self _
  have e3 : star (hA.eigenvectorUnitary : Matrix (Fin m) (Fin m) ℝ) = (hA.eigenvectorUnitary : Matrix (Fin m) (Fin m) ℝ)ᵀ := by
    rw [star_eq_conjTranspose, conjTranspose_eq_transpose_of_trivial]
  rw [e3] at h2
  rw [e3] at h1
  generalize (hA.eigenvectorUnitary : Matrix (Fin m) (Fin m) ℝ) = Q at h1 h2
  generalize (RCLike.ofReal ∘ hA.eigenvalues : Fin m → ℝ) = S at h1
  have h3 : C * Q = Q * diagonal S := by
    conv_lhs => rw [h1, Matrix.mul_assoc, h2, Matrix.mul_one]
  exact ⟨(fun k => S (Tuple.sort S k), Matrix.of fun i k => Q i (Tuple.sort S k)), perm_orth h2 (Tuple.sort S).injective,
    perm_eigen h3 _, Tuple.monotone_sort S⟩

open Classical in
/-- Routines that meet the contracts. -/
noncomputable def someExternal (m : ℕ) : External m where
  lstsq := fun A b n => (exists_lstsq A b n).choose
  eigh := fun C => if h : Cᵀ = C then (eigh_exists C h).choose else (0, 0)
  argsort := fun e => Tuple.sort e

theorem someExternal_ok (m : ℕ) : ExternalOK (someExternal m) where
  lstsq := fun A b n => (exists_lstsq A b n).choose_spec
  eigh := fun C h => by
    simp only [someExternal, dif_pos h]
    exact (eigh_exists C h).choose_spec
  argsort := fun e => ⟨(Tuple.sort e).bijective, Tuple.monotone_sort e⟩

/-- Non-vacuity of `c142_samples`: `x + y` on the corners of the unit square. -/
example : ExternalOK (someExternal 2) ∧ (X 0 + X 1 : MvPolynomial (Fin 2) ℝ).totalDegree ≤ 1 ∧
    Spec.Ridge (X 0 + X 1 : MvPolynomial (Fin 2) ℝ) 1 ∧ Det 1 dX := by
  refine ⟨someExternal_ok 2, (totalDegree_add _ _).trans (by simp), ⟨fun _ _ => 1, fun y => y 0, fun x => ?_⟩, fun q hq h => ?_⟩
  · simp [vecMul, dotProduct, Fin.sum_univ_two]
  · refine zero_three q hq ?_ ?_ ?_
    · exact h 0
    · exact h 1
    · exact h 2

/-! ## A polynomial on unequal ranges -/

/-- The corners of `[-1, 1] × [-r, r]`. -/
def corners (r : ℝ) : Matrix (Fin 4) (Fin 2) ℝ := Matrix.of ![![1, r], ![1, -r], ![-1, r], ![-1, -r]]

theorem corners_low {r : ℝ} (hr : 0 < r) (j : Fin 2) : lows (corners r) j = ![-1, -r] j := by
  refine le_antisymm ?_ (Finset.le_inf' _ _ fun i _ => ?_)
  · refine (Finset.inf'_le _ (Finset.mem_univ 3)).trans ?_
    fin_cases j <;> simp [corners]
  · fin_cases j <;> fin_cases i <;> simp [corners] <;> linarith

theorem corners_high {r : ℝ} (hr : 0 < r) (j : Fin 2) : highs (corners r) j = ![1, r] j := by
  refine le_antisymm (Finset.sup'_le _ _ fun i _ => ?_) ?_
  · fin_cases j <;> fin_cases i <;> simp [corners] <;> linarith
  · refine le_trans ?_ (Finset.le_sup' _ (Finset.mem_univ 0))
    fin_cases j <;> simp [corners]

theorem corners_std {r : ℝ} (hr : 0 < r) : (Data.standardise .float (corners r) : Matrix (Fin 4) (Fin 2) ℝ) = corners 1 := by
  ext i j
  have : (Data.standardise .float (corners r) : Matrix (Fin 4) (Fin 2) ℝ) i j =
    2 * ((corners r i j - lows (corners r) j) / (highs (corners r) j - lows (corners r) j)) - 1 := rfl
  rw [this, corners_low hr, corners_high hr]
  fin_cases j <;> fin_cases i <;> simp [corners] <;> field_simp <;> norm_num

/-- C142 is false for given polynomials: on the corners of `[-1, 1] × [-r, r]` with `r ≠ 1` the polynomial `x + y`, a function of one
linear combination of its arguments, is not recovered by one active direction. No function of the projected samples takes the values
of the polynomial, whatever parameters and degree it is written with; so the polynomial over the active subspace does not either. The
gradients are taken in the coordinates of the parameters, but the samples are projected in scaled coordinates. -/
theorem c142_range_violated {E : External 2} (hE : ExternalOK E) (P : Fin 2 → MParam) (p' : ℕ) (c : List ℝ)
    (hc : c.length = (fitElements 2 p').length) (hx : comb P p' c = X 0 + X 1) (r : ℝ) (hr : 0 < r) (hr1 : r ≠ 1) :
    ∃ s, activeOfPoly E ⟨orderBasis P p', c⟩ (corners r) (fun i => eval (corners r i) (comb P p' c)) = .ok s ∧
      (∀ h : (Fin 1 → ℝ) → ℝ, ∃ i, h (s.points i ᵥ* s.W.submatrix id (Fin.castLE one_le_two)) ≠ corners r i 0 + corners r i 1) ∧
      ∀ p F, subspacePolynomial E s 1 p = .ok F → ∃ i,
        F.basis.polyfit F.coeffs [List.ofFn (s.points i ᵥ* s.W.submatrix id (Fin.castLE one_le_two))] ≠
          .ok [corners r i 0 + corners r i 1] := by
  have hg : (fun v (i : Fin 4) => eval (corners r i) (pderiv v (comb P p' c)) : Matrix (Fin 2) (Fin 4) ℝ) = fun _ _ => 1 := by
    ext v i
    rw [hx]
    fin_cases v <;> simp [pderiv_X]
  unfold activeOfPoly
  rw [polygrad_comb _ two_pos p' c hc, hg]
  simp only
  have he := hE.eigh _ (cov_symm (fun _ _ => 1 : Matrix (Fin 2) (Fin 4) ℝ))
  have hi := hE.argsort (E.eigh (gradientCovariance (fun _ _ => 1 : Matrix (Fin 2) (Fin 4) ℝ))).1
  obtain ⟨h1, h2, h3, h4, h5, -⟩ := c96_active (by norm_num) _ _ _ _ he hi
  have hC := perm_eigen he.2.1 fun k : Fin 2 => E.argsort (E.eigh (gradientCovariance (fun _ _ => 1 : Matrix (Fin 2) (Fin 4) ℝ))).1 k.rev
  have hz := eig_zero h1 hC h2 h4 (fun _ _ => 1 : Matrix (Fin 2) (Fin 1) ℝ) (fun v hv => by
    ext a
    refine (cov_mulVec _ v a).trans ?_
    have := congrFun hv 0
    simp only [vecMul, dotProduct, mul_one, Fin.sum_univ_two, Pi.zero_apply] at this
    simp [Fin.sum_univ_two, this]) 1 le_rfl
  have h6 := h5 1 hz 0
  have hpr : ∀ s : Active 3 2, s.points = corners 1 → s.W = (activeSubspace (E.eigh (gradientCovariance (fun _ _ => 1 : Matrix (Fin 2) (Fin 4) ℝ))).1
      (E.eigh (gradientCovariance (fun _ _ => 1 : Matrix (Fin 2) (Fin 4) ℝ))).2
      (E.argsort (E.eigh (gradientCovariance (fun _ _ => 1 : Matrix (Fin 2) (Fin 4) ℝ))).1)).2 →
      s.points 1 ᵥ* s.W.submatrix id (Fin.castLE one_le_two) = s.points 2 ᵥ* s.W.submatrix id (Fin.castLE one_le_two) := by
    intro s hs hW
    rw [hs, hW]
    generalize (activeSubspace _ _ _).2 = W at h1 h6
    have e1 := congrFun (congrFun h1 0) 1
    have e2 := congrFun (congrFun h1 1) 1
    simp only [mul_apply, transpose_apply, Fin.sum_univ_two, dirDeriv, mul_one, Matrix.one_apply_eq,
      Matrix.one_apply_ne (show (0 : Fin 2) ≠ 1 by decide)] at e1 e2 h6
    have e3 : W 1 1 ≠ 0 := by
      intro h
      rw [h] at e2 h6
      have : W 0 1 = 0 := by linarith
      rw [this] at e2
      norm_num at e2
    have e4 : W 0 0 = W 1 0 := by
      have : W 1 1 * (W 1 0 - W 0 0) = 0 := by linear_combination e1 - W 0 0 * h6
      rcases mul_eq_zero.1 this with h | h
      · exact absurd h e3
      · linarith
    ext l
    have hl : l = 0 := Subsingleton.elim _ _
    subst hl
    simp [vecMul, dotProduct, Fin.sum_univ_two, corners, e4]
  refine ⟨_, rfl, fun h => ?_, fun p F hF => ?_⟩
  · by_contra hne
    push Not at hne
    have a1 := hne 1
    have a2 := hne 2
    rw [hpr _ (corners_std hr) rfl] at a1
    rw [a1] at a2
    simp [corners] at a2
    exact hr1 (by linarith)
  · by_contra hne
    push Not at hne
    have a1 := hne 1
    have a2 := hne 2
    rw [hpr _ (corners_std hr) rfl] at a1
    rw [a1] at a2
    simp [corners] at a2
    exact hr1 (by linarith)

/-- Non-vacuity of `c142_range_violated`: uniform parameters on `[-1, 1]` and `[-2, 2]`. -/
example : ∃ c : List ℝ, c.length = (fitElements 2 1).length ∧
    comb (fun i : Fin 2 => uniformParam (-(i + 1)) (i + 1)) 1 c = X 0 + X 1 := by
  obtain ⟨c, hc⟩ := phis_span (fun i : Fin 2 => uniformParam (-(i + 1)) (i + 1))
    (fun i j hj => uniform_pos (by have : (0 : ℝ) ≤ i := Nat.cast_nonneg _; linarith) j hj) two_pos 1 (X 0 + X 1)
    ((totalDegree_add _ _).trans (by simp))
  refine ⟨List.ofFn c, by simp, ?_⟩
  rw [hc, comb]
  exact Finset.sum_congr rfl fun r _ => by rw [ofFn_getD]

/-- Non-vacuity of `c142_poly_partial`: the same polynomial on the corners of `[-1, 1]²`. -/
example : (Data.standardise .float (corners 1) : Matrix (Fin 4) (Fin 2) ℝ) = corners 1 ∧ Det 1 (corners 1) := by
  refine ⟨corners_std one_pos, fun q hq h => ?_⟩
  have hb := zero_three (bind₁ (aff (fun _ => 2) (fun _ => -1)) q) ((bind_degree _ (aff_degree _ _) q).trans hq) ?_ ?_ ?_
  · refine MvPolynomial.funext fun x => ?_
    have := congrArg (eval fun j => (x j + 1) / 2) hb
    rw [eval_bind, map_zero] at this
    rw [map_zero, ← this]
    congr 1
    congr 1
    ext j
    simp [aff]
    ring
  all_goals rw [eval_bind]
  · refine Eq.trans ?_ (h 3)
    congr 1
    congr 1
    ext j
    fin_cases j <;> simp [aff, corners]
  · refine Eq.trans ?_ (h 1)
    congr 1
    congr 1
    ext j
    fin_cases j <;> simp [aff, corners] <;> norm_num
  · refine Eq.trans ?_ (h 2)
    congr 1
    congr 1
    ext j
    fin_cases j <;> simp [aff, corners] <;> norm_num

end EQ.Sub
