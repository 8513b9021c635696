import Verif.Poly.Props
import Mathlib.Analysis.InnerProductSpace.Projection.Basic
import Mathlib.Analysis.InnerProductSpace.PiL2
import Mathlib.Analysis.InnerProductSpace.Projection.FiniteDimensional

/-!
# Lemmas for coefficient computation
-/

namespace EQ.Poly
open EQ.Param EQ.Basis EQ.Sampling EQ.Sampling.Spec Spec

theorem zipIdx_map_getD {α β : Type*} (l : List α) (f : α × ℕ → β) (d : β) (e : α) (i : ℕ)
    (h : i < l.length) : (l.zipIdx.map f).getD i d = f (l.getD i e, i) := by
  rw [getD_zipIdx_map _ _ _ _ h, getD_of_lt _ _ _ h]

/-- Entry `(j, r)` of the design matrix. -/
theorem design_entry (M : List (List ℝ)) (wts : List ℝ) (j r : ℕ) (hj : j < wts.length)
    (hr : r < M.length) :
    ((designMatrix M wts).getD j []).getD r 0 = √(wts.getD j 0) * entry M r j := by
  unfold designMatrix entry
  rw [zipIdx_map_getD _ _ _ 0 _ hj, getD_map_lt _ _ _ _ hr, getD_of_lt _ _ _ hr]

theorem design_row (M : List (List ℝ)) (wts : List ℝ) (j : ℕ) (hj : j < wts.length) :
    ((designMatrix M wts).getD j []).length = M.length := by
  unfold designMatrix
  rw [zipIdx_map_getD _ _ _ 0 _ hj]
  simp

theorem rhs_getD (wts ys : List ℝ) (h : ys.length = wts.length) (j : ℕ) (hj : j < wts.length) :
    (rhs wts ys).getD j 0 = √(wts.getD j 0) * ys.getD j 0 := by
  unfold rhs
  rw [getD_of_lt _ _ _ (by simp; omega), List.getElem_zipWith, getD_of_lt _ _ _ hj,
    getD_of_lt _ _ _ (by omega)]

/-- The product of a row of the design matrix with a coefficient vector. -/
theorem design_dot (M : List (List ℝ)) (wts : List ℝ) (j : ℕ) (hj : j < wts.length) (z : List ℝ)
    (hz : z.length = M.length) :
    (List.zipWith (· * ·) ((designMatrix M wts).getD j []) z).sum =
      √(wts.getD j 0) * (List.zipWith (fun (row : List ℝ) c => row.getD j 0 * c) M z).sum := by
  rw [zipWith_sum _ _ _ 0 0 (by rw [design_row M wts j hj, hz]),
    design_row M wts j hj, zipWith_sum _ _ _ [] 0 hz.symm, Finset.mul_sum]
  apply Finset.sum_congr rfl
  intro r hr
  rw [Finset.mem_range] at hr
  rw [design_entry M wts j r hj hr]
  unfold entry
  ring

theorem designMatrix_length (P : List (List ℝ)) (wts : List ℝ) :
    (designMatrix P wts).length = wts.length := by simp [designMatrix]

/-- The squared residual of the weighted system is the weighted misfit of the values that
`dotT` returns. -/
theorem sqResidual_eq (M : List (List ℝ)) (pts : List (List ℝ)) (wts ys : List ℝ)
    (hw : wts.length = pts.length) (hpos : ∀ w ∈ wts, 0 ≤ w) (hy : ys.length = pts.length)
    (z : List ℝ) (hz : z.length = M.length) (f : List ℝ → ℝ)
    (hf : dotT M pts.length z = .ok (pts.map f)) :
    sqResidual (designMatrix M wts) (rhs wts ys) z = misfit pts wts ys f := by
  unfold sqResidual misfit
  have hl : (rhs wts ys).length = wts.length := by simp [rhs]; omega
  unfold dotT at hf
  rw [if_neg (by simp [hz])] at hf
  simp only [Except.ok.injEq] at hf
  rw [zipWith_sum _ _ _ [] 0 (by rw [designMatrix_length, hl]), designMatrix_length, hw]
  apply Finset.sum_congr rfl
  intro j hj
  rw [Finset.mem_range] at hj
  have h0 : 0 ≤ wts.getD j 0 := by
    rw [getD_of_lt _ _ _ (by omega)]; exact hpos _ (List.getElem_mem _)
  have hfj := congrArg (fun l => l.getD j 0) hf
  rw [getD_map_lt _ _ _ _ (by simpa using hj), getD_map_lt _ _ _ _ hj, List.getElem_range,
    ← getD_of_lt pts [] j hj] at hfj
  rw [design_dot M wts j (by omega) z hz, rhs_getD wts ys (by omega) j (by omega), hfj, ← mul_sub,
    mul_pow, Real.sq_sqrt h0]

theorem orthogonalSolve_eq (els : List (List ℕ)) (F : List ℕ → List ℝ → ℝ) (pts : List (List ℝ))
    (wts ys : List ℝ) (hw : wts.length = pts.length) (hpos : ∀ w ∈ wts, 0 ≤ w)
    (hy : ys.length = pts.length) :
    orthogonalSolve (designMatrix (els.map fun row => pts.map (F row)) wts) (rhs wts ys) els.length =
      els.map fun row => ∑ j ∈ Finset.range pts.length,
        wts.getD j 0 * (F row (pts.getD j []) * ys.getD j 0) := by
  unfold orthogonalSolve
  rw [map_eq_range els [] fun row => ∑ j ∈ Finset.range pts.length,
        wts.getD j 0 * (F row (pts.getD j []) * ys.getD j 0)]
  apply List.map_congr_left
  intro r hr
  rw [List.mem_range] at hr
  have hl : (rhs wts ys).length = wts.length := by simp [rhs]; omega
  rw [zipWith_sum _ _ _ [] 0 (by rw [designMatrix_length, hl]), designMatrix_length, hw]
  apply Finset.sum_congr rfl
  intro j hj
  rw [Finset.mem_range] at hj
  have h0 : 0 ≤ wts.getD j 0 := by
    rw [getD_of_lt _ _ _ (by omega)]; exact hpos _ (List.getElem_mem _)
  have he : entry (els.map fun row => pts.map (F row)) r j = F (els.getD r []) (pts.getD j []) := by
    unfold entry
    rw [getD_map_lt _ _ _ _ hr, getD_map_lt _ _ _ _ hj, getD_of_lt _ _ _ hr, getD_of_lt _ _ _ hj]
  rw [design_entry _ wts j r (by omega) (by simpa using hr), rhs_getD wts ys (by omega) j (by omega),
    he]
  have := Real.mul_self_sqrt h0
  linear_combination (F (els.getD r []) (pts.getD j []) * ys.getD j 0) * this

/-! ### Least-squares solutions exist -/

theorem sqResidual_nonneg (A : List (List ℝ)) (b x : List ℝ) : 0 ≤ sqResidual A b x := by
  unfold sqResidual
  apply List.sum_nonneg
  intro y hy
  obtain ⟨i, hi, rfl⟩ := List.getElem_of_mem hy
  rw [List.getElem_zipWith]
  positivity

/-- Every system has a vector that satisfies the contract of `lstsq`. -/
theorem exists_lstsq (A : List (List ℝ)) (b : List ℝ) (n : ℕ) : ∃ x, LstsqContract A b n x := by
  classical
  set m := (List.zipWith (fun (_ : List ℝ) (_ : ℝ) => ()) A b).length with hm
  have hm' : m = min A.length b.length := by simp [hm]
  let L : (Fin n → ℝ) →ₗ[ℝ] EuclideanSpace ℝ (Fin m) :=
    { toFun := fun x => WithLp.toLp 2 fun j =>
        (List.zipWith (· * ·) (A.getD j []) (List.ofFn x)).sum
      map_add' := by
        intro x y
        ext j
        simp only [PiLp.add_apply]
        generalize A.getD j [] = row
        have : ∀ (row u v : List ℝ), u.length = v.length →
            (List.zipWith (· * ·) row (List.zipWith (· + ·) u v)).sum =
              (List.zipWith (· * ·) row u).sum + (List.zipWith (· * ·) row v).sum := by
          intro row
          induction row with
          | nil => intro u v _; simp
          | cons a row ih =>
            intro u v h
            cases u with
            | nil => cases v with
              | nil => simp
              | cons => simp at h
            | cons p u => cases v with
              | nil => simp at h
              | cons q v =>
                simp only [List.zipWith_cons_cons, List.sum_cons, ih u v (by simpa using h)]
                ring
        rw [← this row _ _ (by simp)]
        congr 2
        apply List.ext_getElem
        · simp
        · intro i h1 h2; simp
      map_smul' := by
        intro a x
        ext j
        simp only [PiLp.smul_apply, RingHom.id_apply, smul_eq_mul]
        generalize A.getD j [] = row
        have : ∀ (row u : List ℝ),
            (List.zipWith (· * ·) row (u.map (a * ·))).sum =
              a * (List.zipWith (· * ·) row u).sum := by
          intro row
          induction row with
          | nil => intro u; simp
          | cons p row ih =>
            intro u
            cases u with
            | nil => simp
            | cons q u =>
              simp only [List.map_cons, List.zipWith_cons_cons, List.sum_cons, ih u]
              ring
        rw [← this]
        congr 2
        apply List.ext_getElem
        · simp
        · intro i h1 h2; simp }
  let y : EuclideanSpace ℝ (Fin m) := WithLp.toLp 2 fun j => b.getD j 0
  have hres : ∀ x : Fin n → ℝ, sqResidual A b (List.ofFn x) = ‖y - L x‖ ^ 2 := by
    intro x
    rw [EuclideanSpace.norm_sq_eq]
    unfold sqResidual
    have e : List.zipWith (fun row y => ((List.zipWith (· * ·) row (List.ofFn x)).sum - y) ^ 2) A b =
        List.ofFn fun j : Fin m =>
          ((List.zipWith (· * ·) (A.getD j []) (List.ofFn x)).sum - b.getD j 0) ^ 2 := by
      apply List.ext_getElem
      · simp [hm']
      · intro i h1 h2
        simp only [List.length_zipWith] at h1
        rw [List.getElem_zipWith, List.getElem_ofFn]
        simp only
        rw [getD_of_lt A _ _ (by omega), getD_of_lt b _ _ (by omega)]
    rw [e, List.sum_ofFn]
    apply Finset.sum_congr rfl
    intro j _
    simp only [y, L, LinearMap.coe_mk, AddHom.coe_mk, PiLp.sub_apply, Real.norm_eq_abs, sq_abs]
    ring
  let K := LinearMap.range L
  obtain ⟨x, hx⟩ : K.starProjection y ∈ K := Submodule.starProjection_apply_mem _ _
  refine ⟨List.ofFn x, by simp, fun z hz => ?_⟩
  have hz' : z = List.ofFn fun i : Fin n => z[i.1]'(by rw [hz]; exact i.2) := by
    apply List.ext_getElem
    · simp [hz]
    · intro i h1 h2; simp
  rw [hz', hres, hres, hx]
  have hmin := Submodule.starProjection_minimal (U := K) y
  have : ‖y - K.starProjection y‖ ≤ ‖y - L fun i : Fin n => z[i.1]'(by rw [hz]; exact i.2)‖ := by
    have h2 := ciInf_le (f := fun x : K => ‖y - x‖) ⟨0, by rintro _ ⟨_, rfl⟩; exact norm_nonneg _⟩
      ⟨L fun i : Fin n => z[i.1]'(by rw [hz]; exact i.2), LinearMap.mem_range_self _ _⟩
    simpa [← hmin] using h2
  exact pow_le_pow_left₀ (norm_nonneg _) this 2

end EQ.Poly
