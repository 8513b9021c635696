import Verif.Poly.Sparse
import Verif.Poly.FitProps
import Verif.Sampling.Props
import Verif.Basis.Combination
import Verif.Basis.Props

/-!
# Helper lemmas: the sparse-grid branch of `_set_coefficients`
-/

namespace EQ.Poly
open EQ.Param EQ.Basis EQ.Sampling EQ.Sampling.Spec EQ.Poly.Spec

/-! ### Pairing of tensor points with model evaluations -/

theorem rowLe_antisymm : ∀ a b : List ℝ, RowLe a b → RowLe b a → a = b := by
  intro a
  induction a with
  | nil => intro b _ h; cases b with
    | nil => rfl
    | cons y ys => exact h.elim
  | cons x xs ih =>
    intro b h1 h2
    cases b with
    | nil => exact h1.elim
    | cons y ys =>
      simp only [RowLe] at h1 h2
      rcases h1 with h1 | ⟨rfl, h1⟩ <;> rcases h2 with h2 | ⟨h2, h2'⟩
      · exact absurd (h1.trans h2) (lt_irrefl _)
      · exact absurd (h2 ▸ h1) (lt_irrefl _)
      · exact absurd h2 (lt_irrefl _)
      · rw [ih ys h1 h2']

theorem lexLt_rowLe {a b : List ℝ} (h : Sampling.Spec.LexLt a b) : RowLe a b := by
  obtain ⟨pre, x, y, s, t, rfl, rfl, hxy⟩ := h
  induction pre with
  | nil => exact Or.inl hxy
  | cons z pre ih => exact Or.inr ⟨rfl, ih⟩

theorem lexLt_irrefl (a : List ℝ) : ¬ Sampling.Spec.LexLt a a := by
  rintro ⟨pre, x, y, s, t, h1, h2, hxy⟩
  rw [h1] at h2
  have := List.append_cancel_left h2
  simp only [List.cons.injEq] at this
  exact absurd hxy (by rw [this.1]; exact lt_irrefl _)

theorem lexSorted_nodup {l : List (List ℝ)} (h : l.Pairwise Sampling.Spec.LexLt) : l.Nodup :=
  List.Pairwise.imp (S := fun a b => a ≠ b) (fun {a b} (hab : Sampling.Spec.LexLt a b) (he : a = b) =>
    lexLt_irrefl a (by rw [← he] at hab; exact hab)) h

/-- Sorted lists of distinct rows are determined by their elements. -/
theorem sorted_unique {l m : List (List ℝ)} (hl : l.Pairwise RowLe) (hm : m.Pairwise RowLe) (nl : l.Nodup) (nm : m.Nodup)
    (h : ∀ x, x ∈ l ↔ x ∈ m) : l = m :=
  List.Perm.eq_of_pairwise (fun a b _ _ h1 h2 => rowLe_antisymm a b h1 h2) hl hm ((List.perm_ext_iff_of_nodup nl nm).2 h)

theorem range_filter_map {α : Type*} (l : List α) (d : α) (p : α → Bool) :
    ((List.range l.length).filter fun i => p (l.getD i d)).map (fun i => l.getD i d) = l.filter p := by
  conv_rhs => rw [← map_range_getD l d, List.filter_map]
  rfl

theorem pairing (tpts qpts : List (List ℝ)) (ht : tpts.Pairwise Sampling.Spec.LexLt)
    (hq : qpts.Pairwise Sampling.Spec.LexLt) (hsub : ∀ x ∈ tpts, x ∈ qpts) (f : List ℝ → ℝ) :
    (sharedPositions tpts qpts).map (fun i => (qpts.map f).getD i 0) = tpts.map f := by
  classical
  have nt := lexSorted_nodup ht
  have nq := lexSorted_nodup hq
  have hU : (uniqueIndex (tpts ++ qpts)).map (fun i => (tpts ++ qpts).getD i []) = qpts := by
    apply sorted_unique (uniqueIndex_sorted _) (hq.imp lexLt_rowLe) (uniqueIndex_points_nodup _) nq
    intro x
    rw [mem_unique_points, List.mem_append]
    exact ⟨fun h => h.elim (hsub x) id, Or.inr⟩
  have hlen : (uniqueIndex (tpts ++ qpts)).length = qpts.length := by
    have := congrArg List.length hU
    simpa using this
  have hget : ∀ i < qpts.length, (tpts ++ qpts).getD ((uniqueIndex (tpts ++ qpts)).getD i 0) [] = qpts.getD i [] := by
    intro i hi
    conv_rhs => rw [← hU]
    rw [getD_map_lt _ _ _ _ (by omega)]
    simp [List.getD_eq_getElem?_getD, List.getElem?_eq_getElem (show i < (uniqueIndex (tpts ++ qpts)).length by omega)]
  have hS : sharedPositions tpts qpts = (List.range qpts.length).filter fun i => decide (qpts.getD i [] ∈ tpts) := by
    unfold sharedPositions
    simp only [hlen]
    apply List.filter_congr
    intro i hi
    rw [List.mem_range] at hi
    rw [hget i hi, List.count_append]
    have h1 : qpts.count (qpts.getD i []) = 1 := by
      rw [List.getD_eq_getElem?_getD, List.getElem?_eq_getElem hi, Option.getD_some]
      exact List.count_eq_one_of_mem nq (List.getElem_mem hi)
    rw [h1]
    by_cases hm : qpts.getD i [] ∈ tpts
    · rw [List.count_eq_one_of_mem nt hm, decide_eq_true hm]; rfl
    · rw [List.count_eq_zero_of_not_mem hm, decide_eq_false hm]; rfl
  rw [hS]
  have e1 : ((List.range qpts.length).filter fun i => decide (qpts.getD i [] ∈ tpts)).map
      (fun i => (qpts.map f).getD i 0) =
      (((List.range qpts.length).filter fun i => decide (qpts.getD i [] ∈ tpts)).map fun i => qpts.getD i []).map f := by
    rw [List.map_map]
    apply List.map_congr_left
    intro i hi
    have hi := List.mem_range.1 (List.mem_filter.1 hi).1
    rw [getD_map_lt _ _ _ _ hi]
    simp [List.getD_eq_getElem?_getD, List.getElem?_eq_getElem hi]
  rw [e1, range_filter_map qpts [] (fun x => decide (x ∈ tpts))]
  congr 1
  apply sorted_unique ((hq.imp lexLt_rowLe).filter _) (ht.imp lexLt_rowLe) (nq.filter _) nt
  intro x
  simp only [List.mem_filter, decide_eq_true_eq]
  exact ⟨fun h => h.2, fun h => ⟨hsub x h, h⟩⟩

/-! ### Quadrature of products of basis functions -/

/-- The univariate quadrature of a product of two polynomials. -/
noncomputable def quad (P : MParam) (o a b : ℕ) : ℝ :=
  (List.zipWith (fun x w => w * (univ P a x * univ P b x)) (P.localRule o).pts (P.localRule o).wts).sum

/-- The product of the univariate quadratures. -/
noncomputable def prodQuad : List MParam → List ℕ → List ℕ → List ℕ → ℝ
  | P :: Ps, o :: os, a :: as, b :: bs => quad P o a b * prodQuad Ps os as bs
  | _, _, _, _ => 1

theorem grid_quad (params : List MParam) (orders : List ℕ)
    (ho : orders.length = params.length) (n m : List ℕ)
    (hln : n.length = params.length) (hlm : m.length = params.length) :
    ((ixs ((localRules params orders).map fun r => r.pts.length)).map fun idx =>
      gridWeight (localRules params orders) idx *
        (basisFun params n (gridPoint (localRules params orders) idx) *
         basisFun params m (gridPoint (localRules params orders) idx))).sum = prodQuad params orders n m := by
  let fs : List (ℝ → ℝ) := List.zipWith (fun f g => fun x => f x * g x)
    (List.zipWith (fun P n => univ P n) params n) (List.zipWith (fun P n => univ P n) params m)
  have hfs : fs.length = (localRules params orders).length := by
    simp [fs, hln, hlm, localRules_length params orders ho]
  have key := grid_sum_prod (localRules params orders) fs hfs (localRules_len_eq params orders)
  have e1 : ∀ x : List ℝ, x.length = params.length →
      basisFun params n x * basisFun params m x = (List.zipWith (fun f x => f x) fs x).prod := by
    intro x hx
    rw [basisFun_eq_prod _ _ _ hln hx, basisFun_eq_prod _ _ _ hlm hx]
    clear key hfs ho
    simp only [fs]
    clear fs
    induction params generalizing n m x with
    | nil => simp
    | cons P Ps ih =>
      cases n with
      | nil => simp at hln
      | cons a n =>
        cases m with
        | nil => simp at hlm
        | cons b m =>
          cases x with
          | nil => simp at hx
          | cons c x =>
            simp only [List.zipWith_cons_cons, List.prod_cons]
            rw [← ih n m (by simpa using hln) (by simpa using hlm) x (by simpa using hx)]
            ring
  have e2 : ∀ idx ∈ ixs ((localRules params orders).map fun r => r.pts.length),
      gridWeight (localRules params orders) idx *
        (basisFun params n (gridPoint (localRules params orders) idx) *
         basisFun params m (gridPoint (localRules params orders) idx)) =
      gridWeight (localRules params orders) idx *
        (List.zipWith (fun f x => f x) fs (gridPoint (localRules params orders) idx)).prod := by
    intro idx hidx
    have hl := ixs_length _ _ hidx
    rw [e1]
    simp only [gridPoint, List.length_zipWith]
    rw [List.length_map] at hl
    rw [hl, localRules_length params orders ho, Nat.min_self]
  rw [List.map_congr_left e2, key]
  clear key e1 e2 hfs
  simp only [fs]
  clear fs
  induction params generalizing n m orders with
  | nil =>
    have h1 : n = [] := List.length_eq_zero_iff.1 hln
    have h2 : m = [] := List.length_eq_zero_iff.1 hlm
    simp [h1, h2, localRules, prodQuad]
  | cons P Ps ih =>
    cases orders with
    | nil => simp at ho
    | cons o os =>
      cases n with
      | nil => simp at hln
      | cons a n =>
        cases m with
        | nil => simp at hlm
        | cons b m =>
          have := ih os (by simpa using ho) n m (by simpa using hln) (by simpa using hlm)
          simp only [localRules, List.zipWith_cons_cons, List.prod_cons] at this ⊢
          rw [this]
          rfl

/-- The tensor grid is built; its parts. -/
theorem mkTensor_ok (params : List MParam) (hne : params ≠ []) (hP : ∀ P ∈ params, Valid P) (orders : List ℕ)
    (ho : orders.length = params.length) :
    ∃ t, mkTensor params orders = .ok t ∧ tensorGrid (localRules params orders) = .ok (t.pts, t.wts) ∧
      tensorGridBasis orders = .ok t.elements ∧
      t.pts.Pairwise Sampling.Spec.LexLt ∧ t.wts.length = t.pts.length ∧ (∀ w ∈ t.wts, 0 ≤ w) ∧
      (∀ x ∈ t.pts, x.length = params.length) ∧
      (∀ row : List ℕ, row ∈ t.elements ↔ Basis.Spec.Below row orders) ∧ t.elements.Nodup ∧
      (∀ n m : List ℕ, n.length = params.length → m.length = params.length →
        ∑ j ∈ Finset.range t.pts.length, t.wts.getD j 0 *
          (basisFun params n (t.pts.getD j []) * basisFun params m (t.pts.getD j [])) = prodQuad params orders n m) := by
  obtain ⟨pts, wts, h1, _, h3, h4, _, h6, h7⟩ := c21_parameters params hne hP orders ho
  obtain ⟨E, e1, e2, e3, _, _, _⟩ := c02_tensor_grid orders
    (by rintro rfl; exact hne (List.length_eq_zero_iff.1 ho.symm))
  refine ⟨⟨pts, wts, E⟩, by simp only [mkTensor, e1, h1], h1, e1, h4, h3, fun w h => (h6 w h).le, h7, e2, e3, ?_⟩
  intro n m hn hm
  rw [← grid_quad params orders ho n m hn hm]
  have hl := localRules_len_eq params orders
  have hne' : localRules params orders ≠ [] := by
    intro h
    have := localRules_length params orders ho
    rw [h] at this
    exact hne (List.length_eq_zero_iff.1 this.symm)
  have h5 := tensorGrid_eq _ hne' hl
  rw [h1] at h5
  simp only [Except.ok.injEq, Prod.mk.injEq] at h5
  obtain ⟨rfl, rfl⟩ := h5
  set I := ixs ((localRules params orders).map fun r => r.pts.length)
  conv_rhs => rw [map_eq_range I [], range_map_sum]
  rw [List.length_map]
  apply Finset.sum_congr rfl
  intro j hj
  rw [Finset.mem_range] at hj
  rw [getD_map_lt _ _ _ _ hj, getD_map_lt _ _ _ _ hj]
  simp [List.getD_eq_getElem?_getD, List.getElem?_eq_getElem hj]

end EQ.Poly
