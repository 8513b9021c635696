import Verif.Poly.Spec
import Verif.Sampling.SampleProps
import Mathlib.Analysis.Calculus.Deriv.Mul
import Mathlib.Analysis.Calculus.Deriv.Add

/-!
# Lemmas for polynomial expansions
-/

namespace EQ.Poly
open EQ.Param EQ.Basis EQ.Sampling EQ.Sampling.Spec Spec

theorem zipWith_sum {α β : Type*} (f : α → β → ℝ) (l₁ : List α) (l₂ : List β) (d₁ : α) (d₂ : β)
    (h : l₁.length = l₂.length) :
    (List.zipWith f l₁ l₂).sum =
      ∑ i ∈ Finset.range l₁.length, f (l₁.getD i d₁) (l₂.getD i d₂) := by
  have : List.zipWith f l₁ l₂ =
      (List.range l₁.length).map fun i => f (l₁.getD i d₁) (l₂.getD i d₂) := by
    apply List.ext_getElem
    · simp [h]
    · intro i h1 h2
      simp only [List.length_map, List.length_range] at h2
      simp [List.getD_eq_getElem?_getD, h2, h ▸ h2]
  rw [this]
  rfl

theorem range_map_sum (n : ℕ) (f : ℕ → ℝ) :
    ((List.range n).map f).sum = ∑ i ∈ Finset.range n, f i := rfl

theorem map_eq_range {α β : Type*} (l : List α) (d : α) (f : α → β) :
    l.map f = (List.range l.length).map fun i => f (l.getD i d) := by
  conv_lhs => rw [← map_range_getD l d, List.map_map]
  rfl

theorem getD_set' (x : List ℝ) (v k : ℕ) (t : ℝ) (hv : v < x.length) :
    (x.set v t).getD k 0 = if k = v then t else x.getD k 0 := by
  simp only [List.getD_eq_getElem?_getD, List.getElem?_set]
  by_cases h : v = k
  · subst h; simp [hv]
  · simp [h, Ne.symm h]

/-! ### Coefficients of the uncorrected basis -/

/-- What a Gram-Schmidt correction does to the coefficients. -/
def effCoeffs (invR : Option (List (List ℝ))) (c : List ℝ) : List ℝ :=
  match invR with
  | none => c
  | some R => matVec R c

/-- The shape `inv_R_Psi` has: square, one row per basis term. -/
def SquareOpt (n : ℕ) (invR : Option (List (List ℝ))) : Prop :=
  ∀ R, invR = some R → R.length = n ∧ ∀ row ∈ R, row.length = n

theorem effCoeffs_length (n : ℕ) (invR : Option (List (List ℝ))) (h : SquareOpt n invR)
    (c : List ℝ) (hc : c.length = n) : (effCoeffs invR c).length = n := by
  cases invR with
  | none => exact hc
  | some R => simp [effCoeffs, matVec, (h R rfl).1]

theorem dotT_eq (elements : List (List ℕ)) (F : List ℕ → List ℝ → ℝ) (pts : List (List ℝ))
    (c : List ℝ) (hc : c.length = elements.length) :
    dotT (elements.map fun row => pts.map (F row)) pts.length c =
      .ok (pts.map fun x => (List.zipWith (fun row a => a * F row x) elements c).sum) := by
  unfold dotT
  rw [if_neg (by simp [hc])]
  congr 1
  rw [map_eq_range pts []]
  apply List.map_congr_left
  intro j hj
  rw [List.mem_range] at hj
  rw [List.zipWith_map_left, getD_of_lt _ _ _ hj]
  congr 1
  apply List.ext_getElem
  · simp
  · intro i h1 h2
    simp only [List.getElem_zipWith]
    rw [getD_map_lt _ _ _ _ hj, mul_comm]

theorem dot_apply (invR : Option (List (List ℝ))) (elements : List (List ℕ))
    (hR : SquareOpt elements.length invR)
    (F : List ℕ → List ℝ → ℝ) (pts : List (List ℝ)) (c : List ℝ) (hc : c.length = elements.length) :
    ∃ M, applyInvR invR pts.length (elements.map fun row => pts.map (F row)) = .ok M ∧
      M.length = elements.length ∧
      (∀ i < elements.length, ∀ j (hj : j < pts.length), entry M i j =
        match invR with
        | none => F (elements.getD i []) pts[j]
        | some R => ∑ k ∈ Finset.range elements.length,
            entry R k i * F (elements.getD k []) pts[j]) ∧
      dotT M pts.length c =
        .ok (pts.map fun x => (List.zipWith (fun row a => a * F row x) elements (effCoeffs invR c)).sum) := by
  cases invR with
  | none =>
    refine ⟨_, rfl, by simp, fun i hi j hj => ?_, dotT_eq elements F pts c hc⟩
    unfold entry
    rw [getD_map_lt _ _ _ _ hi, getD_map_lt _ _ _ _ hj, getD_of_lt _ _ _ hi]
  | some R =>
    obtain ⟨hR1, hR2⟩ := hR R rfl
    unfold applyInvR
    simp only [List.length_map]
    rw [if_neg (by simp [hR1])]
    have hMent : ∀ k, k < elements.length → ∀ j (hj : j < pts.length),
        ((elements.map fun row => pts.map (F row)).getD k []).getD j 0 =
          F (elements.getD k []) pts[j] := by
      intro k hk j hj
      rw [getD_map_lt _ _ _ _ hk, getD_map_lt _ _ _ _ hj, getD_of_lt _ _ _ hk]
    refine ⟨_, rfl, by simp, fun i hi j hj => ?_, ?_⟩
    · unfold entry
      rw [getD_map_lt _ _ _ _ (by simpa using hi), getD_map_lt _ _ _ _ (by simpa using hj),
        range_map_sum]
      apply Finset.sum_congr rfl
      intro k hk
      rw [Finset.mem_range] at hk
      simp only [List.getElem_range]
      rw [hMent k hk j hj]
    · unfold dotT
      rw [if_neg (by simp [hc])]
      congr 1
      rw [map_eq_range pts []]
      apply List.map_congr_left
      intro j hj
      rw [List.mem_range] at hj
      rw [zipWith_sum _ _ _ [] 0 (by simp [hc]), zipWith_sum _ _ _ [] 0 (by simp [effCoeffs, matVec, hR1])]
      rw [List.length_map, List.length_range]
      have h1 : ∀ i ∈ Finset.range elements.length,
          (((List.range elements.length).map fun i => (List.range pts.length).map fun j =>
            ((List.range elements.length).map fun k => (R.getD k []).getD i 0 *
              ((elements.map fun row => pts.map (F row)).getD k []).getD j 0).sum).getD i []).getD j 0 *
            c.getD i 0 =
          ∑ k ∈ Finset.range elements.length, (R.getD k []).getD i 0 * c.getD i 0 *
            F (elements.getD k []) pts[j] := by
        intro i hi
        rw [Finset.mem_range] at hi
        rw [getD_map_lt _ _ _ _ (by simpa using hi), getD_map_lt _ _ _ _ (by simpa using hj),
          range_map_sum, Finset.sum_mul]
        apply Finset.sum_congr rfl
        intro k hk
        rw [Finset.mem_range] at hk
        simp only [List.getElem_range]
        rw [hMent k hk j hj]
        ring
      rw [Finset.sum_congr rfl h1, Finset.sum_comm]
      apply Finset.sum_congr rfl
      intro k hk
      rw [Finset.mem_range] at hk
      rw [← Finset.sum_mul]
      have hk' : k < R.length := by omega
      congr 1
      · simp only [effCoeffs, matVec]
        rw [getD_map_lt _ _ _ _ hk', zipWith_sum _ _ _ 0 0 (by rw [hR2 _ (List.getElem_mem hk'), hc]),
          hR2 _ (List.getElem_mem hk'), getD_of_lt _ _ _ hk']
      · rw [getD_of_lt _ _ _ hj]

/-! ### Products and their derivatives -/

/-- The polynomial of degree `n` in dimension `k`. -/
noncomputable def pol (params : List MParam) (k n : ℕ) : Polynomial ℝ :=
  opoly ((params.map MParam.ab).getD k (fun _ => (0, 0))) n

theorem basisFun_eq_pol (params : List MParam) (row : List ℕ) (x : List ℝ)
    (hr : row.length = params.length) (hx : x.length = params.length) :
    basisFun params row x =
      ∏ k ∈ Finset.range params.length, (pol params k (row.getD k 0)).eval (x.getD k 0) := by
  rcases params with _ | ⟨P, Ps⟩
  · simp [basisFun]
  · rw [basisFun_eq_range _ P _ _ hr hx]
    apply Finset.prod_congr rfl
    intro i hi
    rw [Finset.mem_range] at hi
    rw [univ_eq, pol, getD_ab _ _ hi]
    simp [List.getD_eq_getElem?_getD, List.getElem?_eq_getElem hi]

/-- First partial derivative of a basis function. -/
noncomputable def dBasis (params : List MParam) (v : ℕ) (row : List ℕ) (x : List ℝ) : ℝ :=
  ∏ k ∈ Finset.range params.length,
    (if k = v then Polynomial.derivative (pol params k (row.getD k 0))
      else pol params k (row.getD k 0)).eval (x.getD k 0)

/-- Second partial derivative of a basis function. -/
noncomputable def d2Basis (params : List MParam) (w v : ℕ) (row : List ℕ) (x : List ℝ) : ℝ :=
  ∏ k ∈ Finset.range params.length,
    (if k = w then Polynomial.derivative (if k = v then Polynomial.derivative (pol params k (row.getD k 0))
      else pol params k (row.getD k 0))
     else if k = v then Polynomial.derivative (pol params k (row.getD k 0))
      else pol params k (row.getD k 0)).eval (x.getD k 0)

theorem hasDerivAt_prod (q : ℕ → Polynomial ℝ) (d v : ℕ) (hv : v < d) (x : List ℝ)
    (hx : x.length = d) :
    HasDerivAt (fun t => ∏ k ∈ Finset.range d, (q k).eval ((x.set v t).getD k 0))
      (∏ k ∈ Finset.range d, (if k = v then Polynomial.derivative (q k) else q k).eval (x.getD k 0))
      (x.getD v 0) := by
  have hmem : v ∈ Finset.range d := Finset.mem_range.2 hv
  have e1 : (fun t => ∏ k ∈ Finset.range d, (q k).eval ((x.set v t).getD k 0)) =
      fun t => (q v).eval t * ∏ k ∈ (Finset.range d).erase v, (q k).eval (x.getD k 0) := by
    funext t
    rw [← Finset.mul_prod_erase _ _ hmem, getD_set' x v v t (by omega), if_pos rfl]
    congr 1
    apply Finset.prod_congr rfl
    intro k hk
    rw [getD_set' x v k t (by omega), if_neg (Finset.ne_of_mem_erase hk)]
  have e2 : (∏ k ∈ Finset.range d, (if k = v then Polynomial.derivative (q k) else q k).eval (x.getD k 0)) =
      (Polynomial.derivative (q v)).eval (x.getD v 0) *
        ∏ k ∈ (Finset.range d).erase v, (q k).eval (x.getD k 0) := by
    rw [← Finset.mul_prod_erase _ _ hmem, if_pos rfl]
    congr 1
    apply Finset.prod_congr rfl
    intro k hk
    rw [if_neg (Finset.ne_of_mem_erase hk)]
  rw [e1, e2]
  exact (Polynomial.hasDerivAt (q v) _).mul_const _

theorem basisFun_hasDerivAt (params : List MParam) (row : List ℕ) (x : List ℝ) (v : ℕ)
    (hv : v < params.length) (hr : row.length = params.length) (hx : x.length = params.length) :
    HasDerivAt (fun t => basisFun params row (x.set v t)) (dBasis params v row x) (x.getD v 0) := by
  have e : (fun t => basisFun params row (x.set v t)) = fun t =>
      ∏ k ∈ Finset.range params.length, (pol params k (row.getD k 0)).eval ((x.set v t).getD k 0) := by
    funext t
    exact basisFun_eq_pol params row _ hr (by simpa using hx)
  rw [e]
  exact hasDerivAt_prod (fun k => pol params k (row.getD k 0)) _ v hv x hx

theorem dBasis_hasDerivAt (params : List MParam) (row : List ℕ) (x : List ℝ) (w v : ℕ)
    (hw : w < params.length) (hx : x.length = params.length) :
    HasDerivAt (fun t => dBasis params v row (x.set w t)) (d2Basis params w v row x)
      (x.getD w 0) :=
  hasDerivAt_prod (fun k => if k = v then Polynomial.derivative (pol params k (row.getD k 0))
      else pol params k (row.getD k 0)) _ w hw x hx

theorem d2Basis_symm (params : List MParam) (row : List ℕ) (x : List ℝ) (w v : ℕ) :
    d2Basis params w v row x = d2Basis params v w row x := by
  unfold d2Basis
  apply Finset.prod_congr rfl
  intro k _
  congr 1
  split_ifs <;> rfl

theorem foldl_prod_range (F : ℕ → ℝ) (g : ℝ → ℕ → ℝ) (hg : ∀ a k, g a k = a * F k) : ∀ d,
    (List.range d).foldl g 1 = ∏ k ∈ Finset.range d, F k := by
  intro d
  induction d with
  | zero => simp
  | succ d ih =>
    rw [List.range_succ, List.foldl_append, ih, Finset.prod_range_succ]
    exact hg _ _

theorem tab_eq (B : Expansion) (basis : List (List ℕ)) (extra k : ℕ) (x : List ℝ) (row : List ℕ)
    (hr : row ∈ basis) :
    (B.tab basis extra k x).poly (row.getD k 0) = (pol B.params k (row.getD k 0)).eval (x.getD k 0) ∧
    (B.tab basis extra k x).deriv (row.getD k 0) =
      (Polynomial.derivative (pol B.params k (row.getD k 0))).eval (x.getD k 0) ∧
    (B.tab basis extra k x).dderiv (row.getD k 0) =
      (Polynomial.derivative (Polynomial.derivative (pol B.params k (row.getD k 0)))).eval
        (x.getD k 0) := by
  have := le_colMax basis k row hr
  exact orthoTables_eq _ _ _ _ (by omega)

theorem multiPoly_eq (params : List MParam) (basis : List (List ℕ)) (pts : List (List ℝ))
    (hd : params.length ≠ 1) (hb : ∀ row ∈ basis, row.length = params.length)
    (hp : ∀ x ∈ pts, x.length = params.length) :
    multiPoly params basis params.length pts =
      basis.map fun row => pts.map fun x => basisFun params row x := by
  have hlen : (multiPoly params basis params.length pts).length = basis.length := by
    simp [multiPoly, hd]
  apply List.ext_getElem
  · simp [hlen]
  · intro r h1 h2
    rw [hlen] at h1
    apply List.ext_getElem
    · simp [multiPoly, hd]
    · intro k h3 h4
      have hk : k < pts.length := by simpa using h4
      have := multiPoly_entry params basis pts hd hb hp r k h1 hk
      unfold entry at this
      rw [getD_of_lt (multiPoly params basis params.length pts) _ _ (by omega), getD_of_lt _ _ _ h3] at this
      rw [this]
      simp

theorem gradMatrix_eq (B : Expansion) (pts : List (List ℝ)) (v : ℕ) :
    B.gradMatrix pts v = B.elements.map fun row => pts.map fun x => dBasis B.params v row x := by
  unfold Expansion.gradMatrix
  apply List.map_congr_left
  intro row hr
  apply List.map_congr_left
  intro x _
  apply foldl_prod_range
  intro a k
  obtain ⟨h1, h2, _⟩ := tab_eq B B.elements 0 k x row hr
  split_ifs
  · rw [h2]
  · rw [h1]

theorem hessMatrix_eq (B : Expansion) (pts : List (List ℝ)) (w v : ℕ) :
    B.hessMatrix pts w v =
      B.elements.map fun row => pts.map fun x => d2Basis B.params w v row x := by
  unfold Expansion.hessMatrix
  apply List.map_congr_left
  intro row hr
  apply List.map_congr_left
  intro x _
  apply foldl_prod_range
  intro a k
  obtain ⟨h1, h2, h3⟩ := tab_eq B B.elements 1 k x row hr
  dsimp only
  by_cases hw : k = w <;> by_cases hv : k = v
  · have : w = v := hw.symm.trans hv
    rw [if_pos ⟨hw, this⟩, if_pos hw, if_pos hv, h3, mul_comm]
  · have : ¬ (k = w ∧ w = v) := fun h => hv (h.1.trans h.2)
    rw [if_neg this, if_pos hw, if_pos hw, if_neg hv, h2, mul_comm]
  · have : ¬ (k = w ∧ w = v) := fun h => hw h.1
    rw [if_neg this, if_neg hw, if_pos hv, if_neg hw, if_pos hv, h2, mul_comm]
  · have : ¬ (k = w ∧ w = v) := fun h => hw h.1
    rw [if_neg this, if_neg hw, if_neg hv, if_neg hw, if_neg hv, h1, mul_comm]

/-- A sum of functions with coefficients has the sum of the derivatives as derivative. -/
theorem zipWith_hasDerivAt (elements : List (List ℕ)) (c : List ℝ) (F : List ℕ → ℝ → ℝ)
    (F' : List ℕ → ℝ) (a : ℝ) (h : ∀ row ∈ elements, HasDerivAt (F row) (F' row) a) :
    HasDerivAt (fun t => (List.zipWith (fun row b => b * F row t) elements c).sum)
      (List.zipWith (fun row b => b * F' row) elements c).sum a := by
  induction elements generalizing c with
  | nil => simpa using hasDerivAt_const a (0 : ℝ)
  | cons row els ih =>
    cases c with
    | nil => simpa using hasDerivAt_const a (0 : ℝ)
    | cons b c =>
      simp only [List.zipWith_cons_cons, List.sum_cons]
      exact ((h row (by simp)).const_mul b).add (ih c fun r hr => h r (by simp [hr]))

/-! ### One dimension -/

theorem colMax_range (n : ℕ) : colMax ((List.range (n + 1)).map fun i => [i]) 0 = n := by
  apply le_antisymm
  · apply colMax_le
    intro row hr
    obtain ⟨i, hi, rfl⟩ := List.mem_map.1 hr
    rw [List.mem_range] at hi
    simp only [List.getD_cons_zero]
    omega
  · exact le_colMax _ 0 [n] (List.mem_map.2 ⟨n, by simp, rfl⟩)

end EQ.Poly
