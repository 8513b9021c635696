import Verif.Poly.Lemmas

/-!
# Properties of polynomial expansions (C28, C29)
-/

namespace EQ.Poly
open EQ.Param EQ.Basis EQ.Sampling EQ.Sampling.Spec Spec

/-! ## C28 -/

/-- C28 (two or more dimensions). Without a Gram-Schmidt correction, `get_poly` returns one row
per multi-index, in the order of the index set (the object's own or a custom one), with the
products of the univariate orthonormal polynomials; the row of the zero multi-index is constantly
one. With a correction, row `i` is the combination with the entries `inv_R_Psi[k][i]`. -/
theorem c28_get_poly (B : Expansion) (hd : B.dims ≠ 1) (custom : Option (List (List ℕ)))
    (hne : custom.getD B.elements ≠ [])
    (hb : ∀ row ∈ custom.getD B.elements, row.length = B.dims)
    (hR : ∀ R, B.invR = some R → R.length = (custom.getD B.elements).length)
    (pts : List (List ℝ)) (hp : ∀ x ∈ pts, x.length = B.dims) :
    ∃ M, B.getPoly custom pts = .ok M ∧ M.length = (custom.getD B.elements).length ∧
      (B.invR = none → ∀ r (hr : r < (custom.getD B.elements).length) j (hj : j < pts.length),
        entry M r j = basisFun B.params (custom.getD B.elements)[r] pts[j]) ∧
      (B.invR = none → ∀ r (hr : r < (custom.getD B.elements).length),
        (∀ a ∈ (custom.getD B.elements)[r], a = 0) → ∀ j < pts.length, entry M r j = 1) ∧
      (∀ R, B.invR = some R → ∀ i < (custom.getD B.elements).length, ∀ j (hj : j < pts.length),
        entry M i j = ∑ k ∈ Finset.range (custom.getD B.elements).length,
          entry R k i * basisFun B.params ((custom.getD B.elements).getD k []) pts[j]) := by
  unfold Expansion.getPoly
  generalize custom.getD B.elements = els at *
  simp only [if_neg hne, if_neg hd]
  have e := multiPoly_eq B.params els pts hd hb hp
  unfold Expansion.dims at *
  rw [e]
  cases hR' : B.invR with
  | none =>
    have hent : ∀ r (hr : r < els.length) j (hj : j < pts.length),
        entry (els.map fun row => pts.map fun x => basisFun B.params row x) r j =
          basisFun B.params els[r] pts[j] := by
      intro r hr j hj
      unfold entry
      rw [getD_map_lt _ _ _ _ hr, getD_map_lt _ _ _ _ hj]
    refine ⟨_, rfl, by simp, fun _ => hent, fun _ r hr h0 j hj => ?_, fun R h => by cases h⟩
    rw [hent r hr j hj]
    have hl := hb _ (List.getElem_mem hr)
    have : els[r] = List.replicate B.params.length 0 := by
      rw [List.eq_replicate_iff]; exact ⟨hl, h0⟩
    rw [this]
    exact basisFun_zero B.params _ (hp _ (List.getElem_mem hj))
  | some R =>
    have hl := hR R hR'
    unfold applyInvR
    simp only [List.length_map]
    rw [if_neg (by simp [hl])]
    refine ⟨_, rfl, by simp, (fun h => by cases h), (fun h => by cases h), ?_⟩
    intro R' hR'' i hi j hj
    cases hR''
    unfold entry
    rw [getD_map_lt _ _ _ _ (by simpa using hi), getD_map_lt _ _ _ _ (by simpa using hj),
      range_map_sum]
    apply Finset.sum_congr rfl
    intro k hk
    rw [Finset.mem_range] at hk
    simp only [List.getElem_range]
    rw [getD_map_lt _ _ _ _ hk, getD_map_lt _ _ _ _ hj, getD_of_lt els _ _ hk]

theorem getPoly_one (P : MParam) (invR : Option (List (List ℝ))) (els : List (List ℕ)) (n : ℕ)
    (custom : Option (List (List ℕ)))
    (hels : custom.getD els = (List.range (n + 1)).map fun i => [i]) (pts : List (List ℝ))
    (hp : ∀ x ∈ pts, x.length = 1) :
    Expansion.getPoly ⟨[P], els, invR⟩ custom pts =
      .ok (((List.range (n + 1)).map fun i => [i]).map fun row => pts.map fun x =>
        basisFun [P] row x) := by
  unfold Expansion.getPoly
  simp only [hels]
  rw [if_neg (by simp [List.range_succ]), if_pos (by simp [Expansion.dims])]
  congr 1
  have hlen : (multiPoly [P] ((List.range (n + 1)).map fun i => [i]) 1 pts).length = n + 1 := by
    simp [multiPoly, colMax_range]
  apply List.ext_getElem
  · simp [hlen]
  · intro r h1 h2
    rw [hlen] at h1
    apply List.ext_getElem
    · simp [multiPoly]
    · intro k h3 h4
      have hk : k < pts.length := by simpa using h4
      have := multiPoly_entry_one P ((List.range (n + 1)).map fun i => [i]) pts hp r k
        (by rw [colMax_range]; omega) hk
      unfold entry at this
      rw [getD_of_lt (multiPoly [P] ((List.range (n + 1)).map fun i => [i]) 1 pts) _ _ (by omega),
        getD_of_lt _ _ _ h3] at this
      rw [this]
      simp

/-- C28 in one dimension, the part that holds: for the full index set `0, 1, .., n` (what every
constructor of the library builds) the rows are the univariate polynomials in order. Missing:
other index sets, see `c28_one_dimension_violated`. -/
theorem c28_one_dimension_partial (P : MParam) (invR : Option (List (List ℝ)))
    (els : List (List ℕ)) (n : ℕ) (custom : Option (List (List ℕ)))
    (hels : custom.getD els = (List.range (n + 1)).map fun i => [i]) (pts : List (List ℝ))
    (hp : ∀ x ∈ pts, x.length = 1) :
    ∃ M, Expansion.getPoly ⟨[P], els, invR⟩ custom pts = .ok M ∧ M.length = n + 1 ∧
      ∀ r ≤ n, ∀ j (hj : j < pts.length), entry M r j = univ P r (pts[j].getD 0 0) := by
  refine ⟨_, getPoly_one P invR els n custom hels pts hp, by simp, fun r hr j hj => ?_⟩
  unfold entry
  rw [getD_map_lt _ _ _ _ (by simpa using Nat.lt_succ_of_le hr), getD_map_lt _ _ _ _ hj]
  have hx := hp _ (List.getElem_mem hj)
  obtain ⟨x, hx⟩ := List.length_eq_one_iff.1 hx
  simp [hx, basisFun]

/-- C28 is false in one dimension for a custom index set: asking for the quadratic alone returns
three rows, the first of which is the constant. -/
theorem c28_one_dimension_violated (P : MParam) (invR : Option (List (List ℝ)))
    (els : List (List ℕ)) (x : ℝ) :
    ∃ M, Expansion.getPoly ⟨[P], els, invR⟩ (some [[2]]) [[x]] = .ok M ∧
      M.length ≠ ([[2]] : List (List ℕ)).length ∧ entry M 0 0 = 1 := by
  refine ⟨multiPoly [P] [[2]] 1 [[x]], ?_, ?_, ?_⟩
  · unfold Expansion.getPoly
    simp [Expansion.dims]
  · simp [multiPoly, colMax]
  · rw [multiPoly_entry_one P [[2]] [[x]] (by simp) 0 0 (Nat.zero_le _) (by simp)]
    simp [basisFun, univ_eq, opoly]

/-! ## C29 -/

/-- Objects with a consistent shape: non-empty index set, one entry per dimension in every row,
the full index set `0, .., n` in one dimension (the only one the one-dimensional branches
support), and a square correction if there is one. -/
structure Regular (B : Expansion) : Prop where
  ne : B.elements ≠ []
  rows : ∀ row ∈ B.elements, row.length = B.dims
  one : B.dims = 1 → ∃ n, B.elements = (List.range (n + 1)).map fun i => [i]
  square : SquareOpt B.elements.length B.invR

/-- The coefficients with respect to the products of univariate polynomials. -/
def Expansion.eff (B : Expansion) (c : List ℝ) : List ℝ :=
  if B.dims = 1 then c else effCoeffs B.invR c

theorem eff_length (B : Expansion) (hB : Regular B) (c : List ℝ)
    (hc : c.length = B.elements.length) : (B.eff c).length = B.elements.length := by
  unfold Expansion.eff
  split_ifs
  · exact hc
  · exact effCoeffs_length _ _ hB.square c hc

theorem Expansion.one_cases (B : Expansion) (h : B.dims = 1) :
    ∃ P els invR, B = ⟨[P], els, invR⟩ := by
  rcases B with ⟨ps, els, invR⟩
  obtain ⟨P, hP⟩ := List.length_eq_one_iff.1 h
  exact ⟨P, els, invR, by rw [← hP]⟩

/-- `get_poly` as a table of products, for regular objects without correction. -/
theorem getPoly_plain (B : Expansion) (hB : Regular B) (hR : B.dims = 1 ∨ B.invR = none)
    (pts : List (List ℝ)) (hp : ∀ x ∈ pts, x.length = B.dims) :
    B.getPoly none pts =
      .ok (B.elements.map fun row => pts.map fun x => basisFun B.params row x) := by
  by_cases hd : B.dims = 1
  · obtain ⟨n, hn⟩ := hB.one hd
    obtain ⟨P, els, invR, rfl⟩ := B.one_cases hd
    rw [getPoly_one P invR els n none hn pts (by simpa [Expansion.dims] using hp)]
    simp only at hn ⊢
    rw [hn]
  · have hR' := hR.resolve_left hd
    unfold Expansion.getPoly
    simp only [Option.getD_none, if_neg hB.ne, if_neg hd]
    have := multiPoly_eq B.params B.elements pts hd hB.rows hp
    unfold Expansion.dims at *
    rw [this, hR']
    rfl

/-- `get_polyfit` evaluates the expansion. -/
theorem polyfit_eq (B : Expansion) (hB : Regular B) (c : List ℝ)
    (hc : c.length = B.elements.length) (pts : List (List ℝ)) (hp : ∀ x ∈ pts, x.length = B.dims) :
    B.polyfit c pts = .ok (pts.map (expansion B.params B.elements (B.eff c))) := by
  unfold Expansion.polyfit
  by_cases hd : B.dims = 1
  · rw [getPoly_plain B hB (.inl hd) pts hp]
    simp only [Expansion.eff, if_pos hd]
    exact dotT_eq B.elements (fun row x => basisFun B.params row x) pts c hc
  · unfold Expansion.getPoly
    simp only [Option.getD_none, if_neg hB.ne, if_neg hd]
    have := multiPoly_eq B.params B.elements pts hd hB.rows hp
    unfold Expansion.dims at *
    rw [this]
    obtain ⟨M, h1, _, _, h2⟩ := dot_apply B.invR B.elements hB.square
      (fun row x => basisFun B.params row x) pts c hc
    rw [h1]
    simp only [h2]
    unfold Expansion.eff
    rw [if_neg (show ¬ B.dims = 1 from hd)]
    rfl

/-- The gradient of the expansion. -/
noncomputable def gradFun (B : Expansion) (c : List ℝ) (v : ℕ) (x : List ℝ) : ℝ :=
  (List.zipWith (fun row a => a * dBasis B.params v row x) B.elements (B.eff c)).sum

/-- The Hessian of the expansion. -/
noncomputable def hessFun (B : Expansion) (c : List ℝ) (w v : ℕ) (x : List ℝ) : ℝ :=
  (List.zipWith (fun row a => a * d2Basis B.params w v row x) B.elements (B.eff c)).sum

theorem getPolyGrad_one (B : Expansion) (hB : Regular B) (hd : B.dims = 1) (dimIndex : Option (List ℕ))
    (pts : List (List ℝ)) : B.getPolyGrad dimIndex pts =
      .ok (.bare (B.elements.map fun row => pts.map fun x => dBasis B.params 0 row x)) := by
  obtain ⟨n, hn⟩ := hB.one hd
  unfold Expansion.getPolyGrad
  rw [if_neg hB.ne, if_pos hd]
  congr 2
  rw [hn, colMax_range, List.map_map]
  apply List.map_congr_left
  intro i hi
  apply List.map_congr_left
  intro x _
  have := (tab_eq B ((List.range (n + 1)).map fun i => [i]) 0 0 x [i]
    (List.mem_map.2 ⟨i, hi, rfl⟩)).2.1
  simp only [List.getD_cons_zero] at this
  rw [this, dBasis]
  have hd' : B.params.length = 1 := hd
  simp [hd']

theorem getPolyHess_one (B : Expansion) (hB : Regular B) (hd : B.dims = 1)
    (pts : List (List ℝ)) : B.getPolyHess pts =
      .ok (.bare (B.elements.map fun row => pts.map fun x => d2Basis B.params 0 0 row x)) := by
  obtain ⟨n, hn⟩ := hB.one hd
  unfold Expansion.getPolyHess
  rw [if_neg hB.ne, if_pos hd]
  congr 2
  rw [hn, colMax_range, List.map_map]
  apply List.map_congr_left
  intro i hi
  apply List.map_congr_left
  intro x _
  have := (tab_eq B ((List.range (n + 1)).map fun i => [i]) 0 0 x [i]
    (List.mem_map.2 ⟨i, hi, rfl⟩)).2.2
  simp only [List.getD_cons_zero] at this
  rw [this, d2Basis]
  have hd' : B.params.length = 1 := hd
  simp [hd']

/-- `get_poly_grad` in two or more dimensions, as a list of corrected matrices. -/
theorem getPolyGrad_many (B : Expansion) (hB : Regular B) (hd : B.dims ≠ 1)
    (dimIndex : Option (List ℕ)) (c : List ℝ) (hc : c.length = B.elements.length)
    (pts : List (List ℝ)) :
    ∃ Ms : ℕ → List (List ℝ), B.getPolyGrad dimIndex pts = .ok (.many ((List.range B.dims).map Ms)) ∧
      ∀ v < B.dims, (Ms v).length = B.elements.length ∧ dotT (Ms v) pts.length c = .ok
        (if v ∈ dimIndex.getD (List.range B.dims) then pts.map (gradFun B c v)
          else pts.map fun _ => 0) := by
  choose M h1 h3 _ h2 using fun v => dot_apply B.invR B.elements hB.square
    (fun row x => dBasis B.params v row x) pts c hc
  refine ⟨fun v => if v ∈ dimIndex.getD (List.range B.dims) then M v
    else B.elements.map fun _ => pts.map fun _ => (0 : ℝ), ?_, fun v hv => ?_⟩
  · unfold Expansion.getPolyGrad
    rw [if_neg hB.ne, if_neg hd, mapM_ok (fun v => if v ∈ dimIndex.getD (List.range B.dims) then M v
      else B.elements.map fun _ => pts.map fun _ => (0 : ℝ))]
    · rfl
    · intro v _
      split_ifs
      · rw [gradMatrix_eq]; exact h1 v
      · rfl
  · dsimp only
    split_ifs
    · refine ⟨h3 v, ?_⟩
      rw [h2 v]
      unfold gradFun Expansion.eff
      rw [if_neg hd]
    · refine ⟨by simp, ?_⟩
      rw [dotT_eq B.elements (fun _ _ => 0) pts c hc]
      congr 1
      apply List.map_congr_left
      intro x _
      simp only [mul_zero]
      rw [zipWith_sum _ _ _ [] 0 hc.symm]
      simp

/-- `get_polyfit_grad`: rows of `dim_index` hold the gradient, the others zero. -/
theorem polyfitGrad_eq (B : Expansion) (hB : Regular B) (c : List ℝ)
    (hc : c.length = B.elements.length) (dimIndex : Option (List ℕ)) (pts : List (List ℝ)) :
    B.polyfitGrad dimIndex c pts = .ok ((List.range B.dims).map fun v =>
      if B.dims = 1 ∨ v ∈ dimIndex.getD (List.range B.dims) then pts.map (gradFun B c v)
      else pts.map fun _ => 0) := by
  unfold Expansion.polyfitGrad
  by_cases hd : B.dims = 1
  · rw [getPolyGrad_one B hB hd]
    simp only
    rw [dotT_eq B.elements (fun row x => dBasis B.params 0 row x) pts c hc, hd]
    simp [Except.map, List.range_succ, gradFun, Expansion.eff, hd]
  · obtain ⟨Ms, h1, h2⟩ := getPolyGrad_many B hB hd dimIndex c hc pts
    rw [h1]
    simp only
    apply mapM_ok
    intro v hv
    rw [getD_map_lt _ _ _ _ (by simpa using hv), List.getElem_range,
      (h2 v (List.mem_range.1 hv)).2]
    simp [hd]

theorem pairs_getD (d i j : ℕ) (hi : i < d) (hj : j < d) (f : ℕ × ℕ → List (List ℝ)) :
    ((((List.range d).flatMap fun w => (List.range d).map fun v => (w, v)).map f).getD
      (i * d + j) []) = f (i, j) := by
  have key : ∀ m i, i < m → ((((List.range' (m - m) m).flatMap fun w => (List.range d).map fun v => (w, v)).map f).getD
      (i * d + j) []) = f (i, j) := by
    intro m i hi
    rw [Nat.sub_self]
    have gen : ∀ n s i, i < n → ((((List.range' s n).flatMap fun w =>
        (List.range d).map fun v => (w, v)).map f).getD (i * d + j) []) = f (s + i, j) := by
      intro n
      induction n with
      | zero => intro s i h; omega
      | succ n ih =>
        intro s i h
        rw [List.range'_succ, List.flatMap_cons, List.map_append]
        rcases i with _ | i
        · rw [List.getD_append _ _ _ _ (by simpa using hj), Nat.zero_mul, Nat.zero_add,
            getD_map_lt _ _ _ _ (by simpa using hj)]
          simp
        · rw [List.getD_append_right _ _ _ _ (by simp; nlinarith)]
          have : (i + 1) * d + j - (((List.range d).map fun v => (s, v)).map f).length = i * d + j := by
            simp only [List.length_map, List.length_range, Nat.add_mul, Nat.one_mul]
            omega
          rw [this, ih (s + 1) i (by omega)]
          congr 2
          omega
    have := gen m 0 i hi
    rw [this, Nat.zero_add]
  have := key d i hi
  rw [Nat.sub_self, ← List.range_eq_range'] at this
  exact this

/-- `get_polyfit_hess`. -/
theorem polyfitHess_eq (B : Expansion) (hB : Regular B) (c : List ℝ)
    (hc : c.length = B.elements.length) (pts : List (List ℝ)) :
    B.polyfitHess c pts = .ok ((List.range B.dims).map fun w => (List.range B.dims).map fun v =>
      pts.map (hessFun B c w v)) := by
  unfold Expansion.polyfitHess
  by_cases hd : B.dims = 1
  · rw [getPolyHess_one B hB hd]
    simp only
    rw [dotT_eq B.elements (fun row x => d2Basis B.params 0 0 row x) pts c hc, hd]
    simp [Except.map, List.range_succ, hessFun, Expansion.eff, hd]
  · choose M h1 h3 _ h2 using fun wv : ℕ × ℕ => dot_apply B.invR B.elements hB.square
      (fun row x => d2Basis B.params wv.1 wv.2 row x) pts c hc
    have e : B.getPolyHess pts = .ok (.many
        (((List.range B.dims).flatMap fun w => (List.range B.dims).map fun v => (w, v)).map M)) := by
      unfold Expansion.getPolyHess
      rw [if_neg hB.ne, if_neg hd, mapM_ok M]
      · rfl
      · intro wv _
        rw [hessMatrix_eq]
        exact h1 wv
    rw [e]
    simp only
    apply mapM_ok
    intro w hw
    apply mapM_ok
    intro v hv
    rw [pairs_getD _ _ _ (List.mem_range.1 hw) (List.mem_range.1 hv), h2]
    unfold hessFun Expansion.eff
    rw [if_neg hd]

/-- C29. For every regular object and every coefficient vector there are functions `f`, `g`, `h`
(fit, gradient, Hessian) that `get_polyfit`, `get_polyfit_grad` and `get_polyfit_hess` evaluate at
every stack of points, and they are exact derivatives of each other: `g v` is the partial
derivative of `f` in direction `v`, `h w v` that of `g v` in direction `w`, and `h` is symmetric.
With Gram-Schmidt correction or without, in any dimension. -/
theorem c29_derivatives (B : Expansion) (hB : Regular B) (c : List ℝ)
    (hc : c.length = B.elements.length) :
    ∃ (f : List ℝ → ℝ) (g : ℕ → List ℝ → ℝ) (h : ℕ → ℕ → List ℝ → ℝ),
      (∀ pts : List (List ℝ), (∀ x ∈ pts, x.length = B.dims) →
        B.polyfit c pts = .ok (pts.map f)) ∧
      (∀ pts : List (List ℝ), B.polyfitGrad none c pts =
        .ok ((List.range B.dims).map fun v => pts.map (g v))) ∧
      (∀ pts : List (List ℝ), B.polyfitHess c pts =
        .ok ((List.range B.dims).map fun w => (List.range B.dims).map fun v =>
          pts.map (h w v))) ∧
      (∀ x : List ℝ, x.length = B.dims → ∀ v < B.dims,
        HasDerivAt (fun t => f (x.set v t)) (g v x) (x.getD v 0)) ∧
      (∀ x : List ℝ, x.length = B.dims → ∀ w < B.dims, ∀ v < B.dims,
        HasDerivAt (fun t => g v (x.set w t)) (h w v x) (x.getD w 0)) ∧
      (∀ x w v, h w v x = h v w x) := by
  refine ⟨_, gradFun B c, hessFun B c, polyfit_eq B hB c hc, fun pts => ?_,
    polyfitHess_eq B hB c hc, fun x hx v hv => ?_, fun x hx w hw v hv => ?_, fun x w v => ?_⟩
  · rw [polyfitGrad_eq B hB c hc]
    congr 1
    apply List.map_congr_left
    intro v hv
    rw [Option.getD_none, if_pos (.inr hv)]
  · exact zipWith_hasDerivAt _ _ (fun row t => basisFun B.params row (x.set v t)) _ _
      fun row hr => basisFun_hasDerivAt B.params row x v hv (hB.rows row hr) hx
  · exact zipWith_hasDerivAt _ _ (fun row t => dBasis B.params v row (x.set w t)) _ _
      fun row _ => dBasis_hasDerivAt B.params row x w v hw hx
  · unfold hessFun
    simp only [d2Basis_symm]

/-- C29: `dim_index` only zeroes the rows that were not requested (two or more dimensions; in one
dimension the argument is ignored). -/
theorem c29_dim_index (B : Expansion) (hB : Regular B) (hd : B.dims ≠ 1) (c : List ℝ)
    (hc : c.length = B.elements.length) (dimIndex : List ℕ) (pts : List (List ℝ)) :
    ∃ full part, B.polyfitGrad none c pts = .ok full ∧
      B.polyfitGrad (some dimIndex) c pts = .ok part ∧
      ∀ v < B.dims, ∀ j < pts.length,
        entry part v j = if v ∈ dimIndex then entry full v j else 0 := by
  refine ⟨_, _, polyfitGrad_eq B hB c hc none pts, polyfitGrad_eq B hB c hc _ pts,
    fun v hv j hj => ?_⟩
  unfold entry
  rw [getD_map_lt _ _ _ _ (by simpa using hv), getD_map_lt _ _ _ _ (by simpa using hv)]
  simp only [List.getElem_range, hd, false_or, Option.getD_some, Option.getD_none]
  rw [if_pos (show v ∈ List.range B.dims from List.mem_range.2 hv)]
  split_ifs
  · rfl
  · rw [getD_map_lt _ _ _ _ hj]

example (P Q : MParam) : Regular ⟨[P, Q], [[0, 0], [1, 0], [0, 1]], some [[1, 0, 0], [0, 2, 0], [0, 1, 3]]⟩ where
  ne := by simp
  rows := by simp [Expansion.dims]
  one := by simp [Expansion.dims]
  square := by intro R hR; cases hR; simp

example (P : MParam) : Regular ⟨[P], (List.range 4).map fun i => [i], none⟩ where
  ne := by simp [List.range_succ]
  rows := by simp [Expansion.dims]
  one := fun _ => ⟨3, rfl⟩
  square := by intro R hR; cases hR

end EQ.Poly
