import Verif.Poly.SparseLemmas

/-!
# Sparse-grid fits (C125)
-/

namespace EQ.Poly
open EQ.Param EQ.Basis EQ.Sampling EQ.Sampling.Spec EQ.Poly.Spec

/-- The coefficients of one tensor grid are the quadratures of the model times the basis functions. -/
theorem tensorCoefficients_eq (B : Expansion) (hR : B.invR = none) (hne : B.params ≠ []) (orders : List ℕ)
    (ho : orders.length = B.params.length) (t : Tensor) (qpts : List (List ℝ)) (f : List ℝ → ℝ) (a : ℚ)
    (ht : t.pts.Pairwise Sampling.Spec.LexLt) (hw : t.wts.length = t.pts.length) (hpos : ∀ w ∈ t.wts, 0 ≤ w)
    (hp : ∀ x ∈ t.pts, x.length = B.params.length) (hE : tensorGridBasis orders = .ok t.elements)
    (hmem : ∀ row : List ℕ, row ∈ t.elements ↔ Basis.Spec.Below row orders)
    (hq : qpts.Pairwise Sampling.Spec.LexLt) (hsub : ∀ x ∈ t.pts, x ∈ qpts) :
    tensorCoefficients B qpts (qpts.map f) t a = .ok (t.elements.map fun row =>
      (∑ j ∈ Finset.range t.pts.length, t.wts.getD j 0 * (basisFun B.params row (t.pts.getD j []) * f (t.pts.getD j []))) *
        (a : ℝ)) := by
  have hreg : Regular { B with elements := t.elements } := by
    refine ⟨?_, ?_, ?_, ?_⟩
    · intro h
      have : List.replicate orders.length 0 ∈ t.elements := by
        rw [hmem]
        unfold Basis.Spec.Below
        clear * -
        induction orders with
        | nil => simp
        | cons o os ih => simp [List.replicate_succ, ih]
      simp only at h
      rw [h] at this
      simp at this
    · intro row hrow
      have := ((hmem row).1 hrow).length_eq
      simp only [Expansion.dims]
      rw [this, ho]
    · intro h1
      simp only [Expansion.dims] at h1
      rw [h1] at ho
      obtain ⟨o, rfl⟩ := List.length_eq_one_iff.1 ho
      refine ⟨o, ?_⟩
      simp only [tensorGridBasis, List.foldl_cons, List.foldl_nil, Basis.tensorStep, Except.ok.injEq] at hE
      rw [← hE]
      simp
    · simp only [hR]; intro R hRR; cases hRR
  have hgp : B.getPoly (some t.elements) t.pts = Expansion.getPoly { B with elements := t.elements } none t.pts := rfl
  unfold tensorCoefficients
  rw [hgp, getPoly_plain _ hreg (.inr hR) t.pts hp]
  simp only
  rw [pairing t.pts qpts ht hq hsub f, if_neg (by simp [hw]), List.length_map,
    orthogonalSolve_eq t.elements (fun row x => basisFun B.params row x) t.pts t.wts _ hw hpos (by simp), List.map_map]
  congr 1
  apply List.map_congr_left
  intro row _
  simp only [Function.comp]
  congr 1
  apply Finset.sum_congr rfl
  intro j hj
  rw [Finset.mem_range] at hj
  rw [getD_map_lt _ _ _ _ hj]
  simp [List.getD_eq_getElem?_getD, List.getElem?_eq_getElem hj]

/-- The stacked blocks: which rows occur, and the sum of the coefficients of the rows equal to `u`. -/
theorem sparseBlocks_eq (B : Expansion) (qpts : List (List ℝ)) (ys : List ℝ) (v : Tensor → List ℕ → ℝ) :
    ∀ (ts : List (Tensor × ℚ)), (∀ p ∈ ts, p.1.elements.Nodup ∧
      tensorCoefficients B qpts ys p.1 p.2 = .ok (p.1.elements.map fun row => v p.1 row * (p.2 : ℝ))) →
    ∀ Z0 : List (List ℕ × ℝ), ∃ Z : List (List ℕ × ℝ),
      sparseBlocks B qpts ys ts (Z0.map Prod.snd, Z0.map Prod.fst) = .ok (Z.map Prod.snd, Z.map Prod.fst) ∧
      (∀ r, r ∈ Z.map Prod.fst ↔ r ∈ Z0.map Prod.fst ∨ ∃ p ∈ ts, r ∈ p.1.elements) ∧
      ∀ u, (Z.map fun z => if u = z.1 then z.2 else 0).sum = (Z0.map fun z => if u = z.1 then z.2 else 0).sum +
        (ts.map fun p => (p.2 : ℝ) * if u ∈ p.1.elements then v p.1 u else 0).sum := by
  intro ts
  induction ts with
  | nil => intro _ Z0; exact ⟨Z0, rfl, by simp, by simp⟩
  | cons p ts ih =>
    intro h Z0
    obtain ⟨t, a⟩ := p
    obtain ⟨hnd, hc⟩ := h (t, a) (by simp)
    simp only at hnd hc
    obtain ⟨Z, h1, h2, h3⟩ := ih (fun p hp => h p (by simp [hp]))
      ((t.elements.map fun row => (row, v t row * (a : ℝ))) ++ Z0)
    refine ⟨Z, ?_, ?_, ?_⟩
    · rw [← h1]
      simp only [sparseBlocks, hc, List.map_append, List.map_map]
      congr 2
      congr 1
      conv_lhs => rw [← List.map_id t.elements]
      rfl
    · intro r
      rw [h2 r]
      simp only [List.map_append, List.map_map, List.mem_append, List.mem_cons, exists_eq_or_imp]
      have : t.elements.map (Prod.fst ∘ fun row => (row, v t row * (a : ℝ))) = t.elements := by
        conv_rhs => rw [← List.map_id t.elements]
        rfl
      rw [this]
      tauto
    · intro u
      rw [h3 u, List.map_append, List.sum_append, List.map_map, List.map_cons, List.sum_cons]
      have : (t.elements.map ((fun z : List ℕ × ℝ => if u = z.1 then z.2 else 0) ∘ fun row => (row, v t row * (a : ℝ)))).sum
          = (a : ℝ) * if u ∈ t.elements then v t u else 0 := by
        rw [← List.sum_toFinset _ hnd]
        simp only [Function.comp]
        rw [Finset.sum_ite_eq]
        simp only [List.mem_toFinset]
        split_ifs <;> ring
      rw [this]
      ring

/-- The growth rule as a function. -/
def growthFun (g : Growth) (r : ℕ) : ℕ :=
  match g with
  | .exponential => if r = 0 then 0 else 2 ^ (r - 1)
  | _ => r

theorem growthFun_mono (g : Growth) {i j : ℕ} (h : i ≤ j) : growthFun g i ≤ growthFun g j := by
  unfold growthFun
  cases g
  · simp only
    split_ifs with h1 h2 h2
    · exact le_refl _
    · exact Nat.zero_le _
    · omega
    · exact Nat.pow_le_pow_right (by norm_num) (by omega)
  · exact h
  · exact h

theorem growthTo_iff (g : Growth) (r t : ℕ) (h : GrowthTo g r t) : t = growthFun g r := by
  induction h with
  | linear r => rfl
  | exp_zero => rfl
  | exp_one => rfl
  | exp_double r t h1 _ ih =>
    rw [ih]
    unfold growthFun
    simp only
    rw [if_neg (by omega), if_neg (by omega), Nat.add_sub_cancel]
    obtain ⟨m, rfl⟩ : ∃ m, r = m + 1 := ⟨r - 1, by omega⟩
    simp [pow_succ, mul_comm]

/-- The sequences combined by the sparse grid, one per dimension. -/
noncomputable def usOf (g : Growth) : List MParam → List ℕ → List ℕ → List (ℕ → ℝ)
  | P :: Ps, a :: as, b :: bs =>
    (fun j => if a ≤ growthFun g j then quad P (growthFun g j) a b else 0) :: usOf g Ps as bs
  | _, _, _ => []

open Classical in
theorem usOf_prod (g : Growth) (params : List MParam) : ∀ (u k r : List ℕ), u.length = params.length →
    k.length = params.length → r.length = params.length →
    (List.zipWith (fun (s : ℕ → ℝ) j => s j) (usOf g params u k) r).prod =
      if Basis.Spec.Below u (r.map (growthFun g)) then prodQuad params (r.map (growthFun g)) u k else 0 := by
  induction params with
  | nil =>
    intro u k r hu hk hr
    obtain rfl := List.length_eq_zero_iff.1 hu
    obtain rfl := List.length_eq_zero_iff.1 hk
    obtain rfl := List.length_eq_zero_iff.1 hr
    simp [usOf, Basis.Spec.Below, prodQuad]
  | cons P Ps ih =>
    intro u k r hu hk hr
    cases u with
    | nil => simp at hu
    | cons a u =>
      cases k with
      | nil => simp at hk
      | cons b k =>
        cases r with
        | nil => simp at hr
        | cons j r =>
          have := ih u k r (by simpa using hu) (by simpa using hk) (by simpa using hr)
          simp only [usOf, List.zipWith_cons_cons, List.prod_cons, this, List.map_cons, prodQuad, Basis.Spec.Below,
            List.forall₂_cons]
          by_cases h1 : a ≤ growthFun g j
          · by_cases h2 : List.Forall₂ (· ≤ ·) u (r.map (growthFun g))
            · simp [h1, h2]
            · simp [h2]
          · simp [h1]

theorem quad_orth (P : MParam) (hP : Valid P) (o a b : ℕ) (ha : a ≤ o) (hb : b ≤ o) :
    quad P o a b = if a = b then 1 else 0 := localRule_orth P hP o a b ha hb

theorem usOf_const (g : Growth) (params : List MParam) (hP : ∀ P ∈ params, Valid P) : ∀ (u k r0 : List ℕ),
    u.length = params.length → k.length = params.length → Basis.Spec.Below k (r0.map (growthFun g)) →
    (usOf g params u k).length = params.length ∧
    List.Forall₂ (fun (s : ℕ → ℝ) m => ∀ j, m ≤ j → s j = s m) (usOf g params u k) r0 ∧
    (List.zipWith (fun (s : ℕ → ℝ) m => s m) (usOf g params u k) r0).prod = if u = k then 1 else 0 := by
  induction params with
  | nil =>
    intro u k r0 hu hk hb
    obtain rfl := List.length_eq_zero_iff.1 hu
    obtain rfl := List.length_eq_zero_iff.1 hk
    have : r0 = [] := by
      have := hb.length_eq
      simpa using this.symm
    subst this
    simp [usOf]
  | cons P Ps ih =>
    intro u k r0 hu hk hb
    cases u with
    | nil => simp at hu
    | cons a u =>
      cases k with
      | nil => simp at hk
      | cons b k =>
        cases r0 with
        | nil => simp [Basis.Spec.Below] at hb
        | cons m r0 =>
          simp only [Basis.Spec.Below, List.map_cons, List.forall₂_cons] at hb
          obtain ⟨h1, h2, h3⟩ := ih (fun Q hQ => hP Q (by simp [hQ])) u k r0 (by simpa using hu) (by simpa using hk) hb.2
          have key : ∀ j, m ≤ j → (if a ≤ growthFun g j then quad P (growthFun g j) a b else 0) =
              if a = b then (1 : ℝ) else 0 := by
            intro j hj
            have hbj : b ≤ growthFun g j := hb.1.trans (growthFun_mono g hj)
            by_cases ha : a ≤ growthFun g j
            · rw [if_pos ha, quad_orth P (hP P (by simp)) _ _ _ ha hbj]
            · rw [if_neg ha, if_neg (by rintro rfl; exact ha hbj)]
          refine ⟨by simp [usOf, h1], ?_, ?_⟩
          · simp only [usOf]
            refine List.Forall₂.cons (fun j hj => ?_) h2
            rw [key j hj, key m le_rfl]
          · simp only [usOf, List.zipWith_cons_cons, List.prod_cons, h3]
            rw [key m le_rfl]
            by_cases e1 : a = b <;> by_cases e2 : u = k <;> simp [e1, e2]

open Classical in
/-- The combined quadratures of two basis functions, one of which is in the sparse index set. -/
theorem sparse_orth (params : List MParam) (hP : ∀ P ∈ params, Valid P) (level n : ℕ) (hn : params.length = n + 1)
    (g : Growth) (L : List (List ℕ)) (hmem : ∀ row : List ℕ, row ∈ L ↔
      row.length = n + 1 ∧ level ≤ row.sum ∧ row.sum ≤ level + n) (hnd : L.Nodup) (u k r0 : List ℕ)
    (hu : u.length = params.length) (hr0 : r0 ∈ L) (hk : Basis.Spec.Below k (r0.map (growthFun g))) :
    (L.map fun r => ((-1 : ℝ) ^ (level + n - r.sum) * (n.choose (level + n - r.sum) : ℝ)) *
      if Basis.Spec.Below u (r.map (growthFun g)) then prodQuad params (r.map (growthFun g)) u k else 0).sum =
      if u = k then 1 else 0 := by
  have hr := (hmem r0).1 hr0
  have hkl : k.length = params.length := by rw [hk.length_eq, List.length_map, hr.1, hn]
  obtain ⟨h1, h2, h3⟩ := usOf_const g params hP u k r0 hu hkl hk
  rw [← h3, ← combination level n L hmem hnd _ _ (by rw [h1, hn]) h2 hr.2.2]
  congr 1
  apply List.map_congr_left
  intro r hrL
  rw [usOf_prod g params u k r hu hkl (by rw [((hmem r).1 hrL).1, hn])]

/-! ### The sorted index set -/

theorem indexLe_trans : ∀ a b c : List ℕ, IndexLe a b = true → IndexLe b c = true → IndexLe a c = true := by
  intro a
  induction a with
  | nil => intros; rfl
  | cons x xs ih =>
    intro b c h1 h2
    cases b with
    | nil => simp [IndexLe] at h1
    | cons y ys =>
      cases c with
      | nil => simp [IndexLe] at h2
      | cons z zs =>
        simp only [IndexLe, Bool.or_eq_true, decide_eq_true_eq, Bool.and_eq_true, beq_iff_eq] at *
        rcases h1 with h1 | ⟨h1, h1'⟩ <;> rcases h2 with h2 | ⟨h2, h2'⟩
        · left; omega
        · left; omega
        · left; omega
        · right; exact ⟨h1.trans h2, ih ys zs h1' h2'⟩

theorem indexLe_total : ∀ a b : List ℕ, (IndexLe a b || IndexLe b a) = true := by
  intro a
  induction a with
  | nil => intro b; simp [IndexLe]
  | cons x xs ih =>
    intro b
    cases b with
    | nil => simp [IndexLe]
    | cons y ys =>
      have := ih ys
      simp only [IndexLe, Bool.or_eq_true, decide_eq_true_eq, Bool.and_eq_true, beq_iff_eq] at *
      rcases lt_trichotomy x y with h | h | h
      · left; left; exact h
      · rcases this with h' | h'
        · left; right; exact ⟨h, h'⟩
        · right; right; exact ⟨h.symm, h'⟩
      · right; left; exact h

theorem indexLe_antisymm : ∀ a b : List ℕ, IndexLe a b = true → IndexLe b a = true → a = b := by
  intro a
  induction a with
  | nil =>
    intro b _ h
    cases b with
    | nil => rfl
    | cons y ys => simp [IndexLe] at h
  | cons x xs ih =>
    intro b h1 h2
    cases b with
    | nil => simp [IndexLe] at h1
    | cons y ys =>
      simp only [IndexLe, Bool.or_eq_true, decide_eq_true_eq, Bool.and_eq_true, beq_iff_eq] at *
      rcases h1 with h1 | ⟨h1, h1'⟩ <;> rcases h2 with h2 | ⟨h2, h2'⟩
      · omega
      · omega
      · omega
      · rw [h1, ih ys h1' h2']

theorem indexLe_lexLt : ∀ a b : List ℕ, a.length = b.length → IndexLe a b = true → a ≠ b → Basis.Spec.LexLt a b := by
  intro a
  induction a with
  | nil => intro b hl _ hne; exact absurd (List.length_eq_zero_iff.1 hl.symm).symm hne
  | cons x xs ih =>
    intro b hl h hne
    cases b with
    | nil => simp [IndexLe] at h
    | cons y ys =>
      simp only [IndexLe, Bool.or_eq_true, decide_eq_true_eq, Bool.and_eq_true, beq_iff_eq] at h
      rcases h with h | ⟨h, h'⟩
      · exact ⟨[], x, y, xs, ys, rfl, rfl, h⟩
      · subst h
        obtain ⟨pre, a, b, s, t, rfl, rfl, hab⟩ := ih ys (by simpa using hl) h' (by simpa using hne)
        exact ⟨x :: pre, a, b, s, t, rfl, rfl, hab⟩

theorem uniqueIndices_sorted (M : List (List ℕ)) : (uniqueIndices M).Pairwise fun a b => IndexLe a b = true :=
  List.pairwise_mergeSort (fun a b c => indexLe_trans a b c) (fun a b => indexLe_total a b) _

theorem mem_uniqueIndices (M : List (List ℕ)) (r : List ℕ) : r ∈ uniqueIndices M ↔ r ∈ M := by
  unfold uniqueIndices
  rw [List.mem_mergeSort, List.mem_dedup]

theorem uniqueIndices_nodup (M : List (List ℕ)) : (uniqueIndices M).Nodup :=
  (List.mergeSort_perm _ _).nodup_iff.2 (List.nodup_dedup M)

theorem uniqueIndices_lex (M : List (List ℕ)) (d : ℕ) (h : ∀ r ∈ M, r.length = d) :
    (uniqueIndices M).Pairwise Basis.Spec.LexLt := by
  have := (uniqueIndices_sorted M).and (uniqueIndices_nodup M)
  refine List.Pairwise.imp_of_mem ?_ this
  intro a b ha hb hab
  rw [mem_uniqueIndices] at ha hb
  exact indexLe_lexLt a b (by rw [h a ha, h b hb]) hab.1 hab.2

/-- In one dimension the index set of all degrees up to `n`. -/
theorem uniqueIndices_one (M : List (List ℕ)) (n : ℕ) (h : ∀ r, r ∈ M ↔ ∃ i ≤ n, r = [i]) :
    uniqueIndices M = (List.range (n + 1)).map fun i => [i] := by
  apply List.Perm.eq_of_pairwise (le := fun a b => IndexLe a b = true) (fun a b _ _ h1 h2 => indexLe_antisymm a b h1 h2)
    (uniqueIndices_sorted M)
  · rw [List.pairwise_map]
    refine List.pairwise_lt_range.imp fun {a b} hab => ?_
    simp [IndexLe, hab]
  · refine (List.perm_ext_iff_of_nodup (uniqueIndices_nodup M) ?_).2 ?_
    · exact (List.nodup_range).map fun a b h => by simpa using h
    · intro r
      rw [mem_uniqueIndices, h r]
      simp only [List.mem_map, List.mem_range]
      constructor
      · rintro ⟨i, hi, rfl⟩; exact ⟨i, by omega, rfl⟩
      · rintro ⟨i, hi, rfl⟩; exact ⟨i, by omega, rfl⟩

theorem collect_eq (Z : List (List ℕ × ℝ)) :
    collect (Z.map Prod.fst) (Z.map Prod.snd) =
      (uniqueIndices (Z.map Prod.fst)).map fun u => (Z.map fun z => if u = z.1 then z.2 else 0).sum := by
  unfold collect
  apply List.map_congr_left
  intro u _
  congr 1
  rw [List.length_map, map_eq_range Z ([], 0) fun z => if u = z.1 then z.2 else 0]
  apply List.map_congr_left
  intro j hj
  rw [List.mem_range] at hj
  rw [getD_map_lt _ _ _ _ hj, getD_map_lt _ _ _ _ hj]
  simp [List.getD_eq_getElem?_getD, List.getElem?_eq_getElem hj]

/-! ## C125 -/

/-- The coefficient an expansion gives to the multi-index `u` (zero if it does not occur). -/
noncomputable def coeffOf (els : List (List ℕ)) (c : List ℝ) (u : List ℕ) : ℝ :=
  (List.zipWith (fun row a => if u = row then a else 0) els c).sum

/-- C125. Sparse-grid fits are exact on the whole sparse index set, for every number of parameters, every level and both growth
rules: if the model is an expansion in multi-indices of the set, then `set_model` with numerical integration succeeds;
the index set it leaves behind is the sparse index set, each row once, in lexicographic order and the constant first; the
coefficients are those of the model; and `get_polyfit` reproduces the model at every stack of points. -/
theorem c125_sparse_recovery (params : List MParam) (hne : params ≠ []) (hP : ∀ P ∈ params, Valid P) (level : ℕ) (g : Growth)
    (hg : g ≠ .other) (orders : List (List ℕ)) (factors : List ℚ) (S E0 : List (List ℕ))
    (hS : sparseGridBasis level g params.length = .ok (orders, factors, S))
    (els : List (List ℕ)) (c : List ℝ) (hc : c.length = els.length) (hels : ∀ r ∈ els, r ∈ S) :
    ∃ E c', sparseSetModel ⟨params, E0, none⟩ level g (expansion params els c) = .ok (⟨params, E, none⟩, c') ∧
      E.Pairwise Basis.Spec.LexLt ∧ (∀ r, r ∈ E ↔ r ∈ S) ∧ E.head? = some (List.replicate params.length 0) ∧
      c' = E.map (coeffOf els c) ∧
      ∀ stack : List (List ℝ), (∀ x ∈ stack, x.length = params.length) →
        Expansion.polyfit ⟨params, E, none⟩ c' stack = .ok (stack.map (expansion params els c)) := by
  classical
  obtain ⟨n, hn⟩ : ∃ n, params.length = n + 1 := Nat.exists_eq_succ_of_ne_zero (by simpa using hne)
  obtain ⟨L, orders', factors', S', hS', hL, hLnd, hrel, hfac, _, hSmem⟩ :=
    c08_sparse_grid_basis level params.length (by simpa using hne) g hg
  rw [hS] at hS'
  simp only [Except.ok.injEq, Prod.mk.injEq] at hS'
  obtain ⟨rfl, rfl, rfl⟩ := hS'
  obtain ⟨orders', factors', S', sp, sw, qpts, qwts, hS', hstack, hmesh, _, _, _, hqlex, hqmem, _⟩ :=
    c23_sparse_mesh_partial params hne hP level g hg
  rw [hS] at hS'
  simp only [Except.ok.injEq, Prod.mk.injEq] at hS'
  obtain ⟨rfl, rfl, rfl⟩ := hS'
  have hord : orders = L.map fun r => r.map (growthFun g) := by
    have key : ∀ (L orders : List (List ℕ)),
        List.Forall₂ (fun row o => List.Forall₂ (GrowthTo g) row o) L orders → orders = L.map fun r => r.map (growthFun g) := by
      intro L orders h
      induction h with
      | nil => rfl
      | cons h1 _ ih =>
        rw [List.map_cons, ← ih]
        congr 1
        clear ih
        induction h1 with
        | nil => rfl
        | cons h2 _ ih2 => rw [List.map_cons, ← ih2, ← growthTo_iff g _ _ h2]
    exact key L orders hrel
  have hL' : ∀ row : List ℕ, row ∈ L ↔ row.length = n + 1 ∧ level ≤ row.sum ∧ row.sum ≤ level + n := by
    intro row
    rw [hL row, hn]
    constructor <;> (rintro ⟨a, b, d⟩; exact ⟨a, b, by omega⟩)
  have hol : ∀ r ∈ L, (r.map (growthFun g)).length = params.length := by
    intro r hr
    rw [List.length_map, ((hL r).1 hr).1]
  -- the tensor grids
  have hT : ∀ o : List ℕ, ∃ t : Tensor, o.length = params.length → mkTensor params o = .ok t ∧
      tensorGrid (localRules params o) = .ok (t.pts, t.wts) ∧
      tensorGridBasis o = .ok t.elements ∧
      t.pts.Pairwise Sampling.Spec.LexLt ∧ t.wts.length = t.pts.length ∧ (∀ w ∈ t.wts, 0 ≤ w) ∧
      (∀ x ∈ t.pts, x.length = params.length) ∧
      (∀ row : List ℕ, row ∈ t.elements ↔ Basis.Spec.Below row o) ∧ t.elements.Nodup ∧
      (∀ n m : List ℕ, n.length = params.length → m.length = params.length →
        ∑ j ∈ Finset.range t.pts.length, t.wts.getD j 0 *
          (basisFun params n (t.pts.getD j []) * basisFun params m (t.pts.getD j [])) = prodQuad params o n m) := by
    intro o
    by_cases ho : o.length = params.length
    · obtain ⟨t, ht⟩ := mkTensor_ok params hne hP o ho
      exact ⟨t, fun _ => ht⟩
    · exact ⟨⟨[], [], []⟩, fun h => absurd h ho⟩
  choose T hT using hT
  have hmk : orders.mapM (mkTensor params) = .ok (orders.map T) := by
    apply Sampling.mapM_ok T
    intro o ho
    rw [hord] at ho
    obtain ⟨r, hr, rfl⟩ := List.mem_map.1 ho
    exact (hT _ (hol r hr)).1
  have hsub : ∀ r ∈ L, ∀ x ∈ (T (r.map (growthFun g))).pts, x ∈ qpts := by
    intro r hr x hx
    rw [hqmem x]
    have hgr : orders.mapM (fun o => tensorGrid (localRules params o)) = .ok (orders.map fun o => ((T o).pts, (T o).wts)) := by
      apply Sampling.mapM_ok
      intro o ho
      rw [hord] at ho
      obtain ⟨r, hr, rfl⟩ := List.mem_map.1 ho
      exact (hT _ (hol r hr)).2.1
    unfold sparseStack at hstack
    rw [hgr] at hstack
    simp only [bind, Except.bind, pure, Except.pure, Except.ok.injEq, Prod.mk.injEq] at hstack
    rw [← hstack.1, List.map_map]
    apply List.mem_flatten.2
    refine ⟨(T (r.map (growthFun g))).pts, List.mem_map.2 ⟨r.map (growthFun g), ?_, rfl⟩, hx⟩
    rw [hord]
    exact List.mem_map.2 ⟨r, hr, rfl⟩
  set f := expansion params els c with hf
  -- blocks
  set v : Tensor → List ℕ → ℝ := fun t row =>
    ∑ j ∈ Finset.range t.pts.length, t.wts.getD j 0 * (basisFun params row (t.pts.getD j []) * f (t.pts.getD j [])) with hv
  have hzip : (orders.map T).zip factors = L.map fun r => (T (r.map (growthFun g)),
      (-1) ^ (level + params.length - 1 - r.sum) * ((params.length - 1).choose (level + params.length - 1 - r.sum) : ℚ)) := by
    rw [hord, hfac, List.map_map, List.zip_map']
    rfl
  have hblocks : ∀ p ∈ (orders.map T).zip factors, p.1.elements.Nodup ∧
      tensorCoefficients ⟨params, E0, none⟩ qpts (qpts.map f) p.1 p.2 =
        .ok (p.1.elements.map fun row => v p.1 row * (p.2 : ℝ)) := by
    intro p hp
    rw [hzip] at hp
    obtain ⟨r, hr, rfl⟩ := List.mem_map.1 hp
    obtain ⟨_, _, t3, t4, t5, t6, t7, t8, t9, _⟩ := hT _ (hol r hr)
    exact ⟨t9, tensorCoefficients_eq ⟨params, E0, none⟩ rfl hne _ (hol r hr) _ qpts f _ t4 t5 t6 t7 t3 t8 hqlex (hsub r hr)⟩
  obtain ⟨Z, z1, z2, z3⟩ := sparseBlocks_eq ⟨params, E0, none⟩ qpts (qpts.map f) v _ hblocks []
  have hSL : ∀ u, u ∈ S ↔ ∃ r ∈ L, Basis.Spec.Below u (r.map (growthFun g)) := by
    intro u
    rw [hSmem u, hord]
    constructor
    · rintro ⟨o, ho, hu⟩
      obtain ⟨r, hr, rfl⟩ := List.mem_map.1 ho
      exact ⟨r, hr, hu⟩
    · rintro ⟨r, hr, hu⟩
      exact ⟨_, List.mem_map.2 ⟨r, hr, rfl⟩, hu⟩
  have hSlen : ∀ u ∈ S, u.length = params.length := by
    intro u hu
    obtain ⟨r, hr, hb⟩ := (hSL u).1 hu
    rw [hb.length_eq, hol r hr]
  have hMem : ∀ r, r ∈ Z.map Prod.fst ↔ r ∈ S := by
    intro u
    rw [z2 u, hSL u, hzip]
    simp only [List.map_nil, List.not_mem_nil, false_or, List.mem_map]
    constructor
    · rintro ⟨p, ⟨r, hr, rfl⟩, hu⟩
      exact ⟨r, hr, ((hT _ (hol r hr)).2.2.2.2.2.2.2.1 u).1 hu⟩
    · rintro ⟨r, hr, hu⟩
      exact ⟨_, ⟨r, hr, rfl⟩, ((hT _ (hol r hr)).2.2.2.2.2.2.2.1 u).2 hu⟩
  -- the value of a coefficient
  have hfx : ∀ x, f x = ∑ i ∈ Finset.range els.length, c.getD i 0 * basisFun params (els.getD i []) x := by
    intro x
    rw [hf, expansion, zipWith_sum _ _ _ [] 0 hc.symm]
  have hcoef : ∀ u, u ∈ S → (Z.map fun z => if u = z.1 then z.2 else 0).sum = coeffOf els c u := by
    intro u hu
    rw [z3 u, hzip, List.map_nil, List.sum_nil, zero_add, List.map_map, coeffOf, zipWith_sum _ _ _ [] 0 hc.symm]
    have e1 : ∀ r ∈ L, ((fun p : Tensor × ℚ => (p.2 : ℝ) * if u ∈ p.1.elements then v p.1 u else 0) ∘ fun r : List ℕ =>
        (T (r.map (growthFun g)), (-1) ^ (level + params.length - 1 - r.sum) *
          ((params.length - 1).choose (level + params.length - 1 - r.sum) : ℚ))) r =
        ∑ i ∈ Finset.range els.length, c.getD i 0 * (((-1 : ℝ) ^ (level + n - r.sum) * (n.choose (level + n - r.sum) : ℝ)) *
          if Basis.Spec.Below u (r.map (growthFun g)) then prodQuad params (r.map (growthFun g)) u (els.getD i []) else 0) := by
      intro r hr
      obtain ⟨_, _, _, _, _, _, _, t8, _, t10⟩ := hT _ (hol r hr)
      simp only [Function.comp, t8 u]
      rw [hn, show level + (n + 1) - 1 = level + n by omega, Nat.add_sub_cancel]
      push_cast
      by_cases hb : Basis.Spec.Below u (r.map (growthFun g))
      · simp only [if_pos hb, hv, hfx]
        rw [Finset.mul_sum]
        simp only [Finset.mul_sum]
        rw [Finset.sum_comm]
        apply Finset.sum_congr rfl
        intro i hi
        rw [Finset.mem_range] at hi
        have hei : (els.getD i []).length = params.length := by
          apply hSlen _ (hels _ _)
          rw [List.getD_eq_getElem?_getD, List.getElem?_eq_getElem hi]
          exact List.getElem_mem hi
        rw [← t10 u (els.getD i []) (hSlen u hu) hei, Finset.mul_sum, Finset.mul_sum]
        apply Finset.sum_congr rfl
        intro j _
        ring
      · simp [if_neg hb]
    rw [List.map_congr_left e1, ← List.sum_toFinset _ hLnd, Finset.sum_comm]
    apply Finset.sum_congr rfl
    intro i hi
    rw [Finset.mem_range] at hi
    have hmem : els.getD i [] ∈ S := by
      apply hels
      rw [List.getD_eq_getElem?_getD, List.getElem?_eq_getElem hi]
      exact List.getElem_mem hi
    obtain ⟨r0, hr0, hb0⟩ := (hSL _).1 hmem
    have := sparse_orth params hP level n hn g L hL' hLnd u (els.getD i []) r0 (hSlen u hu) hr0 hb0
    rw [← List.sum_toFinset _ hLnd] at this
    rw [← Finset.mul_sum, this]
    split_ifs <;> ring
  -- the index set
  set E := uniqueIndices (Z.map Prod.fst) with hE
  have hEmem : ∀ r, r ∈ E ↔ r ∈ S := fun r => by rw [hE, mem_uniqueIndices, hMem r]
  have hElex : E.Pairwise Basis.Spec.LexLt :=
    uniqueIndices_lex _ params.length fun r hr => hSlen r ((hMem r).1 hr)
  have hEnd : E.Nodup := uniqueIndices_nodup _
  have hzero : List.replicate params.length 0 ∈ E := by
    rw [hEmem, hSL]
    refine ⟨(level + n) :: List.replicate n 0, (hL' _).2 ⟨by simp, by simp, by simp⟩, ?_⟩
    rw [hn]
    have : ∀ r : List ℕ, Basis.Spec.Below (List.replicate r.length 0) r := by
      intro r
      induction r with
      | nil => exact List.Forall₂.nil
      | cons a r ih => exact List.Forall₂.cons (Nat.zero_le _) ih
    have := this (((level + n) :: List.replicate n 0).map (growthFun g))
    simpa using this
  have hc' : collect (Z.map Prod.fst) (Z.map Prod.snd) = E.map (coeffOf els c) := by
    rw [collect_eq]
    apply List.map_congr_left
    intro u hu
    exact hcoef u ((hEmem u).1 hu)
  refine ⟨E, E.map (coeffOf els c), ?_, hElex, hEmem, ?_, rfl, ?_⟩
  · unfold sparseSetModel
    simp only [hS, hmesh, hmk]
    simp only [List.map_nil] at z1
    rw [z1]
    simp only
    rw [hc']
  · cases hEE : E with
    | nil => rw [hEE] at hzero; simp at hzero
    | cons h t =>
      rw [hEE] at hzero hElex
      rcases List.mem_cons.1 hzero with h0 | h0
      · rw [h0]; rfl
      · exfalso
        obtain ⟨pre, x, y, s, t', _, h2, hxy⟩ := (List.pairwise_cons.1 hElex).1 _ h0
        have : y ∈ List.replicate params.length 0 := by rw [h2]; simp
        rw [List.mem_replicate] at this
        omega
  · intro stack hst
    have hreg : Regular ⟨params, E, none⟩ := by
      refine ⟨?_, ?_, ?_, ?_⟩
      · intro h
        simp only at h
        rw [h] at hzero
        simp at hzero
      · intro r hr
        exact hSlen r ((hEmem r).1 hr)
      · intro h1
        simp only [Expansion.dims] at h1
        have hn0 : n = 0 := by omega
        subst hn0
        refine ⟨growthFun g level, ?_⟩
        apply uniqueIndices_one
        intro r
        rw [hMem r, hSL r]
        constructor
        · rintro ⟨q, hq, hb⟩
          have hq' := (hL' q).1 hq
          obtain ⟨a, rfl⟩ := List.length_eq_one_iff.1 hq'.1
          have : a = level := by simp at hq'; omega
          subst this
          obtain ⟨i, rfl⟩ := List.length_eq_one_iff.1 (show r.length = 1 by rw [hb.length_eq]; simp)
          simp [Basis.Spec.Below] at hb
          exact ⟨i, hb, rfl⟩
        · rintro ⟨i, hi, rfl⟩
          exact ⟨[level], (hL' _).2 ⟨rfl, by simp, by simp⟩, by simpa [Basis.Spec.Below] using hi⟩
      · intro R h; cases h
    rw [polyfit_eq _ hreg _ (by simp) stack hst]
    congr 1
    apply List.map_congr_left
    intro x _
    have heff : Expansion.eff ⟨params, E, none⟩ (E.map (coeffOf els c)) = E.map (coeffOf els c) := by
      unfold Expansion.eff
      split_ifs <;> rfl
    rw [heff, hfx x]
    simp only
    unfold expansion
    rw [List.zipWith_map_right, List.zipWith_self, ← List.sum_toFinset _ hEnd]
    simp only [coeffOf]
    have e2 : ∀ u, (List.zipWith (fun row a => if u = row then a else 0) els c).sum =
        ∑ i ∈ Finset.range els.length, if u = els.getD i [] then c.getD i 0 else 0 := by
      intro u
      rw [zipWith_sum _ _ _ [] 0 hc.symm]
    simp only [e2, Finset.sum_mul]
    rw [Finset.sum_comm]
    apply Finset.sum_congr rfl
    intro i hi
    rw [Finset.mem_range] at hi
    have hmem : els.getD i [] ∈ E := by
      rw [hEmem]
      apply hels
      rw [List.getD_eq_getElem?_getD, List.getElem?_eq_getElem hi]
      exact List.getElem_mem hi
    rw [Finset.sum_eq_single (els.getD i [])]
    · rw [if_pos rfl]
    · intro b _ hb
      rw [if_neg hb, zero_mul]
    · intro h
      exact absurd (List.mem_toFinset.2 hmem) h

/-- The hypotheses of `c125_sparse_recovery` hold for two uniform parameters, level two and linear growth with the model
`1 + 2 φ₂(x) + 3 ψ₁(y) φ₁(x)`: the multi-indices occur in the sparse index set. -/
example : ∃ params : List MParam, params.length = 2 ∧ (∀ P ∈ params, Valid P) ∧ Growth.linear ≠ .other ∧
    ∃ orders factors S, sparseGridBasis 2 .linear params.length = .ok (orders, factors, S) ∧
      ([1, 2, 3] : List ℝ).length = [[0, 0], [2, 0], [1, 1]].length ∧ ∀ r ∈ [[0, 0], [2, 0], [1, 1]], r ∈ S := by
  obtain ⟨P, hP⟩ := exists_uniform
  refine ⟨[P, P], rfl, by simp [hP.valid], by decide, ?_⟩
  obtain ⟨L, orders, factors, S, h1, h2, _, h4, _, _, h7⟩ := c08_sparse_grid_basis 2 2 (by decide) .linear (by decide)
  refine ⟨orders, factors, S, h1, rfl, ?_⟩
  have hord : ∀ r : List ℕ, r ∈ L → ∃ o ∈ orders, List.Forall₂ (GrowthTo .linear) r o := by
    intro r hr
    obtain ⟨i, hi, rfl⟩ := List.getElem_of_mem hr
    have hi' : i < orders.length := h4.length_eq ▸ hi
    exact ⟨orders[i], List.getElem_mem hi', (List.forall₂_iff_get.1 h4).2 i hi hi'⟩
  have up : ∀ (r o : List ℕ), List.Forall₂ (GrowthTo .linear) r o → Basis.Spec.Below r o := by
    intro r o h
    refine h.imp ?_
    intro a b hab
    exact le_of_eq (growthTo_iff _ a b hab).symm
  have low : ∀ r q : List ℕ, q ∈ L → Basis.Spec.Below r q → r ∈ S := by
    intro r q hq hrq
    obtain ⟨o, ho, hqo⟩ := hord q hq
    refine (h7 r).2 ⟨o, ho, ?_⟩
    have h3 := up q o hqo
    clear ho hq hqo
    induction hrq generalizing o with
    | nil => exact h3
    | cons h _ ih =>
      cases h3 with
      | cons h' h'' => exact List.Forall₂.cons (le_trans h h') (ih _ h'')
  intro r hr
  simp only [List.mem_cons, List.not_mem_nil, or_false] at hr
  rcases hr with rfl | rfl | rfl
  · exact low _ [1, 1] ((h2 _).2 (by decide)) (by simp [Basis.Spec.Below])
  · exact low _ [2, 0] ((h2 _).2 (by decide)) (by simp [Basis.Spec.Below])
  · exact low _ [1, 1] ((h2 _).2 (by decide)) (by simp [Basis.Spec.Below])

end EQ.Poly
