import Verif.Poly.SparseProps
import Verif.Stats.BestProps
import Verif.Stats.SpaceProps

/-!
# Fits on sparse grids: the coefficients and the error (C206)
-/

namespace EQ.Stats
open EQ.Param EQ.ParamSpec EQ.Basis EQ.Sampling EQ.Sampling.Spec EQ.Poly EQ.Poly.Spec EQ.Stats.Spec Set

/-! ## Specification -/

/-- The coefficient of the multi-index `u` of the fit on the tensor grid with the orders `o`: the weighted sum of the products of the basis function and the model,
nothing if `u` exceeds the orders. -/
noncomputable def gridCoeff (params : List MParam) (o : List ℕ) (f : List ℝ → ℝ) (u : List ℕ) : ℝ := by
  classical
  exact if Basis.Spec.Below u o then gridSum (localRules params o) (fun x => basisFun params u x * f x) else 0

/-! ## Lemmas -/

/-- The sorted distinct rows depend on the members only. -/
theorem uniqueIndices_congr (M N : List (List ℕ)) (h : ∀ r, r ∈ M ↔ r ∈ N) : uniqueIndices M = uniqueIndices N := by
  apply List.Perm.eq_of_pairwise (le := fun a b => IndexLe a b = true) (fun a b _ _ h1 h2 => indexLe_antisymm a b h1 h2)
    (uniqueIndices_sorted M) (uniqueIndices_sorted N)
  rw [List.perm_ext_iff_of_nodup (uniqueIndices_nodup M) (uniqueIndices_nodup N)]
  intro r
  rw [mem_uniqueIndices, mem_uniqueIndices, h r]

/-- Sums of squares of combinations. -/
theorem combine_sq {ι κ : Type} (s : Finset ι) (ε : ℝ) (hε : 0 ≤ ε) (D : κ → ι → ℝ) (a : κ → ℝ) (ts : List κ) (h : ∀ t ∈ ts, ∑ u ∈ s, D t u ^ 2 ≤ ε ^ 2) :
    ∑ u ∈ s, ((ts.map fun t => a t * D t u).sum) ^ 2 ≤ ((ts.map fun t => |a t|).sum * ε) ^ 2 := by
  induction ts with
  | nil => simp
  | cons t ts ih =>
    have ih := ih fun q hq => h q (by simp [hq])
    have ht := h t (by simp)
    simp only [List.map_cons, List.sum_cons]
    set A : ι → ℝ := fun u => (ts.map fun t => a t * D t u).sum with hA
    set K := (ts.map fun t => |a t|).sum with hK
    have hK0 : 0 ≤ K := List.sum_nonneg fun x hx => by
      obtain ⟨q, _, rfl⟩ := List.mem_map.1 hx
      exact abs_nonneg _
    have hcs := Finset.sum_mul_sq_le_sq_mul_sq s (fun u => D t u) A
    have hA' : ∑ u ∈ s, A u ^ 2 ≤ (K * ε) ^ 2 := ih
    have hx : |∑ u ∈ s, D t u * A u| ≤ ε * (K * ε) := by
      apply abs_le_of_sq_le_sq _ (by positivity)
      refine hcs.trans ?_
      rw [mul_pow]
      exact mul_le_mul ht hA' (Finset.sum_nonneg fun _ _ => sq_nonneg _) (sq_nonneg _)
    have hexp : ∑ u ∈ s, (a t * D t u + A u) ^ 2 = a t ^ 2 * ∑ u ∈ s, D t u ^ 2 + 2 * (a t * ∑ u ∈ s, D t u * A u) + ∑ u ∈ s, A u ^ 2 := by
      rw [Finset.mul_sum, Finset.mul_sum, Finset.mul_sum, ← Finset.sum_add_distrib, ← Finset.sum_add_distrib]
      exact Finset.sum_congr rfl fun u _ => by ring
    have e1 : a t * ∑ u ∈ s, D t u * A u ≤ |a t| * (ε * (K * ε)) := by
      refine (le_abs_self _).trans ?_
      rw [abs_mul]
      exact mul_le_mul_of_nonneg_left hx (abs_nonneg _)
    have e2 : a t ^ 2 * ∑ u ∈ s, D t u ^ 2 ≤ |a t| ^ 2 * ε ^ 2 := by
      rw [sq_abs]
      exact mul_le_mul_of_nonneg_left ht (sq_nonneg _)
    show ∑ u ∈ s, (a t * D t u + A u) ^ 2 ≤ _
    rw [hexp]
    nlinarith

/-- Bessel's inequality for weighted sums. -/
theorem bessel_sum {ι : Type} [DecidableEq ι] (s : Finset ι) (n : ℕ) (w y : ℕ → ℝ) (hw : ∀ j ∈ Finset.range n, 0 ≤ w j) (φ : ι → ℕ → ℝ)
    (horth : ∀ a ∈ s, ∀ b ∈ s, ∑ j ∈ Finset.range n, w j * (φ a j * φ b j) = if a = b then 1 else 0) :
    ∑ a ∈ s, (∑ j ∈ Finset.range n, w j * (φ a j * y j)) ^ 2 ≤ ∑ j ∈ Finset.range n, w j * y j ^ 2 := by
  set c : ι → ℝ := fun a => ∑ j ∈ Finset.range n, w j * (φ a j * y j) with hc
  have h0 : 0 ≤ ∑ j ∈ Finset.range n, w j * (y j - ∑ a ∈ s, c a * φ a j) ^ 2 :=
    Finset.sum_nonneg fun j hj => mul_nonneg (hw j hj) (sq_nonneg _)
  have h1 : ∑ j ∈ Finset.range n, w j * (y j * ∑ a ∈ s, c a * φ a j) = ∑ a ∈ s, c a ^ 2 := by
    simp only [Finset.mul_sum]
    rw [Finset.sum_comm]
    refine Finset.sum_congr rfl fun a _ => ?_
    rw [sq]
    conv_rhs => rw [show c a * c a = c a * ∑ j ∈ Finset.range n, w j * (φ a j * y j) from rfl, Finset.mul_sum]
    exact Finset.sum_congr rfl fun j _ => by ring
  have h2 : ∑ j ∈ Finset.range n, w j * (∑ a ∈ s, c a * φ a j) ^ 2 = ∑ a ∈ s, c a ^ 2 := by
    have : ∀ j, w j * (∑ a ∈ s, c a * φ a j) ^ 2 = ∑ a ∈ s, ∑ b ∈ s, c a * c b * (w j * (φ a j * φ b j)) := by
      intro j
      rw [sq, Finset.sum_mul_sum, Finset.mul_sum]
      refine Finset.sum_congr rfl fun a _ => ?_
      rw [Finset.mul_sum]
      exact Finset.sum_congr rfl fun b _ => by ring
    simp only [this]
    rw [Finset.sum_comm]
    refine Finset.sum_congr rfl fun a ha => ?_
    rw [Finset.sum_comm]
    simp only [← Finset.mul_sum]
    rw [Finset.sum_congr rfl fun b hb => by rw [horth a ha b hb]]
    simp [ha, sq]
  have h3 : ∑ j ∈ Finset.range n, w j * (y j - ∑ a ∈ s, c a * φ a j) ^ 2 = ∑ j ∈ Finset.range n, w j * y j ^ 2 -
      2 * ∑ j ∈ Finset.range n, w j * (y j * ∑ a ∈ s, c a * φ a j) + ∑ j ∈ Finset.range n, w j * (∑ a ∈ s, c a * φ a j) ^ 2 := by
    rw [Finset.mul_sum, ← Finset.sum_sub_distrib, ← Finset.sum_add_distrib]
    exact Finset.sum_congr rfl fun j _ => by ring
  rw [h3, h1, h2] at h0
  linarith

/-- A fit on a sparse grid for any model: it succeeds, its index set has the members of the sparse index set, and its coefficients are combined from those of the
fits on the tensor grids. -/
theorem sparse_fit (params : List MParam) (hne : params ≠ []) (hP : ∀ P ∈ params, Valid P) (level : ℕ) (g : Growth)
    (hg : g ≠ .other) (orders : List (List ℕ)) (factors : List ℚ) (S E0 : List (List ℕ))
    (hS : sparseGridBasis level g params.length = .ok (orders, factors, S)) :
    ∃ E : List (List ℕ), E.Pairwise Basis.Spec.LexLt ∧ E.Nodup ∧ (∀ r, r ∈ E ↔ r ∈ S) ∧ E.head? = some (List.replicate params.length 0) ∧ Regular ⟨params, E, none⟩ ∧
      (1 ≤ level → 2 ≤ E.length) ∧ (∀ o ∈ orders, o.length = params.length) ∧
      ∀ f : List ℝ → ℝ, sparseSetModel ⟨params, E0, none⟩ level g f = .ok (⟨params, E, none⟩,
        E.map fun u => ((orders.zip factors).map fun p => (p.2 : ℝ) * gridCoeff params p.1 f u).sum) := by
  classical
  obtain ⟨n, hn⟩ : ∃ n, params.length = n + 1 := Nat.exists_eq_succ_of_ne_zero (by simpa using hne)
  obtain ⟨L, orders', factors', S', hS', hL, hLnd, hrel, hfac, _, hSmem⟩ :=
    c08_sparse_grid_basis level params.length (by simpa using hne) g hg
  rw [hS] at hS'
  simp only [Except.ok.injEq, Prod.mk.injEq] at hS'
  obtain ⟨rfl, rfl, rfl⟩ := hS'
  obtain ⟨orders', factors', S', sp, sw, qpts, qwts, hS', hstack, hmesh, _, _, _, hqlex, hqmem, _⟩ :=
    c23_sparse_mesh_partial params hne hP level g hg
  rw [hS] at hS'
  simp only [Except.ok.injEq, Prod.mk.injEq] at hS'
  obtain ⟨rfl, rfl, rfl⟩ := hS'
  have hord : orders = L.map fun r => r.map (growthFun g) := by
    have key : ∀ (L orders : List (List ℕ)),
        List.Forall₂ (fun row o => List.Forall₂ (GrowthTo g) row o) L orders → orders = L.map fun r => r.map (growthFun g) := by
      intro L orders h
      induction h with
      | nil => rfl
      | cons h1 _ ih =>
        rw [List.map_cons, ← ih]
        congr 1
        clear ih
        induction h1 with
        | nil => rfl
        | cons h2 _ ih2 => rw [List.map_cons, ← ih2, ← growthTo_iff g _ _ h2]
    exact key L orders hrel
  have hL' : ∀ row : List ℕ, row ∈ L ↔ row.length = n + 1 ∧ level ≤ row.sum ∧ row.sum ≤ level + n := by
    intro row
    rw [hL row, hn]
    constructor <;> (rintro ⟨a, b, d⟩; exact ⟨a, b, by omega⟩)
  have hol : ∀ r ∈ L, (r.map (growthFun g)).length = params.length := by
    intro r hr
    rw [List.length_map, ((hL r).1 hr).1]
  -- the tensor grids
  have hT : ∀ o : List ℕ, ∃ t : Tensor, o.length = params.length → mkTensor params o = .ok t ∧
      tensorGrid (localRules params o) = .ok (t.pts, t.wts) ∧
      tensorGridBasis o = .ok t.elements ∧
      t.pts.Pairwise Sampling.Spec.LexLt ∧ t.wts.length = t.pts.length ∧ (∀ w ∈ t.wts, 0 ≤ w) ∧
      (∀ x ∈ t.pts, x.length = params.length) ∧
      (∀ row : List ℕ, row ∈ t.elements ↔ Basis.Spec.Below row o) ∧ t.elements.Nodup ∧
      (∀ n m : List ℕ, n.length = params.length → m.length = params.length →
        ∑ j ∈ Finset.range t.pts.length, t.wts.getD j 0 *
          (basisFun params n (t.pts.getD j []) * basisFun params m (t.pts.getD j [])) = prodQuad params o n m) := by
    intro o
    by_cases ho : o.length = params.length
    · obtain ⟨t, ht⟩ := mkTensor_ok params hne hP o ho
      exact ⟨t, fun _ => ht⟩
    · exact ⟨⟨[], [], []⟩, fun h => absurd h ho⟩
  choose T hT using hT
  have hmk : orders.mapM (mkTensor params) = .ok (orders.map T) := by
    apply Sampling.mapM_ok T
    intro o ho
    rw [hord] at ho
    obtain ⟨r, hr, rfl⟩ := List.mem_map.1 ho
    exact (hT _ (hol r hr)).1
  have hsub : ∀ r ∈ L, ∀ x ∈ (T (r.map (growthFun g))).pts, x ∈ qpts := by
    intro r hr x hx
    rw [hqmem x]
    have hgr : orders.mapM (fun o => tensorGrid (localRules params o)) = .ok (orders.map fun o => ((T o).pts, (T o).wts)) := by
      apply Sampling.mapM_ok
      intro o ho
      rw [hord] at ho
      obtain ⟨r, hr, rfl⟩ := List.mem_map.1 ho
      exact (hT _ (hol r hr)).2.1
    unfold sparseStack at hstack
    rw [hgr] at hstack
    simp only [bind, Except.bind, pure, Except.pure, Except.ok.injEq, Prod.mk.injEq] at hstack
    rw [← hstack.1, List.map_map]
    apply List.mem_flatten.2
    refine ⟨(T (r.map (growthFun g))).pts, List.mem_map.2 ⟨r.map (growthFun g), ?_, rfl⟩, hx⟩
    rw [hord]
    exact List.mem_map.2 ⟨r, hr, rfl⟩
  have hSL : ∀ u, u ∈ S ↔ ∃ r ∈ L, Basis.Spec.Below u (r.map (growthFun g)) := by
    intro u
    rw [hSmem u, hord]
    constructor
    · rintro ⟨o, ho, hu⟩
      obtain ⟨r, hr, rfl⟩ := List.mem_map.1 ho
      exact ⟨r, hr, hu⟩
    · rintro ⟨r, hr, hu⟩
      exact ⟨_, List.mem_map.2 ⟨r, hr, rfl⟩, hu⟩
  have hSlen : ∀ u ∈ S, u.length = params.length := by
    intro u hu
    obtain ⟨r, hr, hb⟩ := (hSL u).1 hu
    rw [hb.length_eq, hol r hr]
  set E := uniqueIndices S with hE
  have hEmem : ∀ r, r ∈ E ↔ r ∈ S := fun r => by rw [hE, mem_uniqueIndices]
  have hElex : E.Pairwise Basis.Spec.LexLt := uniqueIndices_lex _ params.length hSlen
  have hEnd : E.Nodup := uniqueIndices_nodup _
  have below0 : ∀ r : List ℕ, Basis.Spec.Below (List.replicate r.length 0) r := by
    intro r
    induction r with
    | nil => exact List.Forall₂.nil
    | cons a r ih => exact List.Forall₂.cons (Nat.zero_le _) ih
  have hzero : List.replicate params.length 0 ∈ E := by
    rw [hEmem, hSL]
    refine ⟨(level + n) :: List.replicate n 0, (hL' _).2 ⟨by simp, by simp, by simp⟩, ?_⟩
    rw [hn]
    have := below0 (((level + n) :: List.replicate n 0).map (growthFun g))
    simpa using this
  have hhead : E.head? = some (List.replicate params.length 0) := by
    cases hEE : E with
    | nil => rw [hEE] at hzero; simp at hzero
    | cons h t =>
      rw [hEE] at hzero hElex
      rcases List.mem_cons.1 hzero with h0 | h0
      · rw [h0]; rfl
      · exfalso
        obtain ⟨pre, x, y, s, t', _, h2, hxy⟩ := (List.pairwise_cons.1 hElex).1 _ h0
        have : y ∈ List.replicate params.length 0 := by rw [h2]; simp
        rw [List.mem_replicate] at this
        omega
  have hreg : Regular ⟨params, E, none⟩ := by
    refine ⟨?_, ?_, ?_, ?_⟩
    · intro h
      simp only at h
      rw [h] at hzero
      simp at hzero
    · intro r hr
      exact hSlen r ((hEmem r).1 hr)
    · intro h1
      simp only [Expansion.dims] at h1
      have hn0 : n = 0 := by omega
      subst hn0
      refine ⟨growthFun g level, ?_⟩
      apply uniqueIndices_one
      intro r
      rw [hSL r]
      constructor
      · rintro ⟨q, hq, hb⟩
        have hq' := (hL' q).1 hq
        obtain ⟨a, rfl⟩ := List.length_eq_one_iff.1 hq'.1
        have : a = level := by simp at hq'; omega
        subst this
        obtain ⟨i, rfl⟩ := List.length_eq_one_iff.1 (show r.length = 1 by rw [hb.length_eq]; simp)
        simp [Basis.Spec.Below] at hb
        exact ⟨i, hb, rfl⟩
      · rintro ⟨i, hi, rfl⟩
        exact ⟨[level], (hL' _).2 ⟨rfl, by simp, by simp⟩, by simpa [Basis.Spec.Below] using hi⟩
    · intro R h; cases h
  have htwo : 1 ≤ level → 2 ≤ E.length := by
    intro hl
    have h1 : (1 :: List.replicate n 0) ∈ E := by
      rw [hEmem, hSL]
      refine ⟨(level + n) :: List.replicate n 0, (hL' _).2 ⟨by simp, by simp, by simp⟩, ?_⟩
      refine List.Forall₂.cons ?_ ?_
      · have : ∀ k, 1 ≤ k → 1 ≤ growthFun g k := by
          intro k hk
          cases g with
          | linear => simpa [growthFun] using hk
          | exponential =>
            simp only [growthFun]
            rw [if_neg (by omega)]
            exact Nat.one_le_two_pow
          | other => exact absurd rfl hg
        exact this _ (by omega)
      · have := below0 ((List.replicate n 0).map (growthFun g))
        simp only [List.map_replicate, List.length_replicate] at this ⊢
        exact this
    have hne01 : List.replicate params.length 0 ≠ 1 :: List.replicate n 0 := by
      rw [hn, List.replicate_succ]
      simp
    have hc := List.toFinset_card_of_nodup hEnd
    rw [← hc]
    exact Finset.one_lt_card.2 ⟨_, List.mem_toFinset.2 hzero, _, List.mem_toFinset.2 h1, hne01⟩
  refine ⟨E, hElex, hEnd, hEmem, hhead, hreg, htwo, ?_, fun f => ?_⟩
  · intro o ho
    rw [hord] at ho
    obtain ⟨r, hr, rfl⟩ := List.mem_map.1 ho
    exact hol r hr
  set v : Tensor → List ℕ → ℝ := fun t row =>
    ∑ j ∈ Finset.range t.pts.length, t.wts.getD j 0 * (basisFun params row (t.pts.getD j []) * f (t.pts.getD j [])) with hv
  have hzip : (orders.map T).zip factors = L.map fun r => (T (r.map (growthFun g)),
      (-1) ^ (level + params.length - 1 - r.sum) * ((params.length - 1).choose (level + params.length - 1 - r.sum) : ℚ)) := by
    rw [hord, hfac, List.map_map, List.zip_map']
    rfl
  have hblocks : ∀ p ∈ (orders.map T).zip factors, p.1.elements.Nodup ∧
      tensorCoefficients ⟨params, E0, none⟩ qpts (qpts.map f) p.1 p.2 =
        .ok (p.1.elements.map fun row => v p.1 row * (p.2 : ℝ)) := by
    intro p hp
    rw [hzip] at hp
    obtain ⟨r, hr, rfl⟩ := List.mem_map.1 hp
    obtain ⟨_, _, t3, t4, t5, t6, t7, t8, t9, _⟩ := hT _ (hol r hr)
    exact ⟨t9, tensorCoefficients_eq ⟨params, E0, none⟩ rfl hne _ (hol r hr) _ qpts f _ t4 t5 t6 t7 t3 t8 hqlex (hsub r hr)⟩
  obtain ⟨Z, z1, z2, z3⟩ := sparseBlocks_eq ⟨params, E0, none⟩ qpts (qpts.map f) v _ hblocks []
  have hMem : ∀ r, r ∈ Z.map Prod.fst ↔ r ∈ S := by
    intro u
    rw [z2 u, hSL u, hzip]
    simp only [List.map_nil, List.not_mem_nil, false_or, List.mem_map]
    constructor
    · rintro ⟨p, ⟨r, hr, rfl⟩, hu⟩
      exact ⟨r, hr, ((hT _ (hol r hr)).2.2.2.2.2.2.2.1 u).1 hu⟩
    · rintro ⟨r, hr, hu⟩
      exact ⟨_, ⟨r, hr, rfl⟩, ((hT _ (hol r hr)).2.2.2.2.2.2.2.1 u).2 hu⟩
  have hEZ : uniqueIndices (Z.map Prod.fst) = E := uniqueIndices_congr _ _ hMem
  unfold sparseSetModel
  simp only [hS, hmesh, hmk]
  simp only [List.map_nil] at z1
  rw [z1]
  simp only
  rw [collect_eq, hEZ]
  congr 2
  apply List.map_congr_left
  intro u hu
  rw [z3 u, hzip, List.map_nil, List.sum_nil, zero_add, List.map_map]
  have hz2 : orders.zip factors = L.map fun r => (r.map (growthFun g),
      (-1) ^ (level + params.length - 1 - r.sum) * ((params.length - 1).choose (level + params.length - 1 - r.sum) : ℚ)) := by
    rw [hord, hfac, List.zip_map']
  rw [hz2, List.map_map]
  congr 1
  apply List.map_congr_left
  intro r hr
  obtain ⟨_, t2, _, _, _, _, _, t8, _, _⟩ := hT _ (hol r hr)
  simp only [Function.comp, t8 u, gridCoeff]
  congr 1
  by_cases hb : Basis.Spec.Below u (r.map (growthFun g))
  · rw [if_pos hb, if_pos hb, ← range_gridSum params hne _ (hol r hr) _ _ t2]
  · rw [if_neg hb, if_neg hb]

/-- The coefficients of a fit on a tensor grid are bounded by the values of the model on the grid. -/
theorem gridCoeff_sq (params : List MParam) (hne : params ≠ []) (hP : ∀ P ∈ params, Valid P) (o : List ℕ) (ho : o.length = params.length) (f : List ℝ → ℝ) (ε : ℝ)
    (hε : ∀ pts wts, tensorGrid (localRules params o) = .ok (pts, wts) → ∀ x ∈ pts, |f x| ≤ ε) (s : Finset (List ℕ)) :
    ∑ u ∈ s, gridCoeff params o f u ^ 2 ≤ ε ^ 2 := by
  classical
  obtain ⟨pts, wts, h1, _, h3, h4, h5, h6⟩ := grid_facts params hne hP o ho
  have hw : ∀ j ∈ Finset.range pts.length, 0 ≤ wts.getD j 0 := by
    intro j hj
    rw [getD_of_lt _ _ _ (h3 ▸ Finset.mem_range.1 hj)]
    exact (h4 _ (List.getElem_mem _)).le
  have hb := bessel_sum (s.filter fun u => Basis.Spec.Below u o) pts.length (fun j => wts.getD j 0) (fun j => f (pts.getD j [])) hw
    (fun u j => basisFun params u (pts.getD j [])) (fun a ha b hb => h6 a b (Finset.mem_filter.1 ha).2 (Finset.mem_filter.1 hb).2)
  have e : ∑ u ∈ s, gridCoeff params o f u ^ 2 = ∑ u ∈ s.filter (fun u => Basis.Spec.Below u o),
      (∑ j ∈ Finset.range pts.length, wts.getD j 0 * (basisFun params u (pts.getD j []) * f (pts.getD j []))) ^ 2 := by
    rw [Finset.sum_filter]
    refine Finset.sum_congr rfl fun u _ => ?_
    unfold gridCoeff
    by_cases h : Basis.Spec.Below u o
    · rw [if_pos h, if_pos h, range_gridSum params hne o ho pts wts h1 fun x => basisFun params u x * f x]
    · rw [if_neg h, if_neg h]
      norm_num
  rw [e]
  refine hb.trans ?_
  have hw1 := wts_one params hne hP o ho pts wts h1
  rw [← one_mul (ε ^ 2), ← hw1, Finset.sum_mul]
  refine Finset.sum_le_sum fun j hj => mul_le_mul_of_nonneg_left ?_ (hw j hj)
  have hj' := Finset.mem_range.1 hj
  have := hε pts wts h1 (pts.getD j []) (by rw [getD_of_lt _ _ _ hj']; exact List.getElem_mem _)
  exact sq_le_sq' (by linarith [(abs_le.1 this).1]) (abs_le.1 this).2

theorem gridCoeff_sub (params : List MParam) (hne : params ≠ []) (hP : ∀ P ∈ params, Valid P) (o : List ℕ) (ho : o.length = params.length) (f p : List ℝ → ℝ) (u : List ℕ) :
    gridCoeff params o f u - gridCoeff params o p u = gridCoeff params o (fun x => f x - p x) u := by
  classical
  obtain ⟨pts, wts, h1, -⟩ := grid_facts params hne hP o ho
  unfold gridCoeff
  by_cases h : Basis.Spec.Below u o
  · rw [if_pos h, if_pos h, if_pos h, ← range_gridSum params hne o ho pts wts h1 fun x => basisFun params u x * f x,
      ← range_gridSum params hne o ho pts wts h1 fun x => basisFun params u x * p x,
      ← range_gridSum params hne o ho pts wts h1 fun x => basisFun params u x * (f x - p x), ← Finset.sum_sub_distrib]
    exact Finset.sum_congr rfl fun j _ => by ring
  · rw [if_neg h, if_neg h, if_neg h, sub_zero]

/-- The index set of a tensor grid fits the basis functions. -/
theorem tensor_regular (params : List MParam) (hne : params ≠ []) (o : List ℕ) (ho : o.length = params.length) (L : List (List ℕ)) (hL : tensorGridBasis o = .ok L) :
    Regular ⟨params, L, none⟩ ∧ L.Nodup ∧ (∀ row, row ∈ L ↔ Basis.Spec.Below row o) := by
  obtain ⟨L', h1, h2, h3, h4, h5, h6⟩ := c02_tensor_grid o (by rintro rfl; exact hne (List.length_eq_zero_iff.1 ho.symm))
  rw [hL] at h1
  obtain rfl := Except.ok.inj h1
  refine ⟨⟨?_, ?_, ?_, ?_⟩, h3, h2⟩
  · intro h
    simp only at h
    rw [h] at h6
    simp at h6
  · intro r hr
    rw [((h2 r).1 hr).length_eq]
    exact ho
  · intro h
    have h : o.length = 1 := ho.trans h
    obtain ⟨k, rfl⟩ := List.length_eq_one_iff.1 h
    refine ⟨k, ?_⟩
    simp only [tensorGridBasis, Except.ok.injEq] at hL
    simp [← hL, List.foldl, Basis.tensorStep]
  · intro R h; cases h

/-- **C206, the combination.** For every model, number of parameters, level and growth rule a fit on a sparse grid with numerical integration is the combination, with the factors of
the sparse grid, of the fits on its tensor grids. -/
theorem c206_combination (params : List MParam) (hne : params ≠ []) (hP : ∀ P ∈ params, Valid P) (level : ℕ) (g : Growth)
    (hg : g ≠ .other) (orders : List (List ℕ)) (factors : List ℚ) (S E0 : List (List ℕ))
    (hS : sparseGridBasis level g params.length = .ok (orders, factors, S)) (f : List ℝ → ℝ) :
    ∃ (E : List (List ℕ)) (c : List ℝ) (fit : List ℝ → ℝ) (part : List ℕ → List ℝ → ℝ), sparseSetModel ⟨params, E0, none⟩ level g f = .ok (⟨params, E, none⟩, c) ∧
      (∀ x : List ℝ, x.length = params.length → Expansion.polyfit ⟨params, E, none⟩ c [x] = .ok [fit x]) ∧
      (∀ o ∈ orders, ∃ L pts wts co, tensorGridBasis o = .ok L ∧ tensorGrid (localRules params o) = .ok (pts, wts) ∧
        Expansion.integrate ⟨params, L, none⟩ pts wts (pts.map f) = .ok co ∧
        ∀ x : List ℝ, x.length = params.length → Expansion.polyfit ⟨params, L, none⟩ co [x] = .ok [part o x]) ∧
      ∀ x : List ℝ, x.length = params.length → fit x = (List.zipWith (fun o (a : ℚ) => (a : ℝ) * part o x) orders factors).sum := by
  classical
  obtain ⟨E, -, hEnd, hEmem, -, hreg, -, hol, hfit⟩ := sparse_fit params hne hP level g hg orders factors S E0 hS
  obtain ⟨L, orders', factors', S', hS', -, -, -, -, -, hSmem⟩ := c08_sparse_grid_basis level params.length (by simpa using hne) g hg
  rw [hS] at hS'
  simp only [Except.ok.injEq, Prod.mk.injEq] at hS'
  obtain ⟨rfl, rfl, rfl⟩ := hS'
  have hpf : ∀ (L : List (List ℕ)) (y : List ℝ), Regular ⟨params, L, none⟩ → y.length = L.length → ∀ x : List ℝ, x.length = params.length →
      Expansion.polyfit ⟨params, L, none⟩ y [x] = .ok [expansion params L y x] := by
    intro L y hr hy x hx
    rw [polyfit_eq _ hr y hy [x] (by simpa [Expansion.dims] using hx), eff_none _ rfl]
    rfl
  -- the parts
  have hpart : ∀ o : List ℕ, ∃ φ : List ℝ → ℝ, o ∈ orders → (∃ L pts wts co, tensorGridBasis o = .ok L ∧ tensorGrid (localRules params o) = .ok (pts, wts) ∧
      Expansion.integrate ⟨params, L, none⟩ pts wts (pts.map f) = .ok co ∧
      ∀ x : List ℝ, x.length = params.length → Expansion.polyfit ⟨params, L, none⟩ co [x] = .ok [φ x]) ∧
      ∀ x, φ x = ∑ u ∈ E.toFinset, gridCoeff params o f u * basisFun params u x := by
    intro o
    by_cases ho : o ∈ orders
    · have hl := hol o ho
      obtain ⟨L, h1, -⟩ := c02_tensor_grid o (by rintro rfl; exact hne (List.length_eq_zero_iff.1 hl.symm))
      obtain ⟨r1, r2, r3⟩ := tensor_regular params hne o hl L h1
      obtain ⟨pts, wts, g1, -, -, -, -, -, g7⟩ := grid_fit ⟨params, L, none⟩ r1 rfl hne hP o hl (fun row h => (r3 row).1 h) r2
      obtain ⟨co, k1, k2, k3⟩ := g7 (pts.map f) (by simp)
      refine ⟨expansion params L co, fun _ => ⟨⟨L, pts, wts, co, h1, g1, k1, hpf L co r1 k2⟩, fun x => ?_⟩⟩
      rw [sum_expansion _ _ _ k2]
      have e1 : ∀ r < L.length, co.getD r 0 = gridCoeff params o f (L.getD r []) := by
        intro r hr
        have hmem : L.getD r [] ∈ L := by rw [getD_of_lt _ _ _ hr]; exact List.getElem_mem _
        rw [k3 r hr]
        unfold gridCoeff
        rw [if_pos ((r3 _).1 hmem), ← range_gridSum params hne o hl pts wts g1 fun x => basisFun params (L.getD r []) x * f x]
        exact Finset.sum_congr rfl fun j hj => by rw [getD_map_lt f pts 0 j (Finset.mem_range.1 hj), getD_of_lt pts [] j (Finset.mem_range.1 hj)]
      have e2 : ∑ r ∈ Finset.range L.length, co.getD r 0 * basisFun params (L.getD r []) x = ∑ u ∈ L.toFinset, gridCoeff params o f u * basisFun params u x := by
        rw [List.sum_toFinset _ r2]
        conv_rhs => rw [map_eq_range L [], range_map_sum]
        exact Finset.sum_congr rfl fun r hr => by rw [e1 r (Finset.mem_range.1 hr)]
      rw [e2]
      apply Finset.sum_subset
      · intro u hu
        rw [List.mem_toFinset] at hu ⊢
        exact (hEmem u).2 ((hSmem u).2 ⟨o, ho, (r3 u).1 hu⟩)
      · intro u _ hu
        rw [List.mem_toFinset, r3] at hu
        unfold gridCoeff
        rw [if_neg hu, zero_mul]
    · exact ⟨fun _ => 0, fun h => absurd h ho⟩
  choose part hpart using hpart
  refine ⟨E, _, _, part, hfit f, hpf E _ hreg (by simp), fun o ho => (hpart o ho).1, fun x hx => ?_⟩
  unfold expansion
  rw [List.zipWith_map_right, List.zipWith_self, ← List.sum_toFinset _ hEnd]
  have e3 : List.zipWith (fun o (a : ℚ) => (a : ℝ) * part o x) orders factors = (orders.zip factors).map fun q => (q.2 : ℝ) * ∑ u ∈ E.toFinset, gridCoeff params q.1 f u * basisFun params u x := by
    rw [← List.map_uncurry_zip_eq_zipWith]
    apply List.map_congr_left
    rintro ⟨o, a⟩ hq
    simp only [Function.uncurry]
    rw [(hpart o (List.of_mem_zip hq).1).2 x]
  rw [e3]
  generalize orders.zip factors = ts
  induction ts with
  | nil => simp
  | cons t ts ih =>
    simp only [List.map_cons, List.sum_cons, add_mul, Finset.sum_add_distrib]
    rw [ih, Finset.mul_sum]
    congr 1
    exact Finset.sum_congr rfl fun u _ => by ring

/-- The points of a grid lie in the box of the inputs, rules with one point included. -/
theorem grid_inside_one {d : ℕ} {P : Fin d → MParam} {Es : Fin d → (ℝ → ℝ) → ℝ} {l u : Fin d → ℝ} (hI : ∀ i, Input (P i) (Es i) (l i) (u i)) (hd : d ≠ 0)
    (hone : ∀ i, ∀ t ∈ ((P i).localRule 0).pts, t ∈ Icc (l i) (u i)) (o : List ℕ) (ho : o.length = d)
    (pts : List (List ℝ)) (wts : List ℝ) (h : tensorGrid (localRules (List.ofFn P) o) = .ok (pts, wts)) (x : List ℝ) (hx : x ∈ pts) :
    vec d x ∈ Icc l u := by
  have hlen : (localRules (List.ofFn P) o).length = d := by simp [localRules, ho]
  have hne : localRules (List.ofFn P) o ≠ [] := by
    intro h0; rw [h0] at hlen; exact hd hlen.symm
  have key : ∀ i : Fin d, vec d x i ∈ Icc (l i) (u i) := by
    intro i
    obtain ⟨t, ht, hxt⟩ := grid_coord _ hne (localRules_len_eq _ _) pts wts h x hx i (by rw [hlen]; exact i.2)
    have e : (localRules (List.ofFn P) o)[(i : ℕ)]'(by rw [hlen]; exact i.2) = (P i).localRule (o[(i : ℕ)]'(by rw [ho]; exact i.2)) := by
      simp [localRules]
    rw [e] at ht
    unfold vec
    rw [List.getD_eq_getElem?_getD, hxt]
    by_cases h0 : o[(i : ℕ)]'(by rw [ho]; exact i.2) = 0
    · rw [h0] at ht
      exact hone i t ht
    · exact (hI i).pts _ h0 t ht
  exact ⟨fun i => (key i).1, fun i => (key i).2⟩

/-- **C206, the error.** Fits on sparse grids are within `1 + K` times the error of the best polynomial of the sparse index set, where `K` is the sum of the sizes of the factors of
the sparse grid: if any polynomial `p` of the index set is within `ε` of the model on the whole range of the inputs, then the mean squared error of the fit, the mean and the standard deviation
reported are within `(1 + K) ε`. -/
theorem c206_error {d : ℕ} (hd : d ≠ 0) (P : Fin d → MParam) (A B l u : Fin d → ℝ) (hI : ∀ i, BetaInput (P i) (A i) (B i) (l i) (u i))
    (hone : ∀ i, ∀ t ∈ ((P i).localRule 0).pts, t ∈ Icc (l i) (u i)) (level : ℕ) (hlev : 1 ≤ level) (g : Growth) (hg : g ≠ .other)
    (orders : List (List ℕ)) (factors : List ℚ) (S E0 : List (List ℕ)) (hS : sparseGridBasis level g d = .ok (orders, factors, S))
    (f : List ℝ → ℝ) (hf : ContinuousOn (fun v => f (List.ofFn v)) (Icc l u)) :
    ∃ (E : List (List ℕ)) (c : List ℝ) (fit : List ℝ → ℝ) (m v : ℝ), sparseSetModel ⟨List.ofFn P, E0, none⟩ level g f = .ok (⟨List.ofFn P, E, none⟩, c) ∧
      (∀ r, r ∈ E ↔ r ∈ S) ∧ (∀ x : List ℝ, x.length = d → Expansion.polyfit ⟨List.ofFn P, E, none⟩ c [x] = .ok [fit x]) ∧ mean c = .ok m ∧ variance c = .ok v ∧
      ∀ (z : List ℝ) (p : List ℝ → ℝ), z.length = E.length → (∀ x : List ℝ, x.length = d → Expansion.polyfit ⟨List.ofFn P, E, none⟩ z [x] = .ok [p x]) →
        ∀ ε, (∀ w ∈ Icc l u, |f (List.ofFn w) - p (List.ofFn w)| ≤ ε) →
          let δ := (1 + (factors.map fun a : ℚ => |(a : ℝ)|).sum) * ε
          prodE (List.ofFn fun i => betaE (A i) (B i) (l i) (u i)) (fun x => (f x - fit x) ^ 2) ≤ δ ^ 2 ∧
          |m - prodE (List.ofFn fun i => betaE (A i) (B i) (l i) (u i)) f| ≤ δ ∧
          |√v - √(lawVar (List.ofFn fun i => betaE (A i) (B i) (l i) (u i)) f)| ≤ δ := by
  classical
  set Es : Fin d → (ℝ → ℝ) → ℝ := fun i => betaE (A i) (B i) (l i) (u i) with hEs
  have hin : ∀ i, Input (P i) (Es i) (l i) (u i) := fun i => beta_input (hI i).shapeA (hI i).shapeB (hI i).range (hI i).valid (hI i).recurrence
  have hm := mE_mean Es l u fun i => (hin i).mean
  have hlaw := law_ofFn (P := P) (Es := Es) fun i => (hin i).law
  have hne : List.ofFn P ≠ [] := by
    intro h; have := congrArg List.length h; simp at this; exact hd this
  have hV : ∀ Q ∈ List.ofFn P, Valid Q := by
    intro Q hQ
    obtain ⟨i, rfl⟩ := List.mem_ofFn.1 hQ
    exact (hI i).valid
  have hpl : (List.ofFn P).length = d := by simp
  have hS' : sparseGridBasis level g (List.ofFn P).length = .ok (orders, factors, S) := by rw [hpl]; exact hS
  obtain ⟨E, -, hEnd, hEmem, hhead, hreg, htwo, hol, hfit⟩ := sparse_fit (List.ofFn P) hne hV level g hg orders factors S E0 hS'
  have h2 := htwo hlev
  have hdl : (Expansion.mk (List.ofFn P) E none).dims = d := by simp [Expansion.dims]
  set c : List ℝ := E.map fun w => ((orders.zip factors).map fun q => (q.2 : ℝ) * gridCoeff (List.ofFn P) q.1 f w).sum with hc
  have hcl : c.length = E.length := by simp [hc]
  have hpf : ∀ y : List ℝ, y.length = E.length → ∀ x : List ℝ, x.length = d → Expansion.polyfit ⟨List.ofFn P, E, none⟩ y [x] = .ok [expansion (List.ofFn P) E y x] := by
    intro y hy x hx
    rw [polyfit_eq _ hreg y hy [x] (by simpa [hdl] using hx), eff_none _ rfl]
    rfl
  obtain ⟨hmean, hvar⟩ := c32_mean_variance_partial ⟨List.ofFn P, E, none⟩ hreg (.inr rfl) hhead hEnd (List.ofFn Es) hlaw c hcl (by omega) (expansion (List.ofFn P) E c)
    (by rw [hdl]; exact hpf c hcl)
  refine ⟨E, c, expansion (List.ofFn P) E c, _, _, hfit f, hEmem, hpf c hcl, hmean, hvar, fun z p hzl hp ε hε => ?_⟩
  have hp' : ∀ x : List ℝ, x.length = d → p x = expansion (List.ofFn P) E z x := by
    intro x hx
    have := hp x hx
    rw [hpf z hzl x hx] at this
    simpa using (Except.ok.inj this).symm
  have hcont : ∀ (y : List ℝ), y.length = E.length → ContinuousOn (fun v : Fin d → ℝ => expansion (List.ofFn P) E y (List.ofFn v)) (Icc l u) := by
    intro y hy
    exact (continuous_expansion P E (fun row h => (hreg.rows row h).trans hdl) y hy).continuousOn
  have hgc := hcont c hcl
  have hpc : ContinuousOn (fun v : Fin d → ℝ => p (List.ofFn v)) (Icc l u) := (hcont z hzl).congr fun w _ => hp' _ (by simp)
  have hε0 : 0 ≤ ε := (abs_nonneg _).trans (hε l ⟨le_rfl, fun i => (hI i).range.le⟩)
  set K := (factors.map fun a : ℚ => |(a : ℝ)|).sum with hK
  have hK0 : 0 ≤ K := List.sum_nonneg fun x hx => by
    obtain ⟨q, _, rfl⟩ := List.mem_map.1 hx
    exact abs_nonneg _
  -- the fit to the polynomial
  obtain ⟨E', c', hfp, hlexE', hE'mem, -, hc', -⟩ := c125_sparse_recovery (List.ofFn P) hne hV level g hg orders factors S E0 hS' E z hzl (fun r hr => (hEmem r).1 hr)
  rw [hfit] at hfp
  simp only [Except.ok.injEq, Prod.mk.injEq, Expansion.mk.injEq, true_and, and_true] at hfp
  obtain ⟨rfl, hcc⟩ := hfp
  rw [hc'] at hcc
  have hz : ∀ r < E.length, coeffOf E z (E.getD r []) = z.getD r 0 := by
    intro r hr
    unfold coeffOf
    rw [zipWith_sum _ _ _ [] 0 hzl.symm, Finset.sum_eq_single r]
    · rw [if_pos rfl]
    · intro b hb hbr
      rw [if_neg]
      rw [getD_of_lt _ _ _ hr, getD_of_lt _ _ _ (Finset.mem_range.1 hb)]
      exact fun h => hbr (hEnd.getElem_inj_iff.1 h).symm
    · intro h
      exact absurd (Finset.mem_range.2 hr) h
  have hdiff : ∀ r < E.length, c.getD r 0 - z.getD r 0 =
      ((orders.zip factors).map fun q => (q.2 : ℝ) * gridCoeff (List.ofFn P) q.1 (fun x => f x - expansion (List.ofFn P) E z x) (E.getD r [])).sum := by
    intro r hr
    have e1 : (E.map (coeffOf E z)).getD r 0 = z.getD r 0 := by
      rw [getD_map_lt _ _ _ _ hr, ← getD_of_lt _ [] _ hr, hz r hr]
    rw [← e1, ← hcc, hc, getD_map_lt _ _ _ _ hr, getD_map_lt _ _ _ _ hr, ← getD_of_lt _ [] _ hr]
    have key : ∀ ts : List (List ℕ × ℚ), (∀ q ∈ ts, q.1 ∈ orders) → (ts.map fun q => (q.2 : ℝ) * gridCoeff (List.ofFn P) q.1 f (E.getD r [])).sum -
        (ts.map fun q => (q.2 : ℝ) * gridCoeff (List.ofFn P) q.1 (expansion (List.ofFn P) E z) (E.getD r [])).sum =
        (ts.map fun q => (q.2 : ℝ) * gridCoeff (List.ofFn P) q.1 (fun x => f x - expansion (List.ofFn P) E z x) (E.getD r [])).sum := by
      intro ts
      induction ts with
      | nil => simp
      | cons q ts ih =>
        intro h
        simp only [List.map_cons, List.sum_cons]
        rw [← ih fun q hq => h q (by simp [hq]), ← gridCoeff_sub (List.ofFn P) hne hV q.1 (hol _ (h q (by simp)))]
        ring
    exact key _ fun q hq => (List.of_mem_zip hq).1
  have hsum : ∑ r ∈ Finset.range E.length, (c.getD r 0 - z.getD r 0) ^ 2 ≤ (K * ε) ^ 2 := by
    have hcomb := combine_sq E.toFinset ε hε0 (fun (q : List ℕ × ℚ) w => gridCoeff (List.ofFn P) q.1 (fun x => f x - expansion (List.ofFn P) E z x) w)
      (fun q => (q.2 : ℝ)) (orders.zip factors) (fun q hq => by
        have ho := hol _ (List.of_mem_zip hq).1
        refine gridCoeff_sq (List.ofFn P) hne hV q.1 ho _ ε (fun pts wts ht x hx => ?_) _
        have hxl : x.length = d := by
          obtain ⟨pts', wts', h1, -, -, -, h5, -⟩ := grid_facts (List.ofFn P) hne hV q.1 ho
          rw [ht] at h1
          obtain ⟨rfl, rfl⟩ := Prod.mk.inj (Except.ok.inj h1)
          rw [h5 x hx, hpl]
        have := hε _ (grid_inside_one hin hd hone q.1 (ho.trans hpl) pts wts ht x hx)
        rw [ofFn_vec _ hxl, hp' _ hxl] at this
        exact this)
    have eK : ((orders.zip factors).map fun q => |(q.2 : ℝ)|).sum = K := by
      obtain ⟨L, orders', factors', S', hS'', -, -, hrel, hfac, -⟩ := c08_sparse_grid_basis level (List.ofFn P).length (by simpa using hne) g hg
      rw [hS'] at hS''
      simp only [Except.ok.injEq, Prod.mk.injEq] at hS''
      obtain ⟨rfl, rfl, rfl⟩ := hS''
      have : (orders.zip factors).map Prod.snd = factors := by
        apply List.map_snd_zip
        rw [← hrel.length_eq, hfac, List.length_map]
      rw [hK]
      conv_rhs => rw [← this, List.map_map]
      rfl
    rw [eK] at hcomb
    refine le_trans (le_of_eq ?_) hcomb
    rw [List.sum_toFinset _ hEnd]
    conv_rhs => rw [map_eq_range E [], range_map_sum]
    exact Finset.sum_congr rfl fun r hr => by rw [hdiff r (Finset.mem_range.1 hr)]
  have hgp : mE Es (fun w => (expansion (List.ofFn P) E c (List.ofFn w) - p (List.ofFn w)) ^ 2) ≤ (K * ε) ^ 2 := by
    have := (expansion_moments (List.ofFn P) (List.ofFn Es) hlaw E hreg.ne hreg.rows hEnd hhead (fun r => c.getD r 0 - z.getD r 0) (fun r => c.getD r 0 - z.getD r 0)).2
    refine le_trans (le_of_eq ?_) hsum
    refine Eq.trans ?_ (this.trans (Finset.sum_congr rfl fun r _ => (sq _).symm))
    rw [prodE_eq_mE]
    congr 1
    funext w
    rw [hp' _ (by simp), sum_expansion _ _ _ hcl, sum_expansion _ _ _ hzl, ← Finset.sum_sub_distrib, sq]
    simp only [sub_mul]
  have hfp : mE Es (fun w => (f (List.ofFn w) - p (List.ofFn w)) ^ 2) ≤ ε ^ 2 := by
    have hcc : ContinuousOn (fun w : Fin d → ℝ => (f (List.ofFn w) - p (List.ofFn w)) ^ 2) (Icc l u) := (hf.sub hpc).pow 2
    have := hm.mono (g := fun _ => ε ^ 2) hcc continuousOn_const fun w hw => sq_le_sq' (by linarith [(abs_le.1 (hε w hw)).1]) (abs_le.1 (hε w hw)).2
    rwa [hm.const] at this
  have hδ0 : 0 ≤ (1 + K) * ε := by positivity
  have hrms : mE Es (fun w => (f (List.ofFn w) - expansion (List.ofFn P) E c (List.ofFn w)) ^ 2) ≤ ((1 + K) * ε) ^ 2 := by
    have ca : ContinuousOn (fun w : Fin d → ℝ => f (List.ofFn w) - p (List.ofFn w)) (Icc l u) := hf.sub hpc
    have cb : ContinuousOn (fun w : Fin d → ℝ => expansion (List.ofFn P) E c (List.ofFn w) - p (List.ofFn w)) (Icc l u) := hgc.sub hpc
    have ca2 : ContinuousOn (fun w : Fin d → ℝ => (f (List.ofFn w) - p (List.ofFn w)) ^ 2) (Icc l u) := ca.pow 2
    have cb2 : ContinuousOn (fun w : Fin d → ℝ => (expansion (List.ofFn P) E c (List.ofFn w) - p (List.ofFn w)) ^ 2) (Icc l u) := cb.pow 2
    have cab : ContinuousOn (fun w : Fin d → ℝ => (f (List.ofFn w) - p (List.ofFn w)) * (expansion (List.ofFn P) E c (List.ofFn w) - p (List.ofFn w))) (Icc l u) := ca.mul cb
    have cs := hm.mul_sq_le ca cb
    have n1 := hm.nonneg _ ca2 fun _ _ => sq_nonneg _
    have n2 := hm.nonneg _ cb2 fun _ _ => sq_nonneg _
    have hx : |mE Es (fun w => (f (List.ofFn w) - p (List.ofFn w)) * (expansion (List.ofFn P) E c (List.ofFn w) - p (List.ofFn w)))| ≤ ε * (K * ε) := by
      apply abs_le_of_sq_le_sq _ (by positivity)
      refine cs.trans ?_
      rw [mul_pow]
      exact mul_le_mul hfp hgp n2 (sq_nonneg _)
    have c1 : ContinuousOn (fun w : Fin d → ℝ => (-2) * ((f (List.ofFn w) - p (List.ofFn w)) * (expansion (List.ofFn P) E c (List.ofFn w) - p (List.ofFn w)))) (Icc l u) := continuousOn_const.mul cab
    have c3 : ContinuousOn (fun w : Fin d → ℝ => (f (List.ofFn w) - p (List.ofFn w)) ^ 2 + (-2) * ((f (List.ofFn w) - p (List.ofFn w)) * (expansion (List.ofFn P) E c (List.ofFn w) - p (List.ofFn w)))) (Icc l u) := ca2.add c1
    have e : (fun w : Fin d → ℝ => (f (List.ofFn w) - expansion (List.ofFn P) E c (List.ofFn w)) ^ 2) = fun w => ((f (List.ofFn w) - p (List.ofFn w)) ^ 2 +
        (-2) * ((f (List.ofFn w) - p (List.ofFn w)) * (expansion (List.ofFn P) E c (List.ofFn w) - p (List.ofFn w)))) + (expansion (List.ofFn P) E c (List.ofFn w) - p (List.ofFn w)) ^ 2 := by
      funext w
      ring
    rw [e, hm.add _ _ c3 cb2, hm.add _ _ ca2 c1, hm.smul _ _ cab]
    have := abs_le.1 hx
    nlinarith
  refine ⟨?_, ?_, ?_⟩
  · rw [prodE_eq_mE]
    exact hrms
  · rw [prodE_eq_mE, prodE_eq_mE, abs_sub_comm, ← hm.sub hf hgc]
    exact abs_le_of_sq_le_sq ((hm.sq_le (hf.sub hgc)).trans hrms) hδ0
  · have e := lawVar_eq Es (expansion (List.ofFn P) E c)
    unfold lawVar at e
    rw [lawVar_eq, e, abs_sub_comm]
    exact hm.near_std hf hgc hδ0 hrms

/-- Multi-indices whose total does not exceed the level are in the sparse index set. -/
theorem sparse_total {d : ℕ} (hd : d ≠ 0) (level : ℕ) (g : Growth) (hg : g ≠ .other) (orders : List (List ℕ)) (factors : List ℚ) (S : List (List ℕ))
    (hS : sparseGridBasis level g d = .ok (orders, factors, S)) (r : List ℕ) (hr : r.length = d) (hsum : r.sum ≤ level) : r ∈ S := by
  obtain ⟨L, orders', factors', S', hS', hL, -, hrel, -, -, hSmem⟩ := c08_sparse_grid_basis level d hd g hg
  rw [hS] at hS'
  simp only [Except.ok.injEq, Prod.mk.injEq] at hS'
  obtain ⟨rfl, rfl, rfl⟩ := hS'
  match r, hr with
  | [], hr => exact absurd hr.symm hd
  | a :: t, hr =>
    have hq : (a + (level - (a :: t).sum)) :: t ∈ L := by
      rw [hL]
      simp only [List.sum_cons, List.length_cons] at hsum hr ⊢
      omega
    obtain ⟨i, hi, e⟩ := List.getElem_of_mem hq
    have hi' : i < orders.length := hrel.length_eq ▸ hi
    have hgr := (List.forall₂_iff_get.1 hrel).2 i hi hi'
    simp only [List.get_eq_getElem, e] at hgr
    rw [hSmem]
    refine ⟨orders[i], List.getElem_mem hi', ?_⟩
    have hup : ∀ k m, GrowthTo g k m → k ≤ m := by
      intro k m h
      have h := growthTo_iff g _ _ h
      rw [h]
      cases g with
      | linear => exact le_rfl
      | exponential =>
        simp only [growthFun]
        split_ifs with h0
        · omega
        · have := @Nat.lt_two_pow_self (k - 1)
          omega
      | other => exact absurd rfl hg
    have h1 : Basis.Spec.Below ((a + (level - (a :: t).sum)) :: t) orders[i] := hgr.imp fun {k m} h => hup k m h
    cases h : orders[i] with
    | nil => rw [h] at h1; cases h1
    | cons m ms =>
      rw [h] at h1
      obtain ⟨h2, h3⟩ := List.forall₂_cons.1 h1
      exact List.Forall₂.cons (by omega) h3

/-- **C206, the degree.** If any polynomial of total degree at most the level is within `ε` of the model on the range of the inputs, the fit, its mean and its standard deviation are within
`(1 + K) ε`; in particular (`ε = 0`) the statistics of polynomials of that degree are exact. -/
theorem c206_degree {d : ℕ} (hd : d ≠ 0) (P : Fin d → MParam) (A B l u : Fin d → ℝ) (hI : ∀ i, BetaInput (P i) (A i) (B i) (l i) (u i))
    (hone : ∀ i, ∀ t ∈ ((P i).localRule 0).pts, t ∈ Icc (l i) (u i)) (level : ℕ) (hlev : 1 ≤ level) (g : Growth) (hg : g ≠ .other)
    (orders : List (List ℕ)) (factors : List ℚ) (S E0 : List (List ℕ)) (hS : sparseGridBasis level g d = .ok (orders, factors, S))
    (f : List ℝ → ℝ) (hf : ContinuousOn (fun v => f (List.ofFn v)) (Icc l u)) :
    ∃ (E : List (List ℕ)) (c : List ℝ) (fit : List ℝ → ℝ) (m v : ℝ), sparseSetModel ⟨List.ofFn P, E0, none⟩ level g f = .ok (⟨List.ofFn P, E, none⟩, c) ∧
      (∀ x : List ℝ, x.length = d → Expansion.polyfit ⟨List.ofFn P, E, none⟩ c [x] = .ok [fit x]) ∧ mean c = .ok m ∧ variance c = .ok v ∧
      ∀ q : MvPolynomial (Fin d) ℝ, q.totalDegree ≤ level → ∀ ε, (∀ w ∈ Icc l u, |f (List.ofFn w) - MvPolynomial.eval w q| ≤ ε) →
          let δ := (1 + (factors.map fun a : ℚ => |(a : ℝ)|).sum) * ε
          prodE (List.ofFn fun i => betaE (A i) (B i) (l i) (u i)) (fun x => (f x - fit x) ^ 2) ≤ δ ^ 2 ∧
          |m - prodE (List.ofFn fun i => betaE (A i) (B i) (l i) (u i)) f| ≤ δ ∧
          |√v - √(lawVar (List.ofFn fun i => betaE (A i) (B i) (l i) (u i)) f)| ≤ δ := by
  have hne : List.ofFn P ≠ [] := by
    intro h; have := congrArg List.length h; simp at this; exact hd this
  have hV : ∀ Q ∈ List.ofFn P, Valid Q := by
    intro Q hQ
    obtain ⟨i, rfl⟩ := List.mem_ofFn.1 hQ
    exact (hI i).valid
  have hpl : (List.ofFn P).length = d := by simp
  obtain ⟨E', -, hEnd, hEmem', -, hreg, -, -, hfit⟩ := sparse_fit (List.ofFn P) hne hV level g hg orders factors S E0 (by rw [hpl]; exact hS)
  obtain ⟨E, c, fit, m, v, h1, hEmem, h3, h4, h5, h6⟩ := c206_error hd P A B l u hI hone level hlev g hg orders factors S E0 hS f hf
  have hEE : E' = E := by
    have := hfit f
    rw [h1] at this
    simp only [Except.ok.injEq, Prod.mk.injEq, Expansion.mk.injEq, true_and, and_true] at this
    exact this.1.symm
  subst hEE
  refine ⟨E', c, fit, m, v, h1, h3, h4, h5, fun q hq ε hε => ?_⟩
  have hdc : Basis.Spec.DownClosed E' := by
    obtain ⟨L, orders', factors', S', hS', -, -, -, -, -, hSmem⟩ := c08_sparse_grid_basis level d hd g hg
    rw [hS] at hS'
    simp only [Except.ok.injEq, Prod.mk.injEq] at hS'
    obtain ⟨rfl, rfl, rfl⟩ := hS'
    intro a b hb hab
    rw [hEmem, hSmem] at hb ⊢
    obtain ⟨o, ho, hbo⟩ := hb
    exact ⟨o, ho, Below.trans hab hbo⟩
  obtain ⟨z, hz, hzv⟩ := (c207_models P (fun i k hk => (hI i).valid.pos k hk) E' hreg hEnd hdc fun x => MvPolynomial.eval (vec d x) q).2
    ⟨q, fun s hs => (hEmem _).2 (sparse_total hd level g hg orders factors S hS _ (by simp) (by
      have := MvPolynomial.le_totalDegree hs
      rw [Finsupp.sum_fintype _ _ fun i => rfl] at this
      rw [List.sum_ofFn]
      omega)), fun x _ => rfl⟩
  exact h6 z _ hz hzv ε fun w hw => by rw [vec_ofFn]; exact hε w hw

/-- The hypotheses of `c206_combination`, `c206_error` and `c206_degree` can be met: two uniform inputs on `[-1, 1]`, level two, linear growth, and the model `|x| + y`, which no polynomial equals. -/
example : ∃ P : MParam, BetaInput P 1 1 (-1) 1 ∧ (∀ t ∈ (P.localRule 0).pts, t ∈ Icc (-1 : ℝ) 1) ∧
    (∃ orders factors S, sparseGridBasis 2 .linear 2 = .ok (orders, factors, S)) ∧
    ContinuousOn (fun v : Fin 2 → ℝ => (fun x : List ℝ => |x.getD 0 0| + x.getD 1 0) (List.ofFn v)) (Icc (fun _ => -1) fun _ => 1) := by
  obtain ⟨P, hv, hab, hl, hu, -⟩ := exists_valid (jtab (1 - 1) (1 - 1) (-1) 1)
    (by norm_num [jtab, jacobiRow]) (fun k hk => beta_tab_pos one_pos one_pos (by norm_num) k hk) (some (-1)) (some 1) 0
  obtain ⟨L, orders, factors, S, h1, -⟩ := c08_sparse_grid_basis 2 2 (by decide) .linear (by decide)
  refine ⟨P, ⟨hv, one_pos, one_pos, by norm_num, hab⟩, fun t ht => ?_, ⟨orders, factors, S, h1⟩, ?_⟩
  · simp [MParam.localRule, onePointRule, hl, hu, falsy] at ht
    subst ht
    norm_num
  · have e : (fun v : Fin 2 → ℝ => (fun x : List ℝ => |x.getD 0 0| + x.getD 1 0) (List.ofFn v)) = fun v => |v 0| + v 1 := by
      funext v
      simp
    rw [e]
    exact (by fun_prop : Continuous fun v : Fin 2 → ℝ => |v 0| + v 1).continuousOn

end EQ.Stats
