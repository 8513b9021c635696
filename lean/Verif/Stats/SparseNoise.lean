import Verif.Stats.SparseBest

/-!
# Noise in the outputs on a sparse grid (C208)
-/

namespace EQ.Stats
open EQ.Param EQ.ParamSpec EQ.Basis EQ.Sampling EQ.Sampling.Spec EQ.Poly EQ.Poly.Spec EQ.Stats.Spec Set

/-- The factors of the sparse grid belong to its tensor grids one by one. -/
theorem sparse_factors (level : ℕ) (g : Growth) (hg : g ≠ .other) {d : ℕ} (hd : d ≠ 0) (orders : List (List ℕ)) (factors : List ℚ) (S : List (List ℕ))
    (hS : sparseGridBasis level g d = .ok (orders, factors, S)) : factors.length = orders.length := by
  obtain ⟨L, orders', factors', S', hS', -, -, hrel, hfac, -⟩ := c08_sparse_grid_basis level d hd g hg
  rw [hS] at hS'
  simp only [Except.ok.injEq, Prod.mk.injEq] at hS'
  obtain ⟨rfl, rfl, rfl⟩ := hS'
  rw [← hrel.length_eq, hfac, List.length_map]

/-- The points of the tensor grids are points of the mesh. -/
theorem sparse_mesh_points (params : List MParam) (hne : params ≠ []) (hP : ∀ P ∈ params, Valid P) (level : ℕ) (g : Growth) (hg : g ≠ .other) (orders : List (List ℕ)) (factors : List ℚ)
    (S : List (List ℕ)) (hS : sparseGridBasis level g params.length = .ok (orders, factors, S)) (hol : ∀ o ∈ orders, o.length = params.length) :
    ∃ mesh w, sparseGridMesh params level g = .ok (mesh, w) ∧ ∀ o ∈ orders, ∀ pts wts, tensorGrid (localRules params o) = .ok (pts, wts) → ∀ x ∈ pts, x ∈ mesh := by
  obtain ⟨orders', factors', S', sp, sw, qpts, qwts, hS', hstack, hmesh, _, _, _, _, hqmem, _⟩ := c23_sparse_mesh_partial params hne hP level g hg
  rw [hS] at hS'
  simp only [Except.ok.injEq, Prod.mk.injEq] at hS'
  obtain ⟨rfl, rfl, rfl⟩ := hS'
  refine ⟨qpts, qwts, hmesh, fun o ho pts wts ht x hx => ?_⟩
  rw [hqmem x]
  have hT : ∀ o : List ℕ, ∃ t : List (List ℝ) × List ℝ, o.length = params.length → tensorGrid (localRules params o) = .ok t := by
    intro o
    by_cases h : o.length = params.length
    · obtain ⟨pts, wts, h1, -⟩ := grid_facts params hne hP o h
      exact ⟨_, fun _ => h1⟩
    · exact ⟨([], []), fun h' => absurd h' h⟩
  choose T hT using hT
  have hgr : orders.mapM (fun o => tensorGrid (localRules params o)) = .ok (orders.map T) := by
    apply Sampling.mapM_ok
    intro o ho
    exact hT o (hol o ho)
  unfold sparseStack at hstack
  rw [hgr] at hstack
  simp only [bind, Except.bind, pure, Except.pure, Except.ok.injEq, Prod.mk.injEq] at hstack
  rw [← hstack.1, List.map_map]
  apply List.mem_flatten.2
  refine ⟨pts, List.mem_map.2 ⟨o, ho, ?_⟩, hx⟩
  have := hT o (hol o ho)
  rw [ht] at this
  rw [Function.comp, ← Except.ok.inj this]

/-- **C208.** Two models that differ by at most `ε` at the points of the mesh have sparse-grid fits with the same index set whose mean squared distance, means and standard deviations differ by at
most `K ε`, where `K` is the sum of the absolute factors of the sparse grid. In one dimension `K = 1`. -/
theorem c208_noise (params : List MParam) (hne : params ≠ []) (hP : ∀ P ∈ params, Valid P) (Es : List ((ℝ → ℝ) → ℝ)) (hlaw : List.Forall₂ Law params Es) (level : ℕ) (hlev : 1 ≤ level) (g : Growth)
    (hg : g ≠ .other) (orders : List (List ℕ)) (factors : List ℚ) (S E0 : List (List ℕ)) (hS : sparseGridBasis level g params.length = .ok (orders, factors, S)) (f f' : List ℝ → ℝ)
    (mesh : List (List ℝ)) (w : List ℝ) (hmesh : sparseGridMesh params level g = .ok (mesh, w)) (ε : ℝ) (hε0 : 0 ≤ ε) (hε : ∀ x ∈ mesh, |f x - f' x| ≤ ε) :
    ∃ (E : List (List ℕ)) (c c' : List ℝ) (fit fit' : List ℝ → ℝ) (m m' v v' : ℝ), sparseSetModel ⟨params, E0, none⟩ level g f = .ok (⟨params, E, none⟩, c) ∧
      sparseSetModel ⟨params, E0, none⟩ level g f' = .ok (⟨params, E, none⟩, c') ∧
      (∀ x : List ℝ, x.length = params.length → Expansion.polyfit ⟨params, E, none⟩ c [x] = .ok [fit x]) ∧
      (∀ x : List ℝ, x.length = params.length → Expansion.polyfit ⟨params, E, none⟩ c' [x] = .ok [fit' x]) ∧
      mean c = .ok m ∧ mean c' = .ok m' ∧ variance c = .ok v ∧ variance c' = .ok v' ∧
      let δ := (factors.map fun a : ℚ => |(a : ℝ)|).sum * ε
      prodE Es (fun x => (fit x - fit' x) ^ 2) ≤ δ ^ 2 ∧ |m - m'| ≤ δ ∧ |√v - √v'| ≤ δ := by
  classical
  obtain ⟨E, -, hEnd, -, hhead, hreg, htwo, hol, hfit⟩ := sparse_fit params hne hP level g hg orders factors S E0 hS
  have h2 := htwo hlev
  obtain ⟨mesh', w', hm', hsub⟩ := sparse_mesh_points params hne hP level g hg orders factors S hS hol
  rw [hmesh] at hm'
  obtain ⟨rfl, rfl⟩ := Prod.mk.inj (Except.ok.inj hm')
  set K := (factors.map fun a : ℚ => |(a : ℝ)|).sum with hK
  have hK0 : 0 ≤ K := List.sum_nonneg fun x hx => by
    obtain ⟨q, _, rfl⟩ := List.mem_map.1 hx
    exact abs_nonneg _
  set C : (List ℝ → ℝ) → List ℝ := fun f => E.map fun u => ((orders.zip factors).map fun q => (q.2 : ℝ) * gridCoeff params q.1 f u).sum with hC
  have hcl : ∀ f, (C f).length = E.length := fun f => by simp [hC]
  have hpf : ∀ y : List ℝ, y.length = E.length → ∀ x : List ℝ, x.length = params.length → Expansion.polyfit ⟨params, E, none⟩ y [x] = .ok [expansion params E y x] := by
    intro y hy x hx
    rw [polyfit_eq _ hreg y hy [x] (by simpa [Expansion.dims] using hx), eff_none _ rfl]
    rfl
  have hdiff : ∀ r < E.length, (C f).getD r 0 - (C f').getD r 0 =
      ((orders.zip factors).map fun q => (q.2 : ℝ) * gridCoeff params q.1 (fun x => f x - f' x) (E.getD r [])).sum := by
    intro r hr
    simp only [hC]
    rw [getD_map_lt _ _ _ _ hr, getD_map_lt _ _ _ _ hr, ← getD_of_lt _ [] _ hr]
    have key : ∀ ts : List (List ℕ × ℚ), (∀ q ∈ ts, q.1 ∈ orders) → (ts.map fun q => (q.2 : ℝ) * gridCoeff params q.1 f (E.getD r [])).sum -
        (ts.map fun q => (q.2 : ℝ) * gridCoeff params q.1 f' (E.getD r [])).sum =
        (ts.map fun q => (q.2 : ℝ) * gridCoeff params q.1 (fun x => f x - f' x) (E.getD r [])).sum := by
      intro ts
      induction ts with
      | nil => simp
      | cons q ts ih =>
        intro h
        simp only [List.map_cons, List.sum_cons]
        rw [← ih fun q hq => h q (by simp [hq]), ← gridCoeff_sub params hne hP q.1 (hol _ (h q (by simp)))]
        ring
    exact key _ fun q hq => (List.of_mem_zip hq).1
  have hsum : ∑ r ∈ Finset.range E.length, ((C f).getD r 0 - (C f').getD r 0) ^ 2 ≤ (K * ε) ^ 2 := by
    have hcomb := combine_sq E.toFinset ε hε0 (fun (q : List ℕ × ℚ) u => gridCoeff params q.1 (fun x => f x - f' x) u)
      (fun q => (q.2 : ℝ)) (orders.zip factors) (fun q hq => by
        have ho := (List.of_mem_zip hq).1
        exact gridCoeff_sq params hne hP q.1 (hol _ ho) _ ε (fun pts wts ht x hx => hε x (hsub _ ho pts wts ht x hx)) _)
    have eK : ((orders.zip factors).map fun q => |(q.2 : ℝ)|).sum = K := by
      have : (orders.zip factors).map Prod.snd = factors := by
        apply List.map_snd_zip
        rw [sparse_factors level g hg (by simpa using hne) orders factors S hS]
      rw [hK]
      conv_rhs => rw [← this, List.map_map]
      rfl
    rw [eK] at hcomb
    refine le_trans (le_of_eq ?_) hcomb
    rw [List.sum_toFinset _ hEnd]
    conv_rhs => rw [map_eq_range E [], range_map_sum]
    exact Finset.sum_congr rfl fun r hr => by rw [hdiff r (Finset.mem_range.1 hr)]
  have hmn : ∀ z : List ℝ, z.length = E.length → mean z = .ok (z.getD 0 0) := by
    intro z hz
    cases z with
    | nil => simp at hz; omega
    | cons a l => rfl
  obtain ⟨n, hn⟩ : ∃ n, E.length = n + 1 := ⟨E.length - 1, by omega⟩
  have hδ : 0 ≤ K * ε := by positivity
  refine ⟨E, C f, C f', _, _, (C f).getD 0 0, (C f').getD 0 0, varSum (C f), varSum (C f'), hfit f, hfit f', hpf _ (hcl f), hpf _ (hcl f'), hmn _ (hcl f), hmn _ (hcl f'),
    variance_ok _ (by rw [hcl]; omega), variance_ok _ (by rw [hcl]; omega), ?_, ?_, ?_⟩
  · refine le_trans (le_of_eq ?_) hsum
    have := (expansion_moments params Es hlaw E hreg.ne hreg.rows hEnd hhead (fun r => (C f).getD r 0 - (C f').getD r 0) (fun r => (C f).getD r 0 - (C f').getD r 0)).2
    refine Eq.trans ?_ (this.trans (Finset.sum_congr rfl fun r _ => (sq _).symm))
    apply prodE_congr
    intro x _
    rw [sum_expansion _ _ _ (hcl f), sum_expansion _ _ _ (hcl f'), ← Finset.sum_sub_distrib, sq]
    simp only [sub_mul]
  · apply abs_le_of_sq_le_sq _ hδ
    refine le_trans ?_ hsum
    exact Finset.single_le_sum (f := fun r => ((C f).getD r 0 - (C f').getD r 0) ^ 2) (fun _ _ => sq_nonneg _) (Finset.mem_range.2 (by omega))
  · rw [varSum_range _ n (by rw [hcl]; omega), varSum_range _ n (by rw [hcl]; omega)]
    apply sqrt_sub_le n _ _ _ hδ
    refine le_trans ?_ hsum
    rw [hn, Finset.sum_range_succ']
    exact le_add_of_nonneg_right (sq_nonneg _)

/-- **C208, the constant.** The sum of the absolute factors of the sparse grid, in closed form: 1 in one dimension, `2 level + 3` in two. -/
theorem c208_constant (d : ℕ) (hd : d ≠ 0) (level : ℕ) (g : Growth) (hg : g ≠ .other) (orders : List (List ℕ)) (factors : List ℚ) (S : List (List ℕ))
    (hS : sparseGridBasis level g d = .ok (orders, factors, S)) :
    (factors.map fun a : ℚ => |(a : ℝ)|).sum = ∑ k ∈ Finset.range d, ((d - 1).choose k : ℝ) * ((level + d - 1 + k).choose (d - 1) : ℝ) := by
  obtain ⟨L, orders', factors', S', hS', hL, hLnd, -, hfac, -⟩ := c08_sparse_grid_basis level d hd g hg
  rw [hS] at hS'
  simp only [Except.ok.injEq, Prod.mk.injEq] at hS'
  obtain ⟨rfl, rfl, rfl⟩ := hS'
  obtain ⟨n, rfl⟩ := Nat.exists_eq_succ_of_ne_zero hd
  rw [hfac, List.map_map, ← List.sum_toFinset _ hLnd]
  simp only [Nat.succ_eq_add_one, Nat.add_sub_cancel, ← add_assoc] at hL ⊢
  have hmap : ∀ r ∈ L.toFinset, r.sum - level ∈ Finset.range (n + 1) := by
    intro r hr
    have := (hL r).1 (List.mem_toFinset.1 hr)
    rw [Finset.mem_range]
    omega
  rw [← Finset.sum_fiberwise_of_maps_to hmap]
  refine Finset.sum_congr rfl fun k hk => ?_
  have hk' := Finset.mem_range.1 hk
  have hset : L.toFinset.filter (fun r => r.sum - level = k) = (totalOrderRec (n + 1) (level + k)).toFinset := by
    ext r
    rw [Finset.mem_filter, List.mem_toFinset, List.mem_toFinset, hL r, mem_totalOrderRec]
    constructor
    · rintro ⟨⟨h1, h2, h3⟩, h4⟩
      exact ⟨h1, by omega⟩
    · rintro ⟨h1, h2⟩
      exact ⟨⟨h1, by omega, by omega⟩, by omega⟩
  rw [hset]
  have hv : ∀ r ∈ (totalOrderRec (n + 1) (level + k)).toFinset, ((fun a : ℚ => |(a : ℝ)|) ∘ fun row : List ℕ => (-1) ^ (level + n - row.sum) *
      (n.choose (level + n - row.sum) : ℚ)) r = (n.choose k : ℝ) := by
    intro r hr
    rw [List.mem_toFinset, mem_totalOrderRec] at hr
    have e : level + n - r.sum = n - k := by omega
    simp only [Function.comp, e]
    push_cast
    rw [abs_mul, abs_pow, abs_neg, abs_one, one_pow, one_mul, Nat.abs_cast, Nat.choose_symm (by omega)]
  rw [Finset.sum_congr rfl hv, Finset.sum_const, List.toFinset_card_of_nodup (nodup_totalOrderRec _ _), length_totalOrderRec, nsmul_eq_mul]
  rw [mul_comm, show level + k + n = level + n + k by omega]

/-- The hypotheses can be met: two uniform inputs on `[-1, 1]`, level two, linear growth, and the models `|x|` and `|x| + 0.1`; the constant is 7. -/
example : ∃ P : MParam, Valid P ∧ List.Forall₂ Law [P, P] [betaE 1 1 (-1) 1, betaE 1 1 (-1) 1] ∧ ∃ orders factors S mesh w, sparseGridBasis 2 .linear 2 = .ok (orders, factors, S) ∧
    sparseGridMesh [P, P] 2 .linear = .ok (mesh, w) ∧ (∀ x ∈ mesh, |(fun x : List ℝ => |x.getD 0 0|) x - (fun x : List ℝ => |x.getD 0 0| + 0.1) x| ≤ 0.1) ∧
    (factors.map fun a : ℚ => |(a : ℝ)|).sum = 7 := by
  obtain ⟨P, hv, hab, -⟩ := exists_valid (jtab (1 - 1) (1 - 1) (-1) 1)
    (by norm_num [jtab, jacobiRow]) (fun k hk => beta_tab_pos one_pos one_pos (by norm_num) k hk) (some (-1)) (some 1) 0
  have hl := (beta_input one_pos one_pos (by norm_num) hv hab).law
  obtain ⟨orders, factors, S, sp, sw, mesh, w, h1, -, h3, -⟩ := c23_sparse_mesh_partial [P, P] (by simp) (by simp [hv]) 2 .linear (by decide)
  refine ⟨P, hv, by simp [hl], orders, factors, S, mesh, w, h1, h3, fun x _ => ?_, ?_⟩
  · simp only
    rw [show |x.getD 0 0| - (|x.getD 0 0| + 0.1) = -0.1 by ring, abs_neg, abs_of_pos (by norm_num)]
  · rw [c208_constant 2 (by decide) 2 .linear (by decide) orders factors S h1]
    simp [Finset.sum_range_succ]
    norm_num

end EQ.Stats
