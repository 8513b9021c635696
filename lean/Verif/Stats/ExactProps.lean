import Verif.Stats.CondProps

/-!
# When skewness and kurtosis are those of the input law (C82)
-/

namespace EQ.Stats
open EQ.Basis EQ.Param EQ.Poly EQ.Sampling EQ.Sampling.Spec EQ.Poly.Spec EQ.Stats.Spec
open EQ.ParamSpec
open scoped Polynomial

/-- A univariate rule of order `o` integrates polynomials of degree at most `2 o + 1` exactly (for
order 0 the rule is the mean or the middle of the support, exact for constants only). -/
theorem localRule_exact (P : MParam) (hP : Valid P) (L : ℝ[X] →ₗ[ℝ] ℝ)
    (hL : ∀ i j, L (opoly P.ab i * opoly P.ab j) = if i = j then 1 else 0) (o : ℕ) (q : ℝ[X])
    (hq : q.natDegree ≤ 2 * o + 1) (h0 : o = 0 → q.natDegree = 0) :
    (List.zipWith (fun x w => w * q.eval x) (P.localRule o).pts (P.localRule o).wts).sum = L q := by
  by_cases ho : o = 0
  · obtain ⟨a, rfl⟩ : ∃ a, q = Polynomial.C a := ⟨_, Polynomial.eq_C_of_natDegree_eq_zero (h0 ho)⟩
    have h1 := localRule_sum P hP o
    have h2 : L 1 = 1 := by simpa [opoly] using hL 0 0
    have h3 : (Polynomial.C a : ℝ[X]) = a • 1 := by
      rw [Polynomial.smul_eq_C_mul, mul_one]
    rw [h3, map_smul, h2, smul_eq_mul, mul_one]
    simp only [Polynomial.eval_smul, Polynomial.eval_one, smul_eq_mul, mul_one]
    have e : List.zipWith (fun (_ : ℝ) w => w * a) (P.localRule o).pts (P.localRule o).wts =
        (P.localRule o).wts.map (· * a) := by
      apply List.ext_getElem
      · simp [localRule_len_eq P o]
      · intro i _ _; simp
    rw [e, List.sum_map_mul_right]
    simp [h1]
  · unfold MParam.localRule
    rw [if_neg ho]
    simp only
    rw [zipWith_ofFn_sum _ _ (fun x => q.eval x)]
    apply (c14_gauss_exact P.ab o (fun k h1 _ => hP.pos k h1) _ _ (hP.eigh o) _ (hP.sort o)).2
      (opoly P.ab) (fun i hi x => ((orthoTables_eq P.ab (o + 2) x i (by omega)).1).symm) L
      (fun i j _ _ => by rw [hL, hP.b0])
    omega

/-- Product polynomials in each dimension. -/
noncomputable def prodPolys (params : List MParam) (P0 : MParam) (rows : List (List ℕ)) :
    List ℝ[X] :=
  (List.range params.length).map fun k =>
    (rows.map fun r => opoly (params.getD k P0).ab (r.getD k 0)).prod

theorem factors_eq (params : List MParam) (P0 : MParam) (rows : List (List ℕ)) :
    factors params P0 rows = (prodPolys params P0 rows).map fun p x => p.eval x := by
  unfold factors prodPolys
  rw [List.map_map]
  apply List.map_congr_left
  intro k _
  funext x
  simp only [Function.comp_def, Polynomial.eval_list_prod, List.map_map, univ_eq]

theorem natDegree_prod_le (ab : Table) (hb : ∀ k, 1 ≤ k → 0 < (ab k).2) (l : List ℕ) :
    ((l.map fun n => opoly ab n).prod).natDegree ≤ l.sum := by
  induction l with
  | nil => simp
  | cons n l ih =>
    simp only [List.map_cons, List.prod_cons, List.sum_cons]
    refine Polynomial.natDegree_mul_le.trans (Nat.add_le_add ?_ ih)
    exact (opoly_degree ab n fun k h1 _ => hb k h1).1.le

/-- Grid sum and expectation of a product of `k` basis functions agree if `k` times every degree
is at most `2 o + 1`. -/
theorem grid_exact (params : List MParam) (P0 : MParam) (hP : ∀ P ∈ params, Valid P)
    (orders : List ℕ) (ho : orders.length = params.length) (rows : List (List ℕ))
    (hr : ∀ r ∈ rows, List.Forall₂ (fun n o => rows.length * n ≤ 2 * o + 1) r orders)
    (Ls : List (ℝ[X] →ₗ[ℝ] ℝ))
    (hL : List.Forall₂ (fun (P : MParam) (L : ℝ[X] →ₗ[ℝ] ℝ) =>
        ∀ i j, L (opoly P.ab i * opoly P.ab j) = if i = j then 1 else 0) params Ls)
    (h2 : 2 ≤ rows.length) :
    ((ixs ((localRules params orders).map fun r => r.pts.length)).map fun idx =>
      gridWeight (localRules params orders) idx *
        (rows.map fun r => basisFun params r (gridPoint (localRules params orders) idx)).prod).sum =
      (List.zipWith (fun (L : ℝ[X] →ₗ[ℝ] ℝ) p => L p) Ls (prodPolys params P0 rows)).prod := by
  have hrl : ∀ r ∈ rows, r.length = params.length := fun r h => by rw [(hr r h).length_eq, ho]
  rw [grid_moment params P0 orders ho rows hrl, factors_eq]
  congr 1
  have hLl : Ls.length = params.length := hL.length_eq.symm
  apply List.ext_getElem
  · simp [prodPolys, localRules_length params orders ho, hLl]
  · intro k h1 h2'
    have hk' : k < params.length := by
      simp [prodPolys, localRules_length params orders ho] at h1; omega
    simp only [List.getElem_zipWith, List.getElem_map, localRules]
    have hcol : (rows.map fun r => r.getD k 0).sum ≤ 2 * orders[k] + 1 := by
      have : ∀ n ∈ rows.map fun r => r.getD k 0, rows.length * n ≤ 2 * orders[k] + 1 := by
        intro n hn
        obtain ⟨r, hmem, rfl⟩ := List.mem_map.1 hn
        rw [getD_of_lt r 0 k (by rw [hrl r hmem]; exact hk')]
        exact (List.forall₂_iff_get.1 (hr r hmem)).2 k _ _
      have h3 := List.sum_le_card_nsmul ((rows.map fun r => r.getD k 0).map (rows.length * ·))
        (2 * orders[k] + 1) (by
          intro x hx
          obtain ⟨n, hn, rfl⟩ := List.mem_map.1 hx
          exact this n hn)
      rw [List.sum_map_mul_left, List.length_map, List.length_map, smul_eq_mul, List.map_id'] at h3
      exact Nat.le_of_mul_le_mul_left h3 (by omega)
    have hdeg : (prodPolys params P0 rows)[k]'(by simpa [prodPolys] using hk') =
        ((rows.map fun r => r.getD k 0).map fun n => opoly params[k].ab n).prod := by
      simp only [prodPolys, List.getElem_map, List.getElem_range]
      rw [getD_of_lt params P0 k hk', List.map_map]
      rfl
    have hPk := hP _ (List.getElem_mem hk')
    apply localRule_exact params[k] hPk
    · exact (List.forall₂_iff_get.1 hL).2 k _ _
    · rw [hdeg]
      exact (natDegree_prod_le _ hPk.pos _).trans hcol
    · intro h0
      have hall : ∀ n ∈ rows.map fun r => r.getD k 0, n = 0 := by
        intro n hn
        obtain ⟨r, hmem, rfl⟩ := List.mem_map.1 hn
        have h4 := (List.forall₂_iff_get.1 (hr r hmem)).2 k (by rw [hrl r hmem]; exact hk') (by omega)
        rw [getD_of_lt r 0 k (by rw [hrl r hmem]; exact hk')]
        simp only [List.get_eq_getElem, h0] at h4
        nlinarith
      rw [hdeg]
      have := natDegree_prod_le _ hPk.pos (rows.map fun r => r.getD k 0)
      rw [List.sum_eq_zero hall] at this
      omega

/-- Powers of an expansion, by tuples of terms. -/
theorem sum_pow_tuples (n k : ℕ) (a : ℕ → ℝ) :
    (∑ i ∈ Finset.range n, a i) ^ k =
      ∑ t ∈ Fintype.piFinset fun _ : Fin k => Finset.range n, ∏ j, a (t j) := by
  rw [← Finset.prod_univ_sum]
  simp

/-- `k`-th moments of an expansion: the grid gives the moment of the input law. -/
theorem grid_moment_exact (params : List MParam) (hP : ∀ P ∈ params, Valid P)
    (hne : params ≠ [])
    (orders : List ℕ) (ho : orders.length = params.length) (els : List (List ℕ)) (k : ℕ)
    (hk : 2 ≤ k) (hr : ∀ row ∈ els, List.Forall₂ (fun n o => k * n ≤ 2 * o + 1) row orders)
    (Es : List ((ℝ → ℝ) → ℝ)) (hlaw : List.Forall₂ Law params Es) (g : ℕ → ℝ) :
    ∑ j ∈ Finset.range (gpts params orders).length, (gwts params orders).getD j 0 *
        (∑ i ∈ Finset.range els.length,
          g i * basisFun params (els.getD i []) ((gpts params orders).getD j [])) ^ k =
      prodE Es fun x =>
        (∑ i ∈ Finset.range els.length, g i * basisFun params (els.getD i []) x) ^ k := by
  obtain ⟨P0, hP0⟩ := List.exists_mem_of_ne_nil params hne
  obtain ⟨Ls, hL1, hL2⟩ := law_functionals params Es hlaw
  have hl := forall₂_law_length hlaw
  set T := Fintype.piFinset fun _ : Fin k => Finset.range els.length with hT
  let rs : (Fin k → ℕ) → List (List ℕ) := fun t => List.ofFn fun j => els.getD (t j) []
  have hlen : ∀ t, (rs t).length = k := fun t => by simp [rs]
  have hrs : ∀ t ∈ T, ∀ r ∈ rs t, List.Forall₂ (fun n o => (rs t).length * n ≤ 2 * o + 1) r orders := by
    intro t ht r hmem
    rw [hlen]
    simp only [rs, List.mem_ofFn] at hmem
    obtain ⟨j, rfl⟩ := hmem
    have hj := Finset.mem_range.1 (Fintype.mem_piFinset.1 ht j)
    rw [getD_of_lt els [] _ hj]
    exact hr _ (List.getElem_mem _)
  have hrl : ∀ t ∈ T, ∀ r ∈ rs t, r.length = params.length := fun t ht r h => by
    rw [(hrs t ht r h).length_eq, ho]
  have hprod : ∀ (t : Fin k → ℕ) (x : List ℝ),
      ∏ j, g (t j) * basisFun params (els.getD (t j) []) x =
        (∏ j, g (t j)) * ((rs t).map fun r => basisFun params r x).prod := by
    intro t x
    rw [Finset.prod_mul_distrib]
    congr 1
    simp only [rs, List.map_ofFn, List.prod_ofFn, Function.comp_def]
  -- the law
  have hR : prodE Es (fun x =>
        (∑ i ∈ Finset.range els.length, g i * basisFun params (els.getD i []) x) ^ k) =
      ∑ t ∈ T, (∏ j, g (t j)) *
        (List.zipWith (fun (L : ℝ[X] →ₗ[ℝ] ℝ) p => L p) Ls (prodPolys params P0 (rs t))).prod := by
    rw [← prodE_sum T Es Ls hL1 (fun t => ∏ j, g (t j)) (fun t => prodPolys params P0 (rs t))
      (fun t => by simp [prodPolys, hl])]
    apply prodE_congr
    intro x hx
    rw [sum_pow_tuples]
    apply Finset.sum_congr rfl
    intro t ht
    rw [hprod, ← factors_prod params P0 (rs t) (hrl t ht) x (by omega), factors_eq,
      List.zipWith_map_left]
  rw [hR]
  simp only [sum_pow_tuples, hprod, Finset.mul_sum]
  rw [Finset.sum_comm]
  apply Finset.sum_congr rfl
  intro t ht
  rw [← grid_exact params P0 hP orders ho (rs t) (hrs t ht) Ls hL2 (by rw [hlen]; exact hk)]
  unfold gpts gwts
  generalize ixs ((localRules params orders).map fun r => r.pts.length) = I
  rw [map_eq_range I [] (fun idx => gridWeight (localRules params orders) idx *
    ((rs t).map fun r => basisFun params r (gridPoint (localRules params orders) idx)).prod),
    range_map_sum, List.length_map, Finset.mul_sum]
  apply Finset.sum_congr rfl
  intro j hj
  rw [Finset.mem_range] at hj
  rw [getD_map' _ _ _ _ hj, getD_map' _ _ _ _ hj, getD_of_lt I [] j hj]
  ring

section
variable (B : Expansion) (hB : Regular B) (hR : B.dims = 1 ∨ B.invR = none)
  (hne : B.params ≠ []) (hP : ∀ P ∈ B.params, Valid P) (orders : List ℕ)
  (ho : orders.length = B.dims)
  (hz : B.elements.head? = some (List.replicate B.dims 0)) (hnd : B.elements.Nodup)
  (Es : List ((ℝ → ℝ) → ℝ)) (hlaw : List.Forall₂ Law B.params Es)
  (c : List ℝ) (hc : c.length = B.elements.length) (h2 : 2 ≤ c.length)
  (f : List ℝ → ℝ) (hf : ∀ x, x.length = B.dims → B.polyfit c [x] = .ok [f x])
include hB hR hne hP ho hz hnd hlaw hc h2 hf

omit hnd h2 in
/-- Central moments of the fit over the grid are those under the input law. -/
theorem central_exact (k : ℕ) (hk : 2 ≤ k)
    (hr : ∀ row ∈ B.elements, List.Forall₂ (fun n o => k * n ≤ 2 * o + 1) row orders) :
    B.polyfit c (gpts B.params orders) = .ok ((gpts B.params orders).map f) ∧
    ∀ m, centralSum (gpts B.params orders) (gwts B.params orders) f m k =
      prodE Es fun x => (f x - m) ^ k := by
  have hl := forall₂_law_length hlaw
  have hfe : ∀ x, x.length = B.params.length → f x = expansion B.params B.elements c x :=
    fun x hx => polyfit_single B hB hR c hc f hf x hx
  have hp := gpts_mem B.params orders ho
  constructor
  · rw [polyfit_eq B hB c hc _ hp, eff_plain B hR]
    congr 1
    apply List.map_congr_left
    intro x hx
    exact (hfe x (hp x hx)).symm
  · intro m
    have hfm : ∀ x, x.length = B.params.length → f x - m =
        ∑ i ∈ Finset.range B.elements.length,
          (if i = 0 then c.getD 0 0 - m else c.getD i 0) *
            basisFun B.params (B.elements.getD i []) x := by
      intro x hx
      rw [hfe x hx, sum_expansion _ _ _ hc]
      obtain ⟨n, hn⟩ : ∃ n, B.elements.length = n + 1 :=
        ⟨_, (Nat.succ_pred_eq_of_pos (List.length_pos_iff.2 hB.ne)).symm⟩
      rw [hn, Finset.sum_range_succ', Finset.sum_range_succ', getD_zero_of_head hz]
      unfold Expansion.dims
      rw [basisFun_zero B.params x hx]
      simp only [if_true, Nat.succ_ne_zero, if_false]
      ring
    rw [prodE_congr Es _ _ fun x hx => by rw [hfm x (by omega)],
      ← grid_moment_exact B.params hP hne orders ho B.elements k hk hr Es hlaw]
    unfold centralSum
    apply Finset.sum_congr rfl
    intro j hj
    rw [Finset.mem_range] at hj
    rw [hfm]
    rw [getD_of_lt _ _ _ hj]
    exact hp _ (List.getElem_mem hj)

/-- C82. Skewness and kurtosis computed on the tensor grid are the standardised third and fourth
central moments of the fitted function under the law of the inputs, provided that three
(respectively four) times every degree is at most `2 o + 1`. Partial: the statistics code uses the
grid with `o` = degree + 1, for which the condition says degree at most 3 (respectively 1). -/
theorem c82_law_moments_partial :
    ∃ pts wts P, tensorGrid (localRules B.params orders) = .ok (pts, wts) ∧
      B.getPoly none pts = .ok P ∧ ∃ m v, mean c = .ok m ∧ variance c = .ok v ∧
      m = prodE Es f ∧ v = lawVar Es f ∧ (0 < v →
      ((∀ row ∈ B.elements, List.Forall₂ (fun n o => 3 * n ≤ 2 * o + 1) row orders) →
        skewness wts (weightedEvals P c) v = prodE Es (fun x => (f x - m) ^ 3) / v ^ (1.5 : ℝ)) ∧
      ((∀ row ∈ B.elements, List.Forall₂ (fun n o => 4 * n ≤ 2 * o + 1) row orders) →
        kurtosis wts (weightedEvals P c) v = prodE Es (fun x => (f x - m) ^ 4) / v ^ 2)) := by
  obtain ⟨hm, hv⟩ := c32_mean_variance_partial B hB hR hz hnd Es hlaw c hc h2 f hf
  obtain ⟨P, hP', hsh, hone⟩ := c40_first_row B hB hR hz _ (gpts_mem B.params orders ho)
  refine ⟨_, _, P, tensorGrid_gpts B.params hne orders ho, hP', _, _, hm, hv, rfl, rfl,
    fun hv0 => ⟨fun h => ?_, fun h => ?_⟩⟩
  · obtain ⟨e1, e2⟩ := central_exact B hB hR hne hP orders ho hz Es hlaw c hc f hf 3
      (by omega) h
    rw [← e2]
    exact (c40_central_moments B _ _ (gwts_length _ _) P hP' hsh hone c f e1 _ _ hm hv hv0).1
  · obtain ⟨e1, e2⟩ := central_exact B hB hR hne hP orders ho hz Es hlaw c hc f hf 4
      (by omega) h
    rw [← e2]
    exact (c40_central_moments B _ _ (gwts_length _ _) P hP' hsh hone c f e1 _ _ hm hv hv0).2

end

theorem opoly_coeff (ab : Table) (hb : ∀ k, 1 ≤ k → 0 < (ab k).2) (n : ℕ) :
    (opoly ab n).natDegree = n ∧ 0 < (opoly ab n).coeff n := by
  obtain ⟨hd, hl⟩ := opoly_degree ab n fun k h1 _ => hb k h1
  refine ⟨hd, ?_⟩
  have : (opoly ab n).coeff n = (opoly ab n).leadingCoeff := by
    rw [Polynomial.leadingCoeff, hd]
  rw [this, hl]
  apply Finset.prod_pos
  intro k hk
  rw [Finset.mem_Icc] at hk
  have := hb k hk.1
  positivity

/-- The rule with `n + 1` points underestimates every `p ^ 2` with `p` of degree `n + 1`, since it
misses the square of the next orthogonal polynomial. -/
theorem localRule_square_lt (P : MParam) (hP : Valid P) (L : ℝ[X] →ₗ[ℝ] ℝ)
    (hL : ∀ i j, L (opoly P.ab i * opoly P.ab j) = if i = j then 1 else 0) (o : ℕ) (ho : o ≠ 0)
    (p : ℝ[X]) (hp : p.natDegree = o + 1) :
    (List.zipWith (fun x w => w * (p ^ 2).eval x) (P.localRule o).pts (P.localRule o).wts).sum <
      L (p ^ 2) := by
  obtain ⟨hd, hpos⟩ := opoly_coeff P.ab hP.pos (o + 1)
  set q := opoly P.ab (o + 1) with hq
  set κ := (p.coeff (o + 1) / q.coeff (o + 1)) ^ 2 with hκ
  have hpc : p.coeff (o + 1) ≠ 0 := by
    rw [← hp]
    intro h
    rw [Polynomial.coeff_natDegree, Polynomial.leadingCoeff_eq_zero] at h
    rw [h] at hp
    simp at hp
  have hκ0 : 0 < κ := by positivity
  have hdeg : (p ^ 2 - Polynomial.C κ * q ^ 2).natDegree ≤ 2 * o + 1 := by
    rw [Polynomial.natDegree_le_iff_coeff_eq_zero]
    intro N hN
    have h1 : (p ^ 2).natDegree ≤ 2 * (o + 1) :=
      Polynomial.natDegree_pow_le.trans (by rw [hp])
    have h2 : (q ^ 2).natDegree ≤ 2 * (o + 1) :=
      Polynomial.natDegree_pow_le.trans (by rw [hd])
    rw [Polynomial.coeff_sub, Polynomial.coeff_C_mul]
    by_cases hN' : N = 2 * (o + 1)
    · subst hN'
      rw [sq p, sq q, two_mul, Polynomial.coeff_mul_add_eq_of_natDegree_le hp.le hp.le,
        Polynomial.coeff_mul_add_eq_of_natDegree_le hd.le hd.le, hκ]
      field_simp
      ring
    · rw [Polynomial.coeff_eq_zero_of_natDegree_lt (by omega),
        Polynomial.coeff_eq_zero_of_natDegree_lt (by omega)]
      ring
  have hex := localRule_exact P hP L hL o _ hdeg (fun h => absurd h ho)
  have hLe : L (p ^ 2 - Polynomial.C κ * q ^ 2) = L (p ^ 2) - κ := by
    rw [map_sub, ← Polynomial.smul_eq_C_mul, map_smul, sq q, hq, hL, if_pos rfl, smul_eq_mul, mul_one]
  have hroot : ∀ x ∈ (P.localRule o).pts, q.eval x = 0 := by
    intro x hx
    unfold MParam.localRule at hx
    rw [if_neg ho] at hx
    simp only [List.mem_ofFn] at hx
    obtain ⟨u, rfl⟩ := hx
    rw [(rule_eq P.ab o (fun k h1 _ => hP.pos k h1) _ _ (hP.eigh o) _ (hP.sort o) u).1]
    exact nodes_are_roots P.ab o (fun k h1 _ => hP.pos k h1) _ _ (hP.eigh o) u
  have hsum : (List.zipWith (fun x w => w * (p ^ 2 - Polynomial.C κ * q ^ 2).eval x)
      (P.localRule o).pts (P.localRule o).wts).sum = (List.zipWith (fun x w => w * (p ^ 2).eval x)
      (P.localRule o).pts (P.localRule o).wts).sum := by
    congr 1
    apply List.ext_getElem
    · simp
    · intro i h1 h2
      simp only [List.getElem_zipWith]
      rw [Polynomial.eval_sub, Polynomial.eval_mul, Polynomial.eval_pow (p := q),
        hroot _ (List.getElem_mem _)]
      ring
  rw [← hsum, hex, hLe]
  linarith

/-- C82, a case that fails, for every law of the input: for the quadratic model `π_2` of one input
the statistics code uses the grid of order 3, and the kurtosis it reports is strictly smaller than
the kurtosis of the model. -/
theorem c82_kurtosis_violated (P : MParam) (hP : Valid P) (E : (ℝ → ℝ) → ℝ) (hE : Law P E) :
    ∃ pts wts M v, tensorGrid (localRules [P] [3]) = .ok (pts, wts) ∧
      Expansion.getPoly ⟨[P], [[0], [1], [2]], none⟩ none pts = .ok M ∧
      (∀ x, x.length = 1 →
        Expansion.polyfit ⟨[P], [[0], [1], [2]], none⟩ [0, 0, 1] [x] = .ok [basisFun [P] [2] x]) ∧
      variance [0, 0, 1] = .ok v ∧ v = lawVar [E] (basisFun [P] [2]) ∧
      kurtosis wts (weightedEvals M [0, 0, 1]) v <
        prodE [E] (fun x => (basisFun [P] [2] x - prodE [E] (basisFun [P] [2])) ^ 4) / v ^ 2 := by
  set B : Expansion := ⟨[P], [[0], [1], [2]], none⟩ with hBd
  have hB : Regular B := ⟨by simp [hBd], by simp [hBd, Expansion.dims], by
    intro _; exact ⟨2, by simp [hBd, List.range_succ]⟩, by simp [hBd, SquareOpt]⟩
  have hR : B.dims = 1 ∨ B.invR = none := .inr rfl
  have hz : B.elements.head? = some (List.replicate B.dims 0) := rfl
  have hnd : B.elements.Nodup := by simp [hBd]
  have hfx : ∀ x, x.length = B.dims → B.polyfit [0, 0, 1] [x] = .ok [basisFun [P] [2] x] := by
    intro x hx
    rw [polyfit_eq B hB _ rfl [x] (by simpa using hx), eff_plain B hR]
    simp [expansion, hBd]
  obtain ⟨hm, hv⟩ := c32_mean_variance_partial B hB hR hz hnd [E] (.cons hE .nil) [0, 0, 1] rfl
    (by simp) _ hfx
  have hm0 : prodE [E] (basisFun [P] [2]) = 0 := by
    have : mean [0, 0, 1] = .ok (0 : ℝ) := rfl
    rw [hm, Except.ok.injEq] at this
    exact this
  have hv1 : variance [0, 0, (1 : ℝ)] = .ok 1 := by
    simp [variance]
  have hv1' : lawVar [E] (basisFun [P] [2]) = 1 := by
    have := hv1
    rw [hv, Except.ok.injEq] at this
    exact this
  obtain ⟨M, hM, hsh, hone⟩ := c40_first_row B hB hR hz _ (gpts_mem [P] [3] rfl)
  have hpf : B.polyfit [0, 0, 1] (gpts [P] [3]) = .ok ((gpts [P] [3]).map (basisFun [P] [2])) := by
    rw [polyfit_eq B hB _ rfl _ (gpts_mem [P] [3] rfl), eff_plain B hR]
    simp [expansion, hBd]
  refine ⟨_, _, M, 1, tensorGrid_gpts [P] (by simp) [3] rfl, hM, hfx, hv1, hv1'.symm, ?_⟩
  have hk := (c40_central_moments B _ _ (gwts_length _ _) M hM hsh hone [0, 0, 1] _ hpf 0 1 rfl hv1
    one_pos).2
  rw [hk, hm0]
  simp only [one_pow, div_one]
  obtain ⟨L, hL⟩ := hE.linear
  have hLo : ∀ i j, L (opoly P.ab i * opoly P.ab j) = if i = j then 1 else 0 := by
    intro i j
    rw [← hL, ← hE.orth i j]
    simp only [Polynomial.eval_mul, univ_eq]
  have hlt := localRule_square_lt P hP L hLo 3 (by omega) (opoly P.ab 2 ^ 2) (by
    rw [Polynomial.natDegree_pow, (opoly_coeff P.ab hP.pos 2).1])
  rw [← hL] at hlt
  have e2 : prodE [E] (fun x => (basisFun [P] [2] x - 0) ^ 4) =
      E fun x => ((opoly P.ab 2 ^ 2) ^ 2).eval x := by
    simp only [prodE]
    congr 1
    funext x
    simp only [basisFun, Polynomial.eval_pow, univ_eq]
    ring
  have e1 : centralSum (gpts [P] [3]) (gwts [P] [3]) (basisFun [P] [2]) 0 4 =
      (List.zipWith (fun x w => w * ((opoly P.ab 2 ^ 2) ^ 2).eval x) (P.localRule 3).pts
        (P.localRule 3).wts).sum := by
    have h := grid_moment [P] P [3] rfl [[2], [2], [2], [2]] (by simp)
    have e : ∀ x : ℝ, ((opoly P.ab 2 ^ 2) ^ 2).eval x =
        univ P 2 x * (univ P 2 x * (univ P 2 x * univ P 2 x)) := by
      intro x; simp only [Polynomial.eval_pow, univ_eq]; ring
    simp only [e]
    simp only [factors, localRules, List.length_cons, List.length_nil, List.range_succ,
      List.range_zero, List.nil_append, List.map_cons, List.map_nil,
      List.zipWith_cons_cons, List.zipWith_nil_right, List.prod_cons, List.prod_nil,
      List.getD_cons_zero, mul_one] at h
    rw [← h]
    unfold centralSum gpts gwts
    simp only [localRules, List.zipWith_cons_cons, List.zipWith_nil_right, List.map_cons,
      List.map_nil]
    generalize ixs [(P.localRule 3).pts.length] = I
    rw [map_eq_range I [] (fun idx => gridWeight [P.localRule 3] idx *
      (basisFun [P] [2] (gridPoint [P.localRule 3] idx) *
        (basisFun [P] [2] (gridPoint [P.localRule 3] idx) *
          (basisFun [P] [2] (gridPoint [P.localRule 3] idx) *
            basisFun [P] [2] (gridPoint [P.localRule 3] idx))))), range_map_sum, List.length_map]
    apply Finset.sum_congr rfl
    intro j hj
    rw [Finset.mem_range] at hj
    rw [getD_map' _ _ _ _ hj, getD_map' _ _ _ _ hj, getD_of_lt I [] j hj]
    ring
  rw [e1, e2]
  exact hlt

/-- Hypotheses of `c82_law_moments_partial` and `c82_kurtosis_violated`: two uniform inputs, a
linear model, the grid of order 2 used by the statistics code. -/
example : ∃ (P : MParam) (E : (ℝ → ℝ) → ℝ), Valid P ∧ Law P E ∧
    ∀ row ∈ [[0, 0], [0, 1], [1, 0]],
      List.Forall₂ (fun n o => 3 * n ≤ 2 * o + 1) row [2, 2] ∧
      List.Forall₂ (fun n o => 4 * n ≤ 2 * o + 1) row [2, 2] := by
  obtain ⟨P, hv, hab, -⟩ := exists_valid (jtab (1 - 1) (1 - 1) (-1) 1)
    (by norm_num [jtab, jacobiRow]) (fun k hk => beta_tab_pos one_pos one_pos (by norm_num) k hk)
    none none 0
  exact ⟨P, _, hv, law_beta 1 1 (-1) 1 one_pos one_pos (by norm_num) P hab, by simp⟩

end EQ.Stats
