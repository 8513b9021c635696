import Verif.Sampling.BiasLemmas
import Verif.Sampling.SparseWitness

/-!
# The induced mesh integrates without bias (C132)
-/

namespace EQ.Sampling
open Polynomial MeasureTheory Spec EQ.ParamSpec EQ.Param EQ.Basis

/-- The sum of the squares of the orthonormal product polynomials of the index set. -/
noncomputable def Spec.kernel (P : ℕ → ℝ[X]) (I : List (List ℕ)) {d : ℕ} (x : Fin d → ℝ) : ℝ :=
  (I.map fun row => ∏ j : Fin d, (P (row.getD j 0)).eval (x j) ^ 2).sum

/-- The expectation of `f` for independent uniform parameters on `[-1, 1]`. -/
noncomputable def Spec.cubeE {d : ℕ} (f : (Fin d → ℝ) → ℝ) : ℝ :=
  (1 / 2) ^ d * ∫ x, f x ∂(Measure.pi fun _ : Fin d => volume.restrict (Set.Icc (-1) 1))

/-- sampling_methods/induced.py:22-52 with sampling_template.py (points and weights of the mesh) and the sum
`np.dot(weights, f(points))` a user forms, for the random numbers `u`, with `ray` installed. -/
noncomputable def inducedEstimate (params : List MParam) (I : List (List ℕ)) (ratio maxOrder : ℕ) (inv : ℕ → ℝ → ℝ)
    (f : (Fin params.length → ℝ) → ℝ) (u : Fin (I.length * ratio) → Fin params.length → ℝ) : ℝ :=
  let pts := inducedPoints true inv I ratio (List.ofFn fun i => List.ofFn (u i)) maxOrder
    (List.replicate params.length 1) (List.replicate params.length 0)
  let w := inducedWeights (multiPoly params I params.length pts) I.length (I.length * ratio)
  ∑ i : Fin (I.length * ratio), w.getD i 0 * f fun j => entry pts i j

theorem opoly_orthonormal (n : ℕ) : Orthonormal n (opoly (jtab 0 0 (-1) 1) n) := by
  have hlu : (-1 : ℝ) < 1 := by norm_num
  have G := unif_good hlu
  have hpr : 0 < ∏ k ∈ Finset.Icc 1 n, √(jtab 0 0 (-1) 1 k).2 :=
    Finset.prod_pos fun k hk => Real.sqrt_pos.2 (G.pos k (Finset.mem_Icc.1 hk).1)
  have hmo := mpoly_opoly (jtab 0 0 (-1) 1) n fun k h _ => G.pos k h
  refine ⟨?_, ?_, ?_⟩
  · have := (mpoly_monic (jtab 0 0 (-1) 1) n).2
    rwa [hmo, natDegree_C_mul hpr.ne'] at this
  · intro Q hQ
    have := G.low n Q hQ
    rw [hmo, mul_assoc, ← smul_eq_C_mul, map_smul, smul_eq_mul] at this
    have h2 := (mul_eq_zero.1 this).resolve_left hpr.ne'
    rw [unif_apply] at h2
    simpa only [eval_mul] using h2
  · have := G.orth n n n le_rfl le_rfl
    rw [if_pos rfl, unif_apply] at this
    simpa only [eval_mul, sq] using this

theorem basisFun_prod (n : ℕ → ℝ[X]) : ∀ (params : List MParam) (row : List ℕ) (x : List ℝ),
    (∀ p ∈ params, ∀ k t, univ p k t = (n k).eval t) → row.length = params.length → x.length = params.length →
    basisFun params row x = ∏ j : Fin params.length, (n (row.getD j 0)).eval (x.getD j 0)
  | [], _, _, _, _, _ => by simp [basisFun]
  | p :: ps, [], _, _, h, _ => by simp at h
  | p :: ps, _ :: _, [], _, _, h => by simp at h
  | p :: ps, k :: row, t :: x, hp, h1, h2 => by
    have ih := basisFun_prod n ps row x (fun q hq => hp q (by simp [hq])) (by simpa using h1) (by simpa using h2)
    rw [basisFun, ih, hp p (by simp)]
    simp only [List.length_cons, Fin.prod_univ_succ, Fin.val_zero, Fin.val_succ, List.getD_cons_zero, List.getD_cons_succ]

theorem sum_blocks (B : ℕ → ℝ) (r : ℕ) (hr : 0 < r) : ∀ N, ∑ i ∈ Finset.range (N * r), B (i / r) = r * ∑ k ∈ Finset.range N, B k
  | 0 => by simp
  | N + 1 => by
    rw [Nat.add_mul, one_mul, Finset.sum_range_add, sum_blocks B r hr N, Finset.sum_range_succ, mul_add]
    congr 1
    rw [Finset.sum_congr rfl (g := fun _ => B N), Finset.sum_const, Finset.card_range, nsmul_eq_mul]
    intro i hi
    rw [Nat.mul_comm N r, Nat.mul_add_div hr, Nat.div_eq_of_lt (Finset.mem_range.1 hi), add_zero]

theorem kernel_one_le (P : ℕ → ℝ[X]) (hP : ∀ n, Orthonormal n (P n)) (I : List (List ℕ)) {d : ℕ} (hc : List.replicate d 0 ∈ I)
    (x : Fin d → ℝ) : 1 ≤ kernel P I x := by
  have h0 : ∀ t, (P 0).eval t ^ 2 = 1 := by
    intro t
    have := congrArg (eval t) (orthonormal_sq (hP 0))
    simpa [nrm, mpoly, sq] using this
  have h1 : (1 : ℝ) ∈ I.map fun row => ∏ j : Fin d, (P (row.getD j 0)).eval (x j) ^ 2 := by
    refine List.mem_map.2 ⟨_, hc, Finset.prod_eq_one fun j _ => ?_⟩
    have : (List.replicate d 0).getD (j : ℕ) 0 = 0 := by simp
    rw [this, h0]
  refine List.single_le_sum ?_ _ h1
  intro y hy
  obtain ⟨row, _, rfl⟩ := List.mem_map.1 hy
  exact Finset.prod_nonneg fun j _ => by positivity

theorem kernel_cont (P : ℕ → ℝ[X]) (I : List (List ℕ)) (d : ℕ) : Continuous fun x : Fin d → ℝ => kernel P I x := by
  unfold kernel
  induction I with
  | nil => simpa using continuous_const
  | cons row I ih =>
    simp only [List.map_cons, List.sum_cons]
    refine Continuous.add ?_ ih
    fun_prop

theorem squares_eq {n : ℕ} {P Q : ℝ[X]} (hP : Orthonormal n P) (hQ : Orthonormal n Q) (t : ℝ) : P.eval t ^ 2 = Q.eval t ^ 2 := by
  have := congrArg (eval t) ((orthonormal_sq hP).trans (orthonormal_sq hQ).symm)
  simpa [sq] using this

/-- The sums of squares down the columns. -/
theorem column_kernel (params : List MParam) (hu : ∀ p ∈ params, IsUniform p) (I : List (List ℕ))
    (hI : ∀ row ∈ I, row.length = params.length)
    (hone : params.length = 1 → ∃ m, I.Perm ((List.range (m + 1)).map fun n => [n]))
    (P : ℕ → ℝ[X]) (hP : ∀ n, Orthonormal n (P n)) (pts : List (List ℝ)) (hp : ∀ x ∈ pts, x.length = params.length)
    (k : ℕ) (hk : k < pts.length) :
    ((multiPoly params I params.length pts).map fun row => row.getD k 0 ^ 2).sum =
      kernel P I fun j : Fin params.length => entry pts k j := by
  have hb : ∀ row : List ℕ, row.length = params.length → basisFun params row pts[k] ^ 2 =
      ∏ j : Fin params.length, (P (row.getD j 0)).eval (entry pts k j) ^ 2 := by
    intro row hrow
    rw [basisFun_prod (fun n => opoly (jtab 0 0 (-1) 1) n) params row pts[k]
      (fun p hp' n t => by rw [univ_eq, (hu p hp').ab]) hrow (hp _ (List.getElem_mem hk)), ← Finset.prod_pow]
    refine Finset.prod_congr rfl fun j _ => ?_
    rw [squares_eq (opoly_orthonormal _) (hP _), entry, getD_of_lt pts _ _ hk]
  by_cases hd : params.length = 1
  · obtain ⟨p, rfl⟩ := List.length_eq_one_iff.1 hd
    obtain ⟨m, hm⟩ := hone rfl
    have hcm : colMax I 0 = m := by
      apply le_antisymm
      · refine colMax_le _ _ _ fun row hr => ?_
        obtain ⟨n, hn, rfl⟩ := List.mem_map.1 (hm.mem_iff.1 hr)
        rw [List.mem_range] at hn
        simp; omega
      · have := le_colMax I 0 [m] (hm.mem_iff.2 (List.mem_map.2 ⟨m, by simp, rfl⟩))
        simpa using this
    have hs : kernel P I (fun j : Fin [p].length => entry pts k j) = (((List.range (m + 1)).map fun n => [n]).map fun row =>
        ∏ j : Fin [p].length, (P (row.getD j 0)).eval (entry pts k j) ^ 2).sum := (hm.map _).sum_eq
    rw [hs, List.map_map]
    congr 1
    have hlen : (multiPoly [p] I 1 pts).length = m + 1 := by simp [multiPoly, hcm]
    apply List.ext_getElem
    · simpa using hlen
    · intro r h1 h2
      simp only [List.length_map, List.length_range] at h1 h2
      have := multiPoly_entry_one p I pts hp r k (by omega) hk
      unfold entry at this
      rw [getD_of_lt (multiPoly [p] I 1 pts) _ _ (by omega)] at this
      simp only [List.getElem_map, List.getElem_range, Function.comp]
      rw [← hb [r] rfl, ← this]
      rfl
  · rw [kernel]
    congr 1
    have hlen : (multiPoly params I params.length pts).length = I.length := by
      simp [multiPoly, hd]
    apply List.ext_getElem
    · simp [hlen]
    · intro r h1 h2
      simp only [List.length_map] at h1 h2
      have := multiPoly_entry params I pts hd hI hp r k h2 hk
      unfold entry at this
      rw [getD_of_lt (multiPoly params I params.length pts) _ _ h1] at this
      simp only [List.getElem_map]
      rw [this, hb _ (hI _ (List.getElem_mem h2))]

/-- The entries of the mesh and the weights. -/
theorem estimate_eq (params : List MParam) (hu : ∀ p ∈ params, IsUniform p) (I : List (List ℕ))
    (hI : ∀ row ∈ I, row.length = params.length)
    (hone : params.length = 1 → ∃ m, I.Perm ((List.range (m + 1)).map fun n => [n]))
    (ratio : ℕ) (hr : 0 < ratio) (maxOrder : ℕ) (hmax : ∀ row ∈ I, ∀ a ∈ row, a ≤ maxOrder) (inv : ℕ → ℝ → ℝ)
    (P : ℕ → ℝ[X]) (hP : ∀ n, Orthonormal n (P n))
    (f : (Fin params.length → ℝ) → ℝ) (u : Fin (I.length * ratio) → Fin params.length → ℝ) :
    inducedEstimate params I ratio maxOrder inv f u = ∑ i : Fin (I.length * ratio),
      (I.length : ℝ) / (I.length * ratio : ℕ) *
        ((fun x => f x / kernel P I x) fun j => inv ((I.getD (i / ratio) []).getD j 0) (u i j)) := by
  unfold inducedEstimate
  obtain ⟨hl, he⟩ := c27_induced_partial inv I ratio hr (List.ofFn fun i => List.ofFn (u i)) maxOrder
    (List.replicate params.length 1) (List.replicate params.length 0) hmax
  have hsh := inducedRaw_shape true inv (repeatRows I ratio) (List.ofFn fun i => List.ofFn (u i)) maxOrder
  have hp : ∀ x ∈ inducedPoints true inv I ratio (List.ofFn fun i => List.ofFn (u i)) maxOrder
      (List.replicate params.length 1) (List.replicate params.length 0), x.length = params.length := by
    intro x hx
    unfold inducedPoints scaleSupport at hx
    obtain ⟨y, hy, rfl⟩ := List.mem_map.1 hx
    have h1 : y.length ∈ (repeatRows I ratio).map List.length := by
      rw [← hsh]; exact List.mem_map_of_mem hy
    obtain ⟨row, hrow, e⟩ := List.mem_map.1 h1
    have h2 : row ∈ I := by
      obtain ⟨r, hr1, hr2⟩ := List.mem_flatMap.1 hrow
      rw [List.eq_of_mem_replicate hr2]
      exact hr1
    simp only [List.length_map, List.length_zipIdx]
    rw [← e, hI row h2]
  simp only
  generalize inducedPoints true inv I ratio (List.ofFn fun i => List.ofFn (u i)) maxOrder
    (List.replicate params.length 1) (List.replicate params.length 0) = pts at *
  refine Finset.sum_congr rfl fun i _ => ?_
  have hent : (fun j : Fin params.length => entry pts i j) = fun j : Fin params.length => inv ((I.getD (i / ratio) []).getD (j : ℕ) 0) (u i j) := by
    funext j
    have hrow : (i : ℕ) / ratio < I.length := (Nat.div_lt_iff_lt_mul hr).2 i.2
    have hj : (j : ℕ) < (I.getD (i / ratio) []).length := by
      rw [hI _ (by rw [getD_of_lt I _ _ hrow]; exact List.getElem_mem hrow)]; exact j.2
    rw [he i i.2 j hj]
    have e1 : (List.replicate params.length (1 : ℝ)).getD j 0 = 1 := by simp [List.getD_eq_getElem?_getD]
    have e2 : (List.replicate params.length (0 : ℝ)).getD j 0 = 0 := by simp [List.getD_eq_getElem?_getD]
    have e3 : entry (List.ofFn fun i => List.ofFn (u i)) i j = u i j := by
      simp [entry, List.getD_eq_getElem?_getD]
    rw [e1, e2, e3, one_mul, add_zero]
  have hw : (inducedWeights (multiPoly params I params.length pts) I.length (I.length * ratio)).getD i 0 =
      (I.length : ℝ) / (I.length * ratio : ℕ) / kernel P I fun j : Fin params.length => entry pts i j := by
    rw [inducedWeights, columnSquares, List.map_map, getD_map_lt _ _ _ _ (by simp), Function.comp]
    simp only [List.getElem_range]
    rw [column_kernel params hu I hI hone P hP pts hp i (by rw [hl]; exact i.2)]
  rw [hw, hent]
  ring

variable {O : Outside} (hO : O.Contract)
include hO

/-- Averaged over the random numbers, the weighted sum over the mesh is the expectation of `f`, up to the tolerance of the root
solver times a Lipschitz constant of `f` divided by the kernel. -/
theorem c132_unbiased (params : List MParam) (hu : ∀ p ∈ params, IsUniform p) (I : List (List ℕ))
    (hI : ∀ row ∈ I, row.length = params.length) (hc : List.replicate params.length 0 ∈ I)
    (hone : params.length = 1 → ∃ m, I.Perm ((List.range (m + 1)).map fun n => [n]))
    (ratio : ℕ) (hr : 0 < ratio) (maxOrder : ℕ) (hmax : ∀ row ∈ I, ∀ a ∈ row, a ≤ maxOrder)
    (inv : ℕ → ℝ → ℝ) (hm : ∀ n, Measurable (inv n))
    (hinv : ∀ n ≤ maxOrder, ∀ v, 0 ≤ v → v ≤ 1 → inverseInduced O (-1) 1 maxOrder n v = .ok (inv n v))
    (P : ℕ → ℝ[X]) (hP : ∀ n, Orthonormal n (P n)) (f : (Fin params.length → ℝ) → ℝ) (hf : Continuous f) (Λ : ℝ) (hΛ0 : 0 ≤ Λ)
    (hΛ : ∀ x y : Fin params.length → ℝ, (∀ j, -1 ≤ x j ∧ x j ≤ 1) → (∀ j, -1 ≤ y j ∧ y j ≤ 1) →
      |f x / kernel P I x - f y / kernel P I y| ≤ Λ * dist x y) :
    |∫ u, inducedEstimate params I ratio maxOrder inv f u
        ∂(Measure.pi fun _ : Fin (I.length * ratio) => Measure.pi fun _ : Fin params.length => volume.restrict (Set.Icc 0 1)) -
      cubeE f| ≤ I.length * (Λ * (0.00005 + 1 / 2 ^ 50)) := by
  obtain ⟨d, hd⟩ : ∃ d, d = params.length := ⟨_, rfl⟩
  have hN : 0 < I.length := List.length_pos_of_mem hc
  have hMpos : 0 < I.length * ratio := Nat.mul_pos hN hr
  -- the exact quantiles
  have hq : ∀ n v, ∃ z, n ≤ maxOrder → 0 ≤ v → v ≤ 1 →
      -1 ≤ z ∧ z ≤ 1 ∧ inducedF (P n) z = v ∧ |inv n v - z| ≤ 0.00005 + 1 / 2 ^ 50 ∧ -1 ≤ inv n v ∧ inv n v ≤ 1 := by
    intro n v
    by_cases h : n ≤ maxOrder ∧ 0 ≤ v ∧ v ≤ 1
    · obtain ⟨r, z, e, q2, q3, q4, q5, q6, q7⟩ := c130_quantile hO n maxOrder h.1 (P n) (hP n) v h.2.1 h.2.2
      rw [hinv n h.1 v h.2.1 h.2.2] at e
      injection e with e
      rw [e]
      exact ⟨z, fun _ _ _ => ⟨q4, q5, q6, q7, q2, q3⟩⟩
    · exact ⟨0, fun a b c => absurd ⟨a, b, c⟩ h⟩
  choose q hq using hq
  have hclip : ∀ v : ℝ, 0 ≤ v → v ≤ 1 → max 0 (min v 1) = v := fun v h0 h1 => by rw [min_eq_left h1, max_eq_right h0]
  let q' : ℕ → ℝ → ℝ := fun n v => q n (max 0 (min v 1))
  have hq'm : ∀ n ≤ maxOrder, Measurable (q' n) := fun n hn =>
    quantile_measurable (P := P n) (q n) fun v h0 h1 => (hq n v hn h0 h1).2.2.1
  have hq' : ∀ n ≤ maxOrder, ∀ v, 0 ≤ v → v ≤ 1 → -1 ≤ q' n v ∧ q' n v ≤ 1 ∧ inducedF (P n) (q' n v) = v ∧
      |inv n v - q' n v| ≤ 0.00005 + 1 / 2 ^ 50 ∧ -1 ≤ inv n v ∧ inv n v ≤ 1 := by
    intro n hn v h0 h1
    simp only [q', hclip v h0 h1]
    exact hq n v hn h0 h1
  have hord : ∀ i < I.length, ∀ j, (I.getD i []).getD j 0 ≤ maxOrder := by
    intro i hi j
    have hmem : I.getD i [] ∈ I := by
      rw [List.getD_eq_getElem?_getD, List.getElem?_eq_getElem hi]; exact List.getElem_mem hi
    generalize I.getD i [] = row at hmem ⊢
    by_cases hj : j < row.length
    · rw [List.getD_eq_getElem?_getD, List.getElem?_eq_getElem hj]
      exact hmax _ hmem _ (List.getElem_mem hj)
    · rw [List.getD_eq_getElem?_getD, List.getElem?_eq_none (by omega)]; simp
  have hdiv : ∀ i < I.length * ratio, i / ratio < I.length := fun i hi => Nat.div_lt_of_lt_mul (by rw [mul_comm]; exact hi)
  -- the function averaged
  let h : (Fin params.length → ℝ) → ℝ := fun x => f x / kernel P I x
  have hK : ∀ x : Fin params.length → ℝ, 1 ≤ kernel P I x := fun x => kernel_one_le P hP I hc x
  have hcont : Continuous h := hf.div (kernel_cont P I _) fun x => by have := hK x; positivity
  have hae : ∀ᵐ v ∂(Measure.pi fun _ : Fin params.length => unit01), ∀ j, 0 ≤ v j ∧ v j ≤ 1 := by
    rw [ae_all_iff]
    intro j
    have h1 : ∀ᵐ t : ℝ ∂unit01, t ∈ Set.Icc (0 : ℝ) 1 := ae_restrict_mem measurableSet_Icc
    exact (Measure.quasiMeasurePreserving_eval (μ := fun _ : Fin params.length => unit01) j).ae h1
  obtain ⟨B, hB⟩ := (isCompact_univ_pi fun _ : Fin params.length => isCompact_Icc (a := (-1 : ℝ)) (b := 1)).exists_bound_of_continuousOn
    hcont.continuousOn
  have hint : ∀ (g : Fin params.length → ℝ → ℝ), (∀ j, Measurable (g j)) → (∀ j v, 0 ≤ v → v ≤ 1 → -1 ≤ g j v ∧ g j v ≤ 1) →
      AEStronglyMeasurable (fun v : Fin params.length → ℝ => h fun j => g j (v j)) (Measure.pi fun _ => unit01) ∧
      Integrable (fun v : Fin params.length → ℝ => h fun j => g j (v j)) (Measure.pi fun _ => unit01) := by
    intro g hg hb
    have hmeas : Measurable fun v : Fin params.length → ℝ => h fun j => g j (v j) :=
      hcont.measurable.comp (measurable_pi_lambda _ fun j => (hg j).comp (measurable_pi_apply j))
    refine ⟨hmeas.aestronglyMeasurable, Integrable.of_bound hmeas.aestronglyMeasurable B ?_⟩
    filter_upwards [hae] with v hv
    exact hB _ fun j _ => hb j _ (hv j).1 (hv j).2
  -- one row
  have hrow : ∀ i < I.length, |∫ v, (h fun j => inv ((I.getD i []).getD j 0) (v j)) ∂(Measure.pi fun _ => unit01) -
      ∫ x, (∏ j : Fin params.length, (P ((I.getD i []).getD j 0)).eval (x j) ^ 2 / 2) * h x ∂(cube params.length)| ≤
        Λ * (0.00005 + 1 / 2 ^ 50) := by
    intro i hi
    rw [← row_expectation (fun j : Fin params.length => P ((I.getD i []).getD j 0)) (fun j => (I.getD i []).getD j 0)
      (fun j => hP _) (fun j => q' ((I.getD i []).getD j 0)) (fun j => hq'm _ (hord i hi j))
      (fun j v h0 h1 => ⟨(hq' _ (hord i hi j) v h0 h1).1, (hq' _ (hord i hi j) v h0 h1).2.1,
        (hq' _ (hord i hi j) v h0 h1).2.2.1⟩) h hcont]
    rw [← integral_sub (hint _ (fun j => hm _) fun j v h0 h1 => (hq' _ (hord i hi j) v h0 h1).2.2.2.2).2
      (hint _ (fun j => hq'm _ (hord i hi j)) fun j v h0 h1 => ⟨(hq' _ (hord i hi j) v h0 h1).1, (hq' _ (hord i hi j) v h0 h1).2.1⟩).2]
    have := norm_integral_le_of_norm_le_const (μ := Measure.pi fun _ : Fin params.length => unit01)
      (f := fun v => (h fun j => inv ((I.getD i []).getD j 0) (v j)) - h fun j => q' ((I.getD i []).getD j 0) (v j))
      (C := Λ * (0.00005 + 1 / 2 ^ 50)) (by
        filter_upwards [hae] with v hv
        have hx := fun j : Fin params.length => hq' _ (hord i hi j) (v j) (hv j).1 (hv j).2
        refine (hΛ _ _ (fun j => (hx j).2.2.2.2) fun j => ⟨(hx j).1, (hx j).2.1⟩).trans ?_
        refine mul_le_mul_of_nonneg_left ((dist_pi_le_iff (by positivity)).2 fun j => ?_) hΛ0
        rw [Real.dist_eq]
        exact (hx j).2.2.2.1)
    simpa using this
  -- all rows
  have hE : ∫ u, inducedEstimate params I ratio maxOrder inv f u
      ∂(Measure.pi fun _ : Fin (I.length * ratio) => Measure.pi fun _ : Fin params.length => unit01) =
      ∑ k ∈ Finset.range I.length, ∫ v, (h fun j => inv ((I.getD k []).getD j 0) (v j)) ∂(Measure.pi fun _ => unit01) := by
    have e1 := fun u => estimate_eq params hu I hI hone ratio hr maxOrder hmax inv P hP f u
    simp only [e1]
    have hgi := fun i : Fin (I.length * ratio) => hint (fun j => inv ((I.getD (i / ratio) []).getD j 0)) (fun j => hm _)
      fun j v h0 h1 => (hq' _ (hord _ (hdiv i i.2) j) v h0 h1).2.2.2.2
    rw [integral_finsetSum _ fun i _ => ((integrable_comp_eval (μ := fun _ : Fin (I.length * ratio) =>
      Measure.pi fun _ : Fin params.length => unit01) (i := i) (hgi i).2).const_mul _)]
    have e2 : ∀ i : Fin (I.length * ratio), ∫ u : Fin (I.length * ratio) → Fin params.length → ℝ,
        (I.length : ℝ) / (I.length * ratio : ℕ) * (fun x => f x / kernel P I x)
          (fun j => inv ((I.getD (i / ratio) []).getD j 0) (u i j))
        ∂(Measure.pi fun _ : Fin (I.length * ratio) => Measure.pi fun _ : Fin params.length => unit01) =
        (I.length : ℝ) / (I.length * ratio : ℕ) *
          ∫ v, (h fun j => inv ((I.getD (i / ratio) []).getD j 0) (v j)) ∂(Measure.pi fun _ => unit01) := by
      intro i
      rw [integral_const_mul]
      congr 1
      exact integral_comp_eval (μ := fun _ : Fin (I.length * ratio) => Measure.pi fun _ : Fin params.length => unit01) (i := i)
        (hgi i).1
    rw [Finset.sum_congr rfl fun i _ => e2 i, Fin.sum_univ_eq_sum_range (fun i => (I.length : ℝ) / (I.length * ratio : ℕ) *
      ∫ v, (h fun j => inv ((I.getD (i / ratio) []).getD j 0) (v j)) ∂(Measure.pi fun _ => unit01)), ← Finset.mul_sum,
      sum_blocks (fun k => ∫ v, (h fun j => inv ((I.getD k []).getD j 0) (v j)) ∂(Measure.pi fun _ => unit01)) ratio hr]
    have h1 : (I.length : ℝ) ≠ 0 := by positivity
    have h2 : (ratio : ℝ) ≠ 0 := by positivity
    push_cast
    field_simp
  have hS : cubeE f = ∑ k ∈ Finset.range I.length,
      ∫ x, (∏ j : Fin params.length, (P ((I.getD k []).getD j 0)).eval (x j) ^ 2 / 2) * h x ∂(cube params.length) := by
    rw [← integral_finsetSum _ fun k _ => cont_integrable _ (by fun_prop), cubeE, ← integral_const_mul]
    refine integral_congr_ae (Filter.Eventually.of_forall fun x => ?_)
    have e1 : ∀ k, ∏ j : Fin params.length, (P ((I.getD k []).getD j 0)).eval (x j) ^ 2 / 2 =
        (1 / 2) ^ params.length * ∏ j : Fin params.length, (P ((I.getD k []).getD j 0)).eval (x j) ^ 2 := by
      intro k
      simp only [div_eq_mul_inv, Finset.prod_mul_distrib, Finset.prod_const, Finset.card_univ, Fintype.card_fin]
      ring
    have e2 : kernel P I x = ∑ k ∈ Finset.range I.length, ∏ j : Fin params.length, (P ((I.getD k []).getD j 0)).eval (x j) ^ 2 := by
      rw [kernel, ← Fin.sum_univ_eq_sum_range (fun k => ∏ j : Fin params.length, (P ((I.getD k []).getD j 0)).eval (x j) ^ 2),
        ← List.sum_ofFn]
      congr 1
      apply List.ext_getElem
      · simp
      · intro k h1 h2
        simp only [List.length_map] at h1
        simp [List.getD_eq_getElem?_getD, List.getElem?_eq_getElem h1]
    beta_reduce
    simp only [e1]
    rw [← Finset.sum_mul, ← Finset.mul_sum, ← e2]
    have := hK x
    simp only [h]
    field_simp
  change |∫ u, inducedEstimate params I ratio maxOrder inv f u
      ∂(Measure.pi fun _ : Fin (I.length * ratio) => Measure.pi fun _ : Fin params.length => unit01) - cubeE f| ≤ _
  rw [hE, hS, ← Finset.sum_sub_distrib]
  refine (Finset.abs_sum_le_sum_abs _ _).trans ((Finset.sum_le_sum fun k hk => hrow k (Finset.mem_range.1 hk)).trans ?_)
  rw [Finset.sum_const, Finset.card_range, nsmul_eq_mul]

omit hO in
/-- The hypotheses are met by one uniform parameter, the orders 0 and 1 and a solver that finds exact roots: then the mean of the
sum for `x` times the kernel is within the tolerance. -/
example : ∃ (O : Outside) (p : MParam) (inv : ℕ → ℝ → ℝ) (P : ℕ → ℝ[X]), O.Contract ∧ IsUniform p ∧
    |∫ u, inducedEstimate [p] [[0], [1]] 2 1 inv (fun x => x 0 * kernel P [[0], [1]] x) u
        ∂(Measure.pi fun _ : Fin ([[0], [1]].length * 2) => Measure.pi fun _ : Fin [p].length => volume.restrict (Set.Icc 0 1)) -
      cubeE fun x : Fin [p].length → ℝ => x 0 * kernel P [[0], [1]] x| ≤ 2 * (1 * (0.00005 + 1 / 2 ^ 50)) := by
  obtain ⟨O, hO, hexact⟩ := exact_contract_exists
  obtain ⟨p, hp⟩ := exists_uniform
  choose P hP using orthonormal_exists
  have hr : ∀ n v, ∃ r, n ≤ 1 → 0 ≤ v → v ≤ 1 → inverseInduced O (-1) 1 1 n v = .ok r ∧ inducedF (P n) r = v := by
    intro n v
    by_cases h : n ≤ 1 ∧ 0 ≤ v ∧ v ≤ 1
    · obtain ⟨r, z, e, h1, h2, -⟩ := c130_quantile hO n 1 h.1 (P n) (hP n) v h.2.1 h.2.2
      refine ⟨r, fun _ _ _ => ⟨e, ?_⟩⟩
      unfold inverseInduced at e
      split at e
      · cases e
      · have := hexact _ _ _ _ e
        rw [c129_cdf_exact hO n 1 h.1 (P n) (hP n) r h1 h2] at this
        injection this with this
        linarith
    · exact ⟨0, fun a b c => absurd ⟨a, b, c⟩ h⟩
  choose inv hinv using hr
  refine ⟨O, p, fun n v => if n ≤ 1 then inv n (max 0 (min v 1)) else 0, P, hO, hp, ?_⟩
  refine c132_unbiased hO [p] (by simpa using hp) [[0], [1]] (by simp) (by simp) (fun _ => ⟨1, .refl _⟩) 2 (by norm_num) 1
    (by simp) _ (fun n => ?_) (fun n hn v h0 h1 => ?_) P hP _ (by have := kernel_cont P [[0], [1]] [p].length; fun_prop) 1
    (by norm_num) fun x y _ _ => ?_
  · split_ifs with hn
    · exact quantile_measurable (P := P n) (inv n) fun v h0 h1 => (hinv n v hn h0 h1).2
    · exact measurable_const
  · rw [if_pos hn, min_eq_left h1, max_eq_right h0]
    exact (hinv n v hn h0 h1).1
  · have hk := fun x : Fin [p].length → ℝ => kernel_one_le P hP [[0], [1]] (by simp) x
    rw [mul_div_cancel_right₀ _ (by have := hk x; positivity), mul_div_cancel_right₀ _ (by have := hk y; positivity), one_mul]
    have := dist_le_pi_dist x y 0
    rwa [Real.dist_eq] at this

end EQ.Sampling
