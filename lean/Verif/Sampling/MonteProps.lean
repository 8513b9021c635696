import Verif.Sampling.MonteModel
import Verif.Sampling.SampleProps
import Verif.Sampling.BiasProps
import Mathlib.Probability.StrongLaw
import Mathlib.Probability.HasLawExists

/-!
# Monte Carlo meshes (C140, C141)
-/

namespace EQ.Sampling
open MeasureTheory ProbabilityTheory Filter Topology Spec EQ.Param EQ.Basis

/-! ## Specification -/

/-- The sum of the squares of the basis functions at `x`. -/
noncomputable def Spec.sumSquares (params : List MParam) (basis : List (List ℕ)) (x : Fin params.length → ℝ) : ℝ :=
  (basis.map fun row => basisFun params row (List.ofFn x) ^ 2).sum

/-- `get_samples` has a shape the mesh can take. -/
def Spec.FlatSamples (name : Option EQ.Dist.Name) : Prop := name ≠ none ∧ name ≠ some .weibull

/-- The first `N` draws of a stream of sample points, parameter by parameter. -/
def Spec.drawsOf {d : ℕ} (names : Fin d → Option EQ.Dist.Name) (x : ℕ → Fin d → ℝ) (N : ℕ) :
    List (Option EQ.Dist.Name × List ℝ) :=
  List.ofFn fun j => (names j, (List.range N).map fun i => x i j)

/-- The index set is admissible: one entry per parameter, the constant is there, and in one dimension it holds all degrees up to
some number. -/
structure Spec.GoodBasis (params : List MParam) (basis : List (List ℕ)) : Prop where
  len : ∀ row ∈ basis, row.length = params.length
  const : List.replicate params.length 0 ∈ basis
  one : params.length = 1 → ∃ m, basis.Perm ((List.range (m + 1)).map fun n => [n])

/-! ## Points -/

theorem mc_mapM {α β : Type} (g : α → Except Err β) (h : α → β) : ∀ l : List α, (∀ a ∈ l, g a = .ok (h a)) →
    l.mapM g = .ok (l.map h)
  | [], _ => rfl
  | a :: l, hl => by
    rw [List.mapM_cons, hl a (by simp), mc_mapM g h l fun b hb => hl b (by simp [hb])]
    rfl

theorem mc_mapM_err {α β : Type} (g : α → Except Err β) (e : Err) : ∀ l : List α, (∀ a ∈ l, g a = .error e ∨ ∃ b, g a = .ok b) →
    (∃ a ∈ l, g a = .error e) → l.mapM g = .error e
  | [], _, h => by simp at h
  | a :: l, hl, h => by
    rw [List.mapM_cons]
    rcases hl a (by simp) with ha | ⟨b, ha⟩
    · rw [ha]; rfl
    · obtain ⟨c, hc, hce⟩ := h
      rw [ha]
      rcases List.mem_cons.1 hc with rfl | hc
      · rw [ha] at hce; exact absurd hce (by simp)
      · have ih := mc_mapM_err g e l (fun b hb => hl b (by simp [hb])) ⟨c, hc, hce⟩
        show (do let rest ← l.mapM g; pure (b :: rest)) = _
        rw [ih]; rfl

theorem mcPoints_ok {d : ℕ} (names : Fin d → Option EQ.Dist.Name) (hn : ∀ j, FlatSamples (names j)) (x : ℕ → Fin d → ℝ) (N : ℕ) :
    mcPoints N (drawsOf names x N) none = .ok ((List.range N).map fun i => List.ofFn (x i)) := by
  have h := mc_mapM (fun a : Option EQ.Dist.Name × List ℝ => assignColumn N (getSamples a.1 a.2)) Prod.snd (drawsOf names x N) (by
    intro a ha
    obtain ⟨j, rfl⟩ := (List.mem_ofFn' _ _).1 ha
    obtain ⟨h1, h2⟩ := hn j
    have : getSamples (names j) ((List.range N).map fun i => x i j) = .flat ((List.range N).map fun i => x i j) := by
      rcases hnj : names j with _ | n
      · exact absurd hnj h1
      · cases n <;> first | rfl | exact absurd hnj h2
    show assignColumn N (getSamples (names j) ((List.range N).map fun i => x i j)) = _
    rw [this]
    simp [assignColumn])
  unfold mcPoints
  simp only [h]
  congr 1
  refine List.map_congr_left fun i hi => ?_
  have hi' := List.mem_range.1 hi
  apply List.ext_getElem
  · simp [drawsOf]
  · intro k h1 h2
    simp only [List.length_ofFn] at h2
    simp [drawsOf, hi']

/-- C140, the part that holds: for every list of parameters whose samples are flat arrays, every basis, every sampling ratio and all
random numbers the mesh has `⌊ratio · d · cardinality⌋` points, the `j`-th entries of which are the samples of the `j`-th parameter
in the order in which they were drawn. With a `Correlations` object the points are those of the object. Missing: analytical and
Weibull parameters, `c140_column_violated`. -/
theorem c140_points_partial (params : List MParam) (basis : List (List ℕ)) (ratio : ℝ)
    (names : Fin params.length → Option EQ.Dist.Name) (hn : ∀ j, FlatSamples (names j)) (x : ℕ → Fin params.length → ℝ) :
    (∃ w, monteCarlo params basis ratio (drawsOf names x) none =
      .ok ((List.range ⌊(basis.length : ℝ) * params.length * ratio⌋₊).map fun i => List.ofFn (x i), w)) ∧
    ∀ c : ℕ → List (List ℝ), ∃ w, monteCarlo params basis ratio (drawsOf names x) (some c) =
      .ok (c ⌊(basis.length : ℝ) * params.length * ratio⌋₊, w) := by
  constructor
  · unfold monteCarlo
    simp only [Option.map_none, mcPoints_ok names hn x]
    exact ⟨_, rfl⟩
  · intro c
    exact ⟨_, rfl⟩

/-- C140 is false: as soon as one parameter is an analytical or a Weibull one, a Monte Carlo mesh of two or more points cannot be
made, whatever the random numbers. With the default ratio this concerns every basis. -/
theorem c140_column_violated (params : List MParam) (basis : List (List ℕ)) (ratio : ℝ)
    (names : Fin params.length → Option EQ.Dist.Name) (j : Fin params.length) (hj : ¬FlatSamples (names j))
    (hN : 2 ≤ (basis.length : ℝ) * params.length * ratio) (x : ℕ → Fin params.length → ℝ) :
    monteCarlo params basis ratio (drawsOf names x) none = .error .valueError := by
  have hN' : 2 ≤ mcNumber basis.length params.length ratio := Nat.le_floor (by exact_mod_cast hN)
  unfold monteCarlo
  generalize hNN : mcNumber basis.length params.length ratio = N at hN'
  have : mcPoints N (drawsOf names x N) none = .error .valueError := by
    unfold mcPoints
    simp only
    rw [mc_mapM_err _ .valueError]
    · intro a ha
      obtain ⟨k, rfl⟩ := (List.mem_ofFn' _ _).1 ha
      by_cases hk : FlatSamples (names k)
      · right
        obtain ⟨h1, h2⟩ := hk
        have : getSamples (names k) ((List.range N).map fun i => x i k) = .flat ((List.range N).map fun i => x i k) := by
          rcases hnj : names k with _ | n
          · exact absurd hnj h1
          · cases n <;> first | rfl | exact absurd hnj h2
        show ∃ b, assignColumn N (getSamples (names k) ((List.range N).map fun i => x i k)) = .ok b
        rw [this]
        simp [assignColumn]
      · left
        have : getSamples (names k) ((List.range N).map fun i => x i k) = .column ((List.range N).map fun i => x i k) := by
          rcases hnj : names k with _ | n
          · rfl
          · by_cases hw : n = .weibull
            · subst hw; rfl
            · exact absurd ⟨by rw [hnj]; simp, by rw [hnj]; simpa using hw⟩ hk
        show assignColumn N (getSamples (names k) ((List.range N).map fun i => x i k)) = _
        rw [this]
        simp only [assignColumn, List.length_map, List.length_range]
        rw [if_neg (by omega)]
    · refine ⟨_, (List.mem_ofFn' _ _).2 ⟨j, rfl⟩, ?_⟩
      have : getSamples (names j) ((List.range N).map fun i => x i j) = .column ((List.range N).map fun i => x i j) := by
        rcases hnj : names j with _ | n
        · rfl
        · by_cases hw : n = .weibull
          · subst hw; rfl
          · exact absurd ⟨by rw [hnj]; simp, by rw [hnj]; simpa using hw⟩ hj
      show assignColumn N (getSamples (names j) ((List.range N).map fun i => x i j)) = _
      rw [this]
      simp only [assignColumn, List.length_map, List.length_range]
      rw [if_neg (by omega)]
  simp only [Option.map_none, this]

/-- Non-vacuity: a Gaussian with a Weibull parameter, linear basis, default ratio. -/
example : ∃ names : Fin 2 → Option EQ.Dist.Name, FlatSamples (names 0) ∧ ¬FlatSamples (names 1) ∧
    2 ≤ (([[0, 0], [0, 1], [1, 0]] : List (List ℕ)).length : ℝ) * (2 : ℕ) * 7 :=
  ⟨![some .gaussian, some .weibull], ⟨by simp, by simp⟩, fun h => h.2 (by simp), by norm_num⟩

/-! ## The limit of the weighted sums -/

/-- Basis functions depend continuously on the point. -/
theorem basisFun_continuous {T : Type} [TopologicalSpace T] : ∀ (params : List MParam) (row : List ℕ) (g : Fin params.length → T → ℝ),
    (∀ j, Continuous (g j)) → Continuous fun t => basisFun params row (List.ofFn fun j => g j t)
  | [], _, _, _ => by simpa [basisFun] using continuous_const
  | P :: Ps, [], g, _ => by simpa [basisFun] using continuous_const
  | P :: Ps, n :: row, g, hg => by
    have ih := basisFun_continuous Ps row (fun j => g j.succ) fun j => hg _
    have : (fun t => basisFun (P :: Ps) (n :: row) (List.ofFn fun j => g j t)) =
        fun t => univ P n (g 0 t) * basisFun Ps row (List.ofFn fun j => g j.succ t) := by
      funext t
      simp only [List.length_cons, List.ofFn_succ, basisFun]
    rw [this]
    refine Continuous.mul ?_ ih
    simp_rw [univ_eq]
    exact (Polynomial.continuous _).comp (hg 0)

theorem sumSquares_continuous (params : List MParam) (basis : List (List ℕ)) : Continuous (sumSquares params basis) := by
  unfold sumSquares
  induction basis with
  | nil => simpa using continuous_const
  | cons row basis ih =>
    simp only [List.map_cons, List.sum_cons]
    exact ((basisFun_continuous params row (fun j x => x j) fun j => continuous_apply j).pow 2).add ih

theorem sumSquares_one_le (params : List MParam) {basis : List (List ℕ)} (hb : GoodBasis params basis) (x : Fin params.length → ℝ) :
    1 ≤ sumSquares params basis x := by
  have h1 : (1 : ℝ) ∈ basis.map fun row => basisFun params row (List.ofFn x) ^ 2 :=
    List.mem_map.2 ⟨_, hb.const, by rw [basisFun_zero _ _ (by simp)]; norm_num⟩
  refine List.single_le_sum ?_ _ h1
  intro y hy
  obtain ⟨row, _, rfl⟩ := List.mem_map.1 hy
  positivity

theorem foldl_max_perm {l l' : List ℕ} (h : l.Perm l') (a : ℕ) : l.foldl max a = l'.foldl max a := by
  apply h.foldl_eq

theorem foldl_max_range (m : ℕ) : (List.range (m + 1)).foldl max 0 = m := by
  induction m with
  | zero => rfl
  | succ m ih => rw [List.range_succ, List.foldl_append, ih]; simp

/-- The weights are inversely proportional to the sum of squares. -/
theorem weights_ratio (params : List MParam) {basis : List (List ℕ)} (hb : GoodBasis params basis) (x : ℕ → Fin params.length → ℝ)
    (N : ℕ) (hN : 0 < N) :
    let pts := (List.range N).map fun i => List.ofFn (x i)
    let W := sampleWeights (multiPoly params basis params.length pts) pts.length
    ∃ c, 0 < c ∧ (∀ i < N, W.getD i 0 = c / sumSquares params basis (x i)) ∧ c * ∑ i ∈ Finset.range N, 1 / sumSquares params basis (x i) = 1 := by
  intro pts W
  have hlen : pts.length = N := by simp [pts]
  have hne : pts ≠ [] := by
    intro h
    rw [h] at hlen
    simp at hlen
    omega
  have hp : ∀ y ∈ pts, y.length = params.length := by
    intro y hy
    obtain ⟨i, _, rfl⟩ := List.mem_map.1 hy
    simp
  have key : W.length = pts.length ∧ W.sum = 1 ∧ ∃ c, 0 < c ∧ ∀ k (hk : k < pts.length),
      W.getD k 0 * (basis.map fun row => basisFun params row pts[k] ^ 2).sum = c := by
    by_cases hd : params.length = 1
    · obtain ⟨P, rfl⟩ := List.length_eq_one_iff.1 hd
      obtain ⟨m, hm⟩ := hb.one hd
      obtain ⟨h1, _, h3, c, hc, h4⟩ := c24_sample_weights_one P basis pts hne hp
      have hcol : colMax basis 0 = m := by
        unfold colMax
        rw [foldl_max_perm (hm.map _), List.map_map]
        have : ((fun row : List ℕ => row.getD 0 0) ∘ fun n => [n]) = id := by funext n; rfl
        rw [this, List.map_id, foldl_max_range]
      refine ⟨h1, h3, c, hc, fun k hk => ?_⟩
      have := h4 k hk
      rw [hcol] at this
      rw [(hm.map _).sum_eq, List.map_map]
      exact this
    · obtain ⟨h1, _, h3, c, hc, h4⟩ := c24_sample_weights params hd basis hb.len hb.const pts hne hp
      exact ⟨h1, h3, c, hc, h4⟩
  obtain ⟨hWl, hWs, c, hc, hW⟩ := key
  have hWi : ∀ i < N, W.getD i 0 = c / sumSquares params basis (x i) := by
    intro i hi
    have hk : i < pts.length := by omega
    have := hW i hk
    have hpt : pts[i] = List.ofFn (x i) := by simp [pts]
    rw [hpt] at this
    have hpos := lt_of_lt_of_le one_pos (sumSquares_one_le params hb (x i))
    rw [eq_div_iff hpos.ne']
    exact this
  refine ⟨c, hc, hWi, ?_⟩
  have hsum : W.sum = ∑ i ∈ Finset.range N, W.getD i 0 := by
    rw [← hlen, ← hWl, Finset.sum_range]
    conv_lhs => rw [← List.ofFn_getElem (xs := W), List.sum_ofFn]
    exact Finset.sum_congr rfl fun i _ => by rw [List.getD_eq_getElem _ _ i.2]
  rw [Finset.mul_sum]
  refine Eq.trans ?_ (hsum.symm.trans hWs)
  refine Finset.sum_congr rfl fun i hi => ?_
  rw [hWi i (Finset.mem_range.1 hi), mul_one_div]

theorem meshSum_eq (params : List MParam) {basis : List (List ℕ)} (hb : GoodBasis params basis) (x : ℕ → Fin params.length → ℝ)
    (f : (Fin params.length → ℝ) → ℝ) (N : ℕ) (hN : 0 < N) :
    let pts := (List.range N).map fun i => List.ofFn (x i)
    meshSum f (pts, sampleWeights (multiPoly params basis params.length pts) pts.length) =
      ((∑ i ∈ Finset.range N, f (x i) / sumSquares params basis (x i)) / N) /
        ((∑ i ∈ Finset.range N, 1 / sumSquares params basis (x i)) / N) := by
  intro pts
  obtain ⟨c, hc, hW, h1⟩ := weights_ratio params hb x N hN
  have hNr : (N : ℝ) ≠ 0 := by exact_mod_cast hN.ne'
  have hlen : pts.length = N := by simp [pts]
  have hS : (∑ i ∈ Finset.range N, 1 / sumSquares params basis (x i)) = 1 / c := by
    rw [eq_div_iff hc.ne', mul_comm]; exact h1
  rw [hS, div_div_div_cancel_right₀ hNr, div_div_eq_mul_div, div_one]
  unfold meshSum
  simp only
  have : (∑ i : Fin pts.length, (sampleWeights (multiPoly params basis params.length pts) pts.length).getD i 0 *
      f fun j => (pts.getD i []).getD j 0) = ∑ i ∈ Finset.range pts.length,
      (sampleWeights (multiPoly params basis params.length pts) pts.length).getD i 0 * f fun j => (pts.getD i []).getD j 0 := by
    rw [Finset.sum_range]
  rw [this, hlen, Finset.sum_mul]
  refine Finset.sum_congr rfl fun i hi => ?_
  have hi' := Finset.mem_range.1 hi
  have hx : (fun j : Fin params.length => (pts.getD i []).getD j 0) = x i := by
    funext j
    simp [pts, hi']
  rw [hx]
  have := hW i hi'
  rw [show ((List.range N).map fun i => List.ofFn (x i)) = pts from rfl, hlen] at this
  rw [this]
  ring

theorem mcNumber_tendsto (card dims : ℕ) (hc : 0 < card) (hd : 0 < dims) : Tendsto (mcNumber card dims) atTop atTop := by
  unfold mcNumber
  refine tendsto_nat_floor_atTop.comp ?_
  refine Tendsto.const_mul_atTop ?_ tendsto_id
  positivity

section
variable {Ω : Type*} [MeasurableSpace Ω] {Q : Measure Ω} [IsProbabilityMeasure Q]

/-- C141, what the weighted sums converge to. For every list of parameters (at least one) with flat samples, every admissible basis,
every sequence of independent sample points with a common law and every integrable function: almost surely, the weighted sum over
the mesh converges, for increasing sampling ratio, to the quotient of the means of `f / K` and of `1 / K`, where `K` is the sum of the
squares of the basis functions. If the basis holds the constant alone this is the mean of `f`. Otherwise see
`c141_bias_violated`. -/
theorem c141_limit_partial (params : List MParam) (hd : params ≠ []) {basis : List (List ℕ)} (hb : GoodBasis params basis)
    (names : Fin params.length → Option EQ.Dist.Name) (hn : ∀ j, FlatSamples (names j))
    (X : ℕ → Ω → Fin params.length → ℝ) (hX : ∀ i, Measurable (X i)) (hi : iIndepFun X Q) (hl : ∀ i, IdentDistrib (X i) (X 0) Q Q)
    (f : (Fin params.length → ℝ) → ℝ) (hf : Measurable f) (hfi : Integrable (fun ω => f (X 0 ω)) Q) :
    ∀ᵐ ω ∂Q, ∃ mesh : ℝ → List (List ℝ) × List ℝ,
      (∀ ratio, monteCarlo params basis ratio (drawsOf names fun i => X i ω) none = .ok (mesh ratio)) ∧
      Tendsto (fun ratio => meshSum f (mesh ratio)) atTop
        (𝓝 ((∫ ω, f (X 0 ω) / sumSquares params basis (X 0 ω) ∂Q) / ∫ ω, 1 / sumSquares params basis (X 0 ω) ∂Q)) := by
  have hK : Measurable (sumSquares params basis) := (sumSquares_continuous params basis).measurable
  have hpos : ∀ x, 0 < sumSquares params basis x := fun x => lt_of_lt_of_le one_pos (sumSquares_one_le params hb x)
  have lln : ∀ g : (Fin params.length → ℝ) → ℝ, Measurable g → Integrable (fun ω => g (X 0 ω)) Q →
      ∀ᵐ ω ∂Q, Tendsto (fun n : ℕ => (∑ i ∈ Finset.range n, g (X i ω)) / n) atTop (𝓝 (∫ ω, g (X 0 ω) ∂Q)) := by
    intro g hg hgi
    exact strong_law_ae_real (fun i ω => g (X i ω)) hgi (fun i j hij => (hi.indepFun hij).comp hg hg)
      fun i => (hl i).comp hg
  have h1i : Integrable (fun ω => 1 / sumSquares params basis (X 0 ω)) Q := by
    refine Integrable.of_bound (C := 1) ((measurable_const.div hK).comp (hX 0)).aestronglyMeasurable (ae_of_all _ fun ω => ?_)
    rw [Real.norm_eq_abs, abs_of_pos (one_div_pos.2 (hpos _)), div_le_one (hpos _)]
    exact sumSquares_one_le params hb _
  have h2i : Integrable (fun ω => f (X 0 ω) / sumSquares params basis (X 0 ω)) Q := by
    refine hfi.mono ((hf.div hK).comp (hX 0)).aestronglyMeasurable (ae_of_all _ fun ω => ?_)
    rw [norm_div]
    refine div_le_self (norm_nonneg _) ?_
    rw [Real.norm_eq_abs, abs_of_pos (hpos _)]
    exact sumSquares_one_le params hb _
  have hint : 0 < ∫ ω, 1 / sumSquares params basis (X 0 ω) ∂Q := by
    rw [integral_pos_iff_support_of_nonneg (fun ω => (one_div_pos.2 (hpos _)).le) h1i]
    have : (Function.support fun ω => 1 / sumSquares params basis (X 0 ω)) = Set.univ :=
      Set.eq_univ_of_forall fun ω => (one_div_pos.2 (hpos _)).ne'
    rw [this]
    simp
  filter_upwards [lln (fun x => f x / sumSquares params basis x) (hf.div hK) h2i,
    lln (fun x => 1 / sumSquares params basis x) (measurable_const.div hK) h1i] with ω h2 h1
  refine ⟨fun ratio => ((List.range (mcNumber basis.length params.length ratio)).map fun i => List.ofFn (X i ω),
    sampleWeights (multiPoly params basis params.length
      ((List.range (mcNumber basis.length params.length ratio)).map fun i => List.ofFn (X i ω)))
      ((List.range (mcNumber basis.length params.length ratio)).map fun i => List.ofFn (X i ω)).length), ?_, ?_⟩
  · intro ratio
    unfold monteCarlo
    simp only [Option.map_none, mcPoints_ok names hn fun i => X i ω]
  · have hcard : 0 < basis.length := List.length_pos_of_mem hb.const
    have ht := mcNumber_tendsto basis.length params.length hcard (List.length_pos_of_ne_nil hd)
    have := (h2.div h1 hint.ne').comp ht
    refine this.congr' ?_
    filter_upwards [ht.eventually_gt_atTop 0] with ratio hr
    exact (meshSum_eq params hb (fun i => X i ω) f _ hr).symm

/-- C141 is false: whenever the sum of the squares of the basis functions is not almost surely constant, the weighted sums do not
converge to the mean for every function. For the function `K` itself, a polynomial, they converge almost surely to less than its
mean. -/
theorem c141_bias_violated (params : List MParam) (hd : params ≠ []) {basis : List (List ℕ)} (hb : GoodBasis params basis)
    (names : Fin params.length → Option EQ.Dist.Name) (hn : ∀ j, FlatSamples (names j))
    (X : ℕ → Ω → Fin params.length → ℝ) (hX : ∀ i, Measurable (X i)) (hi : iIndepFun X Q) (hl : ∀ i, IdentDistrib (X i) (X 0) Q Q)
    (hint : Integrable (fun ω => sumSquares params basis (X 0 ω)) Q)
    (hvar : ¬∃ c, ∀ᵐ ω ∂Q, sumSquares params basis (X 0 ω) = c) :
    ∃ L < ∫ ω, sumSquares params basis (X 0 ω) ∂Q, ∀ᵐ ω ∂Q, ∃ mesh : ℝ → List (List ℝ) × List ℝ,
      (∀ ratio, monteCarlo params basis ratio (drawsOf names fun i => X i ω) none = .ok (mesh ratio)) ∧
      Tendsto (fun ratio => meshSum (sumSquares params basis) (mesh ratio)) atTop (𝓝 L) := by
  have hK : Measurable (sumSquares params basis) := (sumSquares_continuous params basis).measurable
  have hpos : ∀ x, 0 < sumSquares params basis x := fun x => lt_of_lt_of_le one_pos (sumSquares_one_le params hb x)
  refine ⟨_, ?_, c141_limit_partial params hd hb names hn X hX hi hl (sumSquares params basis) hK hint⟩
  have h1 : (∫ ω, sumSquares params basis (X 0 ω) / sumSquares params basis (X 0 ω) ∂Q) = 1 := by
    have : (fun ω => sumSquares params basis (X 0 ω) / sumSquares params basis (X 0 ω)) = fun _ => (1 : ℝ) := by
      funext ω; exact div_self (hpos _).ne'
    rw [this]
    simp
  rw [h1]
  have h1i : Integrable (fun ω => 1 / sumSquares params basis (X 0 ω)) Q := by
    refine Integrable.of_bound (C := 1) ((measurable_const.div hK).comp (hX 0)).aestronglyMeasurable (ae_of_all _ fun ω => ?_)
    rw [Real.norm_eq_abs, abs_of_pos (one_div_pos.2 (hpos _)), div_le_one (hpos _)]
    exact sumSquares_one_le params hb _
  generalize hA : (∫ ω, 1 / sumSquares params basis (X 0 ω) ∂Q) = A
  have hApos : 0 < A := by
    rw [← hA, integral_pos_iff_support_of_nonneg (fun ω => (one_div_pos.2 (hpos _)).le) h1i]
    have : (Function.support fun ω => 1 / sumSquares params basis (X 0 ω)) = Set.univ :=
      Set.eq_univ_of_forall fun ω => (one_div_pos.2 (hpos _)).ne'
    rw [this]
    simp
  have hq : (fun ω => (1 - A * sumSquares params basis (X 0 ω)) ^ 2 / sumSquares params basis (X 0 ω)) =
      fun ω => 1 / sumSquares params basis (X 0 ω) - 2 * A + A ^ 2 * sumSquares params basis (X 0 ω) := by
    funext ω
    have := (hpos (X 0 ω)).ne'
    field_simp
    ring
  have hqi : Integrable (fun ω => (1 - A * sumSquares params basis (X 0 ω)) ^ 2 / sumSquares params basis (X 0 ω)) Q := by
    rw [hq]
    exact (h1i.sub (integrable_const _)).add (hint.const_mul _)
  have hqint : ∫ ω, (1 - A * sumSquares params basis (X 0 ω)) ^ 2 / sumSquares params basis (X 0 ω) ∂Q =
      A - 2 * A + A ^ 2 * ∫ ω, sumSquares params basis (X 0 ω) ∂Q := by
    have e1 := integral_add (h1i.sub (integrable_const (2 * A))) (hint.const_mul (A ^ 2))
    have e2 := integral_sub h1i (integrable_const (μ := Q) (2 * A))
    have e3 : ∫ _ : Ω, 2 * A ∂Q = 2 * A := by simp
    rw [hq]
    refine e1.trans ?_
    rw [integral_const_mul]
    congr 1
    exact e2.trans (by rw [hA, e3])
  have hqpos : 0 < ∫ ω, (1 - A * sumSquares params basis (X 0 ω)) ^ 2 / sumSquares params basis (X 0 ω) ∂Q := by
    have hnn : ∀ ω, 0 ≤ (1 - A * sumSquares params basis (X 0 ω)) ^ 2 / sumSquares params basis (X 0 ω) :=
      fun ω => div_nonneg (sq_nonneg _) (hpos _).le
    refine lt_of_le_of_ne (integral_nonneg hnn) fun h0 => hvar ⟨1 / A, ?_⟩
    have := (integral_eq_zero_iff_of_nonneg hnn hqi).1 h0.symm
    filter_upwards [this] with ω hω
    have h2 : (1 - A * sumSquares params basis (X 0 ω)) ^ 2 = 0 := by
      have := (div_eq_zero_iff.1 hω).resolve_right (hpos _).ne'
      exact this
    have h3 : 1 - A * sumSquares params basis (X 0 ω) = 0 := by simpa using h2
    rw [eq_div_iff hApos.ne']
    linarith
  rw [hqint] at hqpos
  rw [div_lt_iff₀ hApos]
  nlinarith

end

/-- Non-vacuity: independent samples of a uniform parameter on `[-1, 1]`, linear basis; the sum of squares `1 + 3 x²` is integrable
and not almost surely constant. -/
example : ∃ (P : MParam) (Ω : Type) (_ : MeasurableSpace Ω) (Q : Measure Ω) (_ : IsProbabilityMeasure Q)
    (X : ℕ → Ω → Fin [P].length → ℝ), IsUniform P ∧ GoodBasis [P] [[0], [1]] ∧ (∀ i, Measurable (X i)) ∧ iIndepFun X Q ∧
    (∀ i, IdentDistrib (X i) (X 0) Q Q) ∧ Integrable (fun ω => sumSquares [P] [[0], [1]] (X 0 ω)) Q ∧
    ¬∃ c, ∀ᵐ ω ∂Q, sumSquares [P] [[0], [1]] (X 0 ω) = c := by
  obtain ⟨P, hP⟩ := exists_uniform
  let ρ : Measure ℝ := (2⁻¹ : ENNReal) • volume.restrict (Set.Icc (-1) 1)
  have hρ : IsProbabilityMeasure ρ := ⟨by
    simp only [ρ, Measure.smul_apply, Measure.restrict_apply_univ, Real.volume_Icc, smul_eq_mul]
    rw [show (1 : ℝ) - -1 = 2 by norm_num, ENNReal.ofReal_ofNat]
    exact ENNReal.inv_mul_cancel (by simp) (by simp)⟩
  have hm : Measurable fun (t : ℝ) (_ : Fin [P].length) => t := by fun_prop
  have : IsProbabilityMeasure (ρ.map fun (t : ℝ) (_ : Fin [P].length) => t) := Measure.isProbabilityMeasure_map hm.aemeasurable
  obtain ⟨Ω, mΩ, Q, X, hX, hlaw, hi, hQ⟩ := exists_iid ℕ (ρ.map fun (t : ℝ) (_ : Fin [P].length) => t)
  have hK : ∀ x : Fin [P].length → ℝ, sumSquares [P] [[0], [1]] x = 1 + 3 * x 0 ^ 2 := by
    intro x
    have h1 : univ P 1 (x 0) ^ 2 = 3 * x 0 ^ 2 := by
      rw [univ_eq, hP.ab]
      have : (jtab 0 0 (-1) 1 1).2 = 1 / 3 := by simp [jtab, jacobiRow]; norm_num
      have h0 : (jtab 0 0 (-1) 1 0).1 = 0 := by simp [jtab, jacobiRow]
      simp only [opoly, this, h0]
      simp only [Polynomial.eval_mul, Polynomial.eval_C, Polynomial.eval_sub, Polynomial.eval_X, sub_zero, mul_pow, inv_pow]
      rw [Real.sq_sqrt (by norm_num)]
      norm_num
    have h0 : univ P 0 (x 0) = 1 := by rw [univ_eq]; simp [opoly]
    have hx : List.ofFn x = [x 0] := by
      simp only [List.length_singleton] at x ⊢
      simp
    simp only [sumSquares, hx, List.map_cons, List.map_nil, List.sum_cons, List.sum_nil, basisFun, mul_one, h0, h1]
    norm_num
  refine ⟨P, Ω, mΩ, Q, hQ, X, hP, ⟨by simp, by simp, fun _ => ⟨1, List.Perm.refl _⟩⟩, hX, hi,
    fun i => (hlaw i).identDistrib (hlaw 0), ?_, ?_⟩
  · have h2 := (hlaw 0).map_eq
    have hmeas : AEStronglyMeasurable (sumSquares [P] [[0], [1]]) (Q.map (X 0)) :=
      (sumSquares_continuous _ _).aestronglyMeasurable
    refine (integrable_map_measure (f := X 0) hmeas (hX 0).aemeasurable).1 ?_
    rw [h2] at hmeas ⊢
    refine (integrable_map_measure hmeas hm.aemeasurable).2 ?_
    have : (sumSquares [P] [[0], [1]] ∘ fun (t : ℝ) (_ : Fin [P].length) => t) = fun t => 1 + 3 * t ^ 2 := by
      funext t; exact hK _
    rw [this]
    refine Integrable.smul_measure ?_ (by simp)
    exact (Continuous.integrableOn_Icc (by fun_prop))
  · rintro ⟨c, hc⟩
    have h2 := (hlaw 0).map_eq
    have hset : MeasurableSet {x : Fin [P].length → ℝ | sumSquares [P] [[0], [1]] x = c} :=
      (sumSquares_continuous _ _).measurable (measurableSet_singleton c)
    have hc1 : ∀ᵐ x ∂(Q.map (X 0)), sumSquares [P] [[0], [1]] x = c := (ae_map_iff (hX 0).aemeasurable hset).2 hc
    rw [h2] at hc1
    have hc2 := (ae_map_iff hm.aemeasurable hset).1 hc1
    have hc3 : ∀ᵐ t ∂(volume.restrict (Set.Icc (-1 : ℝ) 1)), 1 + 3 * t ^ 2 = c := by
      have := (Measure.ae_ennreal_smul_measure_iff (μ := volume.restrict (Set.Icc (-1 : ℝ) 1)) (c := (2⁻¹ : ENNReal)) (by simp)).1 hc2
      filter_upwards [this] with t ht
      rw [← ht, hK]
    have hfin : {t : ℝ | 1 + 3 * t ^ 2 = c} ⊆ {√((c - 1) / 3), -√((c - 1) / 3)} := by
      intro t ht
      have h1 : t ^ 2 = (c - 1) / 3 := by
        have : 1 + 3 * t ^ 2 = c := ht
        linarith
      have h2 : t ^ 2 = √((c - 1) / 3) ^ 2 := by rw [Real.sq_sqrt (by rw [← h1]; positivity), h1]
      rcases sq_eq_sq_iff_eq_or_eq_neg.1 h2 with h | h
      · exact .inl h
      · exact .inr h
    have hz : volume {t : ℝ | 1 + 3 * t ^ 2 = c} = 0 := Set.Finite.measure_zero ((Set.toFinite _).subset hfin) _
    have hz' : ∀ᵐ t ∂(volume.restrict (Set.Icc (-1 : ℝ) 1)), ¬1 + 3 * t ^ 2 = c :=
      ae_restrict_of_ae (measure_eq_zero_iff_ae_notMem.1 hz)
    have hF : ∀ᵐ t ∂(volume.restrict (Set.Icc (-1 : ℝ) 1)), False := by
      filter_upwards [hc3, hz'] with t h1 h2 using h2 h1
    rw [ae_iff] at hF
    simp at hF
    norm_num at hF

end EQ.Sampling
