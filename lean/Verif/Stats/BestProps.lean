import Verif.Stats.ConvergeProps
import Verif.Stats.NoiseProps
import Verif.Stats.ModelProps
import Verif.Stats.ExactProps
import Mathlib.Topology.Algebra.MvPolynomial

/-!
# The error of a fit on a tensor grid is bounded by the best approximation (C196)
-/

namespace EQ.Stats
open EQ.Param EQ.ParamSpec EQ.Basis EQ.Sampling EQ.Sampling.Spec EQ.Poly EQ.Poly.Spec EQ.Stats.Spec Set
open scoped Polynomial

variable {d : ℕ}

/-- Standard deviations of near functions. -/
theorem MeanOn.near_std {T : Type} [TopologicalSpace T] {Φ : (T → ℝ) → ℝ} {K : Set T} (h : MeanOn Φ K) {F G : T → ℝ} (hF : ContinuousOn F K) (hG : ContinuousOn G K) {ε : ℝ} (hε : 0 ≤ ε)
    (h2 : Φ (fun x => (F x - G x) ^ 2) ≤ ε ^ 2) :
    |√(Φ fun x => (F x - Φ F) ^ 2) - √(Φ fun x => (G x - Φ G) ^ 2)| ≤ ε := by
  set F' : T → ℝ := fun x => F x - Φ F
  set G' : T → ℝ := fun x => G x - Φ G
  have hF' : ContinuousOn F' K := hF.sub continuousOn_const
  have hG' : ContinuousOn G' K := hG.sub continuousOn_const
  have hF2 : ContinuousOn (fun x => F' x ^ 2) K := hF'.pow 2
  have hG2 : ContinuousOn (fun x => G' x ^ 2) K := hG'.pow 2
  have hFG : ContinuousOn (fun x => (-2) * (F' x * G' x)) K := continuousOn_const.mul (hF'.mul hG')
  have hv1 := h.nonneg _ hF2 fun x _ => sq_nonneg _
  have hv2 := h.nonneg _ hG2 fun x _ => sq_nonneg _
  have hd : ContinuousOn (fun x => F x - G x) K := hF.sub hG
  have e1 : Φ (fun x => (F' x - G' x) ^ 2) = Φ (fun x => F' x ^ 2) + (-2) * Φ (fun x => F' x * G' x) + Φ (fun x => G' x ^ 2) := by
    have hp : ContinuousOn (fun x => F' x * G' x) K := hF'.mul hG'
    have hs : ContinuousOn (fun x => F' x ^ 2 + (-2) * (F' x * G' x)) K := hF2.add hFG
    rw [← h.smul _ _ hp, ← h.add _ _ hF2 hFG, ← h.add _ _ hs hG2]
    congr 1
    funext x
    ring
  have e2 : Φ (fun x => (F' x - G' x) ^ 2) ≤ ε ^ 2 := by
    refine le_trans ?_ h2
    have := h.var hd
    rw [h.sub hF hG] at this
    have e : (fun x => (F' x - G' x) ^ 2) = fun x => (F x - G x - (Φ F - Φ G)) ^ 2 := by
      funext x
      simp only [F', G']
      ring
    rw [e, this]
    linarith [sq_nonneg (Φ F - Φ G)]
  have hcs := h.mul_sq_le hF' hG'
  have hab : Φ (fun x => F' x * G' x) ≤ √(Φ fun x => F' x ^ 2) * √(Φ fun x => G' x ^ 2) := by
    refine le_trans (le_abs_self _) (abs_le_of_sq_le_sq ?_ (by positivity))
    rwa [mul_pow, Real.sq_sqrt hv1, Real.sq_sqrt hv2]
  refine abs_le_of_sq_le_sq ?_ hε
  rw [sub_sq, Real.sq_sqrt hv1, Real.sq_sqrt hv2]
  linarith

/-- The points of the grid lie in the box of the inputs. -/
theorem grid_inside' {P : Fin d → MParam} {Es : Fin d → (ℝ → ℝ) → ℝ} {l u : Fin d → ℝ} (hI : ∀ i, Input (P i) (Es i) (l i) (u i)) (hd : d ≠ 0) (o : Fin d → ℕ) (ho : ∀ i, o i ≠ 0)
    (pts : List (List ℝ)) (wts : List ℝ) (h : tensorGrid (localRules (List.ofFn P) (List.ofFn o)) = .ok (pts, wts)) (x : List ℝ) (hx : x ∈ pts) :
    vec d x ∈ Icc l u := by
  have hlen : (localRules (List.ofFn P) (List.ofFn o)).length = d := by simp [localRules]
  have hne : localRules (List.ofFn P) (List.ofFn o) ≠ [] := by
    intro h0; rw [h0] at hlen; exact hd hlen.symm
  have key : ∀ i : Fin d, vec d x i ∈ Icc (l i) (u i) := by
    intro i
    obtain ⟨t, ht, hxt⟩ := grid_coord _ hne (localRules_len_eq _ _) pts wts h x hx i (by rw [hlen]; exact i.2)
    have e : (localRules (List.ofFn P) (List.ofFn o))[(i : ℕ)]'(by rw [hlen]; exact i.2) = (P i).localRule (o i) := by
      simp [localRules]
    rw [e] at ht
    have := (hI i).pts (o i) (ho i) t ht
    unfold vec
    rw [List.getD_eq_getElem?_getD, hxt]
    exact this
  exact ⟨fun i => (key i).1, fun i => (key i).2⟩

/-- The power product with the exponents `ks`. -/
def powers (ks : List ℕ) (x : List ℝ) : ℝ := (List.zipWith (fun k t => t ^ k) ks x).prod

/-- Means of power products. -/
theorem prodE_powers (params : List MParam) (Es : List ((ℝ → ℝ) → ℝ)) (hlaw : List.Forall₂ Law params Es) (ks : List ℕ) (hk : ks.length = Es.length) (a : ℝ) :
    prodE Es (fun x => a * powers ks x) = a * (List.zipWith (fun (E : (ℝ → ℝ) → ℝ) k => E fun t => t ^ k) Es ks).prod := by
  induction hlaw generalizing ks a with
  | nil =>
    obtain rfl : ks = [] := List.length_eq_zero_iff.1 hk
    simp [prodE, powers]
  | @cons P E Ps Es hE _ ih =>
    match ks with
    | [] => simp at hk
    | k :: ks =>
      have hk : ks.length = Es.length := by simpa using hk
      obtain ⟨L, hL⟩ := hE.linear
      rw [prodE]
      have e : ∀ x : ℝ, prodE Es (fun xs => a * powers (k :: ks) (x :: xs)) = ((a * (List.zipWith (fun (E : (ℝ → ℝ) → ℝ) k => E fun t => t ^ k) Es ks).prod) • (Polynomial.X ^ k : ℝ[X])).eval x := by
        intro x
        have : (fun xs => a * powers (k :: ks) (x :: xs)) = fun xs => (a * x ^ k) * powers ks xs := by
          funext xs
          simp only [powers, List.zipWith_cons_cons, List.prod_cons]
          ring
        rw [this, ih ks hk]
        simp only [Polynomial.eval_smul, Polynomial.eval_pow, Polynomial.eval_X, smul_eq_mul]
        ring
      simp only [e]
      rw [hL, map_smul, smul_eq_mul, ← hL]
      simp only [Polynomial.eval_pow, Polynomial.eval_X, List.zipWith_cons_cons, List.prod_cons]
      ring

/-- Grid sums of power products. -/
theorem gridSum_powers (params : List MParam) (hP : ∀ P ∈ params, Valid P) (Es : List ((ℝ → ℝ) → ℝ)) (hlaw : List.Forall₂ Law params Es) (orders ks : List ℕ)
    (hok : List.Forall₂ (fun o k => o ≠ 0 ∧ k ≤ 2 * o + 1) orders ks) (ho : orders.length = params.length) :
    gridSum (localRules params orders) (powers ks) = (List.zipWith (fun (E : (ℝ → ℝ) → ℝ) k => E fun t => t ^ k) Es ks).prod := by
  induction hlaw generalizing orders ks with
  | nil =>
    obtain rfl : orders = [] := List.length_eq_zero_iff.1 ho
    cases hok
    simp [localRules, gridSum_nil, powers]
  | @cons P E Ps Es hE _ ih =>
    cases hok with
    | nil => simp at ho
    | @cons o k orders ks hk hrest =>
      rw [show localRules (P :: Ps) (o :: orders) = P.localRule o :: localRules Ps orders from rfl, gridSum_cons]
      have ho : orders.length = Ps.length := by simpa using ho
      obtain ⟨L, hL⟩ := hE.linear
      have hPv : Valid P := hP P (by simp)
      have e : ∀ t : ℝ, gridSum (localRules Ps orders) (fun xs => powers (k :: ks) (t :: xs)) =
          (List.zipWith (fun (E : (ℝ → ℝ) → ℝ) k => E fun t => t ^ k) Es ks).prod * t ^ k := by
        intro t
        have : (fun xs => powers (k :: ks) (t :: xs)) = fun xs => t ^ k * powers ks xs := by
          funext xs
          simp only [powers, List.zipWith_cons_cons, List.prod_cons]
        rw [this, gridSum_mul, ih (fun Q hQ => hP Q (by simp [hQ])) orders ks hrest ho]
        ring
      simp only [e]
      have hex := localRule_exact P hPv L (fun i j => by
        have := hE.orth i j
        rw [← this, ← hL]
        simp only [Polynomial.eval_mul, univ_eq]) o (Polynomial.X ^ k) (by rw [Polynomial.natDegree_X_pow]; exact hk.2) (fun h => absurd h hk.1)
      rw [← hL] at hex
      simp only [Polynomial.eval_pow, Polynomial.eval_X] at hex
      rw [ruleSum_eq P o fun x => x ^ k] at hex
      rw [List.zipWith_cons_cons, List.prod_cons, ← hex]
      unfold ruleSum
      rw [Finset.sum_mul]
      exact Finset.sum_congr rfl fun c _ => by ring

/-- Weighted sums over the points of the grid. -/
theorem range_gridSum (params : List MParam) (hne : params ≠ []) (orders : List ℕ) (ho : orders.length = params.length) (pts : List (List ℝ)) (wts : List ℝ)
    (h : tensorGrid (localRules params orders) = .ok (pts, wts)) (F : List ℝ → ℝ) :
    ∑ j ∈ Finset.range pts.length, wts.getD j 0 * F (pts.getD j []) = gridSum (localRules params orders) F := by
  have hne' : localRules params orders ≠ [] := by
    intro h
    have := localRules_length params orders ho
    rw [h] at this
    exact hne (List.length_eq_zero_iff.1 this.symm)
  have h5 := tensorGrid_eq _ hne' (localRules_len_eq params orders)
  rw [h] at h5
  simp only [Except.ok.injEq, Prod.mk.injEq] at h5
  unfold gridSum
  set I := ixs ((localRules params orders).map fun r => r.pts.length)
  have hpl : pts.length = I.length := by rw [h5.1, List.length_map]
  conv_rhs => rw [map_eq_range I [], range_map_sum]
  rw [hpl]
  refine Finset.sum_congr rfl fun j hj => ?_
  rw [Finset.mem_range] at hj
  rw [getD_of_lt pts [] j (by omega), h5.2, getD_map_lt _ _ _ _ hj, getD_of_lt _ _ _ hj]
  simp only [h5.1, List.getElem_map]

theorem gridSum_finset {ι : Type} (rs : List LocalRule) (s : Finset ι) (F : ι → List ℝ → ℝ) :
    gridSum rs (fun x => ∑ i ∈ s, F i x) = ∑ i ∈ s, gridSum rs (F i) := by
  classical
  induction s using Finset.induction_on with
  | empty => simpa using gridSum_zero rs
  | insert i s hi ih =>
    rw [Finset.sum_insert hi, ← ih, ← gridSum_add]
    congr 1
    funext x
    rw [Finset.sum_insert hi]

/-- The rule integrates polynomials of degrees `2 oᵢ + 1`. -/
theorem grid_poly (P : Fin d → MParam) (Es : Fin d → (ℝ → ℝ) → ℝ) (l u : Fin d → ℝ) (hI : ∀ i, Input (P i) (Es i) (l i) (u i)) (o : Fin d → ℕ) (ho : ∀ i, o i ≠ 0)
    (p : MvPolynomial (Fin d) ℝ) (hp : ∀ i, p.degreeOf i ≤ 2 * o i + 1) :
    gridSum (localRules (List.ofFn P) (List.ofFn o)) (fun x => MvPolynomial.eval (vec d x) p) = mE Es fun v => MvPolynomial.eval v p := by
  have hm := mE_mean Es l u fun i => (hI i).mean
  have hlaw := law_ofFn (P := P) (Es := Es) fun i => (hI i).law
  have hP : ∀ Q ∈ List.ofFn P, Valid Q := by
    intro Q hQ
    obtain ⟨i, rfl⟩ := List.mem_ofFn.1 hQ
    exact (hI i).valid
  have hpow : ∀ (k : Fin d →₀ ℕ) (v : Fin d → ℝ), powers (List.ofFn k) (List.ofFn v) = ∏ i, v i ^ k i := by
    intro k v
    unfold powers
    rw [show List.zipWith (fun k t => t ^ k) (List.ofFn k) (List.ofFn v) = List.ofFn fun i => v i ^ k i by
      apply List.ext_getElem <;> simp, List.prod_ofFn]
  have hc : ∀ k : Fin d →₀ ℕ, ContinuousOn (fun v : Fin d → ℝ => ∏ i, v i ^ k i) (Icc l u) := fun k =>
    Continuous.continuousOn (by fun_prop)
  have e1 : (fun v : Fin d → ℝ => MvPolynomial.eval v p) = fun v => ∑ k ∈ p.support, p.coeff k * ∏ i, v i ^ k i := by
    funext v
    rw [MvPolynomial.eval_eq']
  rw [e1, hm.finsetSum p.support (fun k v => p.coeff k * ∏ i, v i ^ k i) fun k _ => continuousOn_const.mul (hc k)]
  have e2 : gridSum (localRules (List.ofFn P) (List.ofFn o)) (fun x => MvPolynomial.eval (vec d x) p) =
      gridSum (localRules (List.ofFn P) (List.ofFn o)) fun x => ∑ k ∈ p.support, p.coeff k * powers (List.ofFn k) x := by
    refine gridSum_congr _ _ _ fun x hx => ?_
    have hx : x.length = d := by simpa [localRules] using hx
    rw [MvPolynomial.eval_eq']
    refine Finset.sum_congr rfl fun k _ => ?_
    rw [← hpow, ofFn_vec x hx]
  rw [e2, gridSum_finset]
  refine Finset.sum_congr rfl fun k hk => ?_
  rw [gridSum_mul, hm.smul _ _ (hc k), gridSum_powers _ hP _ hlaw _ _ ?_ (by simp)]
  · have := prodE_powers _ _ hlaw (List.ofFn k) (by simp) 1
    rw [prodE_eq_mE] at this
    simp only [one_mul, hpow] at this
    rw [this]
  · rw [List.forall₂_iff_get]
    refine ⟨by simp, fun i h1 h2 => ?_⟩
    simp only [List.get_eq_getElem, List.getElem_ofFn]
    exact ⟨ho _, (MvPolynomial.monomial_le_degreeOf _ hk).trans (hp _)⟩

/-! ## Properties -/

/-- **C196.** Numerical integration on the tensor grid, for every model that is continuous on the box of Beta-type inputs, with any index set of different rows inside the orders that starts with
the constant. If some polynomial of the basis is within `ε` of the model on the box, then the polynomial returned is within `2 ε` of the model in mean square, the mean reported within `2 ε` of the
mean of the model and the standard deviation reported within `2 ε` of that of the model. -/
theorem c196_fit (hd : d ≠ 0) (P : Fin d → MParam) (A B l u : Fin d → ℝ) (hI : ∀ i, BetaInput (P i) (A i) (B i) (l i) (u i)) (o : Fin d → ℕ) (ho : ∀ i, o i ≠ 0)
    (els : List (List ℕ)) (hB : Regular ⟨List.ofFn P, els, none⟩) (hnd : els.Nodup) (hz : els.head? = some (List.replicate d 0)) (h2 : 2 ≤ els.length)
    (hbox : ∀ row ∈ els, List.Forall₂ (· ≤ ·) row (List.ofFn o)) (f : List ℝ → ℝ) (hf : ContinuousOn (fun v => f (List.ofFn v)) (Icc l u)) :
    ∃ (pts : List (List ℝ)) (wts c : List ℝ) (g : List ℝ → ℝ) (m v : ℝ), tensorGrid (localRules (List.ofFn P) (List.ofFn o)) = .ok (pts, wts) ∧
      Expansion.integrate ⟨List.ofFn P, els, none⟩ pts wts (pts.map f) = .ok c ∧ (∀ x : List ℝ, x.length = d → Expansion.polyfit ⟨List.ofFn P, els, none⟩ c [x] = .ok [g x]) ∧
      mean c = .ok m ∧ variance c = .ok v ∧
      ∀ (z : List ℝ) (p : List ℝ → ℝ), z.length = els.length → (∀ x : List ℝ, x.length = d → Expansion.polyfit ⟨List.ofFn P, els, none⟩ z [x] = .ok [p x]) →
        ∀ ε, (∀ w ∈ Icc l u, |f (List.ofFn w) - p (List.ofFn w)| ≤ ε) →
          prodE (List.ofFn fun i => betaE (A i) (B i) (l i) (u i)) (fun x => (f x - g x) ^ 2) ≤ (2 * ε) ^ 2 ∧
          |m - prodE (List.ofFn fun i => betaE (A i) (B i) (l i) (u i)) f| ≤ 2 * ε ∧
          |√v - √(lawVar (List.ofFn fun i => betaE (A i) (B i) (l i) (u i)) f)| ≤ 2 * ε := by
  set Es : Fin d → (ℝ → ℝ) → ℝ := fun i => betaE (A i) (B i) (l i) (u i) with hEs
  have hin : ∀ i, Input (P i) (Es i) (l i) (u i) := fun i => beta_input (hI i).shapeA (hI i).shapeB (hI i).range (hI i).valid (hI i).recurrence
  have hm := mE_mean Es l u fun i => (hin i).mean
  have hlaw := law_ofFn (P := P) (Es := Es) fun i => (hin i).law
  have hdl : (Expansion.mk (List.ofFn P) els none).dims = d := by simp [Expansion.dims]
  have hne : List.ofFn P ≠ [] := by
    intro h; have := congrArg List.length h; simp at this; exact hd this
  have hV : ∀ Q ∈ List.ofFn P, Valid Q := by
    intro Q hQ
    obtain ⟨i, rfl⟩ := List.mem_ofFn.1 hQ
    exact (hI i).valid
  obtain ⟨pts, wts, h1, hst⟩ := c183_integration ⟨List.ofFn P, els, none⟩ hB rfl hne hV (List.ofFn o) (by simp [Expansion.dims]) hbox hnd (by rw [hdl]; exact hz) h2 (List.ofFn Es) hlaw
  rw [hdl] at hst
  obtain ⟨c, -, g, -, m, -, v, -, hc, -, hg, -, hmc, -, hvc, -⟩ := hst (pts.map f) (pts.map f) (by simp) (by simp)
  refine ⟨pts, wts, c, g, m, v, h1, hc, hg, hmc, hvc, fun z p hzl hp ε hε => ?_⟩
  have hpf : ∀ y : List ℝ, y.length = els.length → ∀ x : List ℝ, x.length = d → Expansion.polyfit ⟨List.ofFn P, els, none⟩ y [x] = .ok [expansion (List.ofFn P) els y x] := by
    intro y hy x hx
    rw [polyfit_eq _ hB y hy [x] (by simpa [hdl] using hx), eff_none _ rfl]
    rfl
  have hcl : c.length = els.length := by
    obtain ⟨pts', wts', h1', -, -, -, -, -, hfit⟩ := grid_fit ⟨List.ofFn P, els, none⟩ hB rfl hne hV (List.ofFn o) (by simp [Expansion.dims]) hbox hnd
    rw [h1] at h1'
    obtain ⟨rfl, rfl⟩ := Prod.mk.inj (Except.ok.inj h1')
    obtain ⟨c', hc', hl, -⟩ := hfit (pts.map f) (by simp)
    rw [hc] at hc'
    rw [Except.ok.inj hc', hl]
  have heq : ∀ (y : List ℝ) (q : List ℝ → ℝ), y.length = els.length → (∀ x : List ℝ, x.length = d → Expansion.polyfit ⟨List.ofFn P, els, none⟩ y [x] = .ok [q x]) →
      ∀ x : List ℝ, x.length = d → q x = expansion (List.ofFn P) els y x := by
    intro y q hy hq x hx
    have := hq x hx
    rw [hpf y hy x hx] at this
    simpa using (Except.ok.inj this).symm
  have hp' := heq z p hzl hp
  have hg' := heq c g hcl hg
  have hcont : ∀ (y : List ℝ) (q : List ℝ → ℝ), y.length = els.length → (∀ x : List ℝ, x.length = d → q x = expansion (List.ofFn P) els y x) →
      ContinuousOn (fun v : Fin d → ℝ => q (List.ofFn v)) (Icc l u) := by
    intro y q hy hq
    have := (continuous_expansion P els (fun row h => (hB.rows row h).trans hdl) y hy).continuousOn (s := Icc l u)
    exact this.congr fun w _ => hq _ (by simp)
  have hpc := hcont z p hzl hp'
  have hgc := hcont c g hcl hg'
  -- the fit to the values of the polynomial
  obtain ⟨pts', wts', h1', hrec, -⟩ := c30_exact_recovery ⟨List.ofFn P, els, none⟩ hB rfl hne hV (List.ofFn o) (by simp [Expansion.dims]) hbox hnd z hzl
  rw [h1] at h1'
  obtain ⟨rfl, rfl⟩ := Prod.mk.inj (Except.ok.inj h1')
  have hlen : ∀ x ∈ pts, x.length = d := by
    obtain ⟨pts', wts', h1', -, -, -, h5, -⟩ := grid_fit ⟨List.ofFn P, els, none⟩ hB rfl hne hV (List.ofFn o) (by simp [Expansion.dims]) hbox hnd
    rw [h1] at h1'
    obtain ⟨rfl, rfl⟩ := Prod.mk.inj (Except.ok.inj h1')
    rwa [hdl] at h5
  have hpp : pts.map p = pts.map (expansion (List.ofFn P) els z) := List.map_congr_left fun x hx => hp' x (hlen x hx)
  rw [← hpp] at hrec
  obtain ⟨c', e', g', p', m', mp, v', vp, hc', he', hg'', hp'', hmc', hme', hvc', hve', -, hnear⟩ := hst (pts.map f) (pts.map p) (by simp) (by simp)
  rw [hc] at hc'
  obtain rfl := Except.ok.inj hc'
  rw [hrec] at he'
  obtain rfl := Except.ok.inj he'
  rw [hmc] at hmc'
  obtain rfl := Except.ok.inj hmc'
  rw [hvc] at hvc'
  obtain rfl := Except.ok.inj hvc'
  have hat : ∀ j < pts.length, |(pts.map f).getD j 0 - (pts.map p).getD j 0| ≤ ε := by
    intro j hj
    rw [getD_map_lt f pts 0 j hj, getD_map_lt p pts 0 j hj]
    have hmem := List.getElem_mem hj
    have := hε _ (grid_inside' hin hd o ho pts wts h1 _ hmem)
    rwa [ofFn_vec _ (hlen _ hmem)] at this
  obtain ⟨q1, q2, q3⟩ := hnear ε hat
  have hε0 : 0 ≤ ε := (abs_nonneg _).trans (q1)
  obtain ⟨hmean, hvar⟩ := c32_mean_variance_partial ⟨List.ofFn P, els, none⟩ hB (.inr rfl) (by rw [hdl]; exact hz) hnd (List.ofFn Es) hlaw z hzl (by rw [hzl]; omega) p
    (by rw [hdl]; exact hp)
  rw [hmean] at hme'
  obtain rfl := Except.ok.inj hme'
  rw [hvar] at hve'
  obtain rfl := Except.ok.inj hve'
  -- the polynomial and the model
  have hfp : mE Es (fun w => (f (List.ofFn w) - p (List.ofFn w)) ^ 2) ≤ ε ^ 2 := by
    have hcc : ContinuousOn (fun w : Fin d → ℝ => (f (List.ofFn w) - p (List.ofFn w)) ^ 2) (Icc l u) := (hf.sub hpc).pow 2
    have := hm.mono (g := fun _ => ε ^ 2) hcc continuousOn_const fun w hw => sq_le_sq' (by linarith [(abs_le.1 (hε w hw)).1]) (abs_le.1 (hε w hw)).2
    rwa [hm.const] at this
  have hmean2 : |mE Es (fun w => f (List.ofFn w)) - mE Es fun w => p (List.ofFn w)| ≤ ε := by
    rw [← hm.sub hf hpc]
    exact hm.abs_le (hf.sub hpc) hε
  have hstd := hm.near_std hf hpc hε0 hfp
  refine ⟨?_, ?_, ?_⟩
  · have hgp : mE Es (fun w => (g (List.ofFn w) - p (List.ofFn w)) ^ 2) ≤ ε ^ 2 := by
      rw [prodE_eq_mE] at q3
      refine le_trans (le_of_eq ?_) q3
      congr 1
      funext w
      rw [hg' _ (by simp), hp' _ (by simp), heq _ _ hcl hg'' _ (by simp), heq _ _ hzl hp'' _ (by simp)]
    rw [prodE_eq_mE]
    have c1 : ContinuousOn (fun w : Fin d → ℝ => (f (List.ofFn w) - g (List.ofFn w)) ^ 2) (Icc l u) := (hf.sub hgc).pow 2
    have c2 : ContinuousOn (fun w : Fin d → ℝ => (f (List.ofFn w) - p (List.ofFn w)) ^ 2) (Icc l u) := (hf.sub hpc).pow 2
    have c3 : ContinuousOn (fun w : Fin d → ℝ => (g (List.ofFn w) - p (List.ofFn w)) ^ 2) (Icc l u) := (hgc.sub hpc).pow 2
    have c4 : ContinuousOn (fun w : Fin d → ℝ => (f (List.ofFn w) - p (List.ofFn w)) ^ 2 + (g (List.ofFn w) - p (List.ofFn w)) ^ 2) (Icc l u) := c2.add c3
    have hle := hm.mono (g := fun w => 2 * ((f (List.ofFn w) - p (List.ofFn w)) ^ 2 + (g (List.ofFn w) - p (List.ofFn w)) ^ 2)) c1 (continuousOn_const.mul c4) fun w _ => by
      nlinarith [sq_nonneg ((f (List.ofFn w) - p (List.ofFn w)) + (g (List.ofFn w) - p (List.ofFn w)))]
    rw [hm.smul _ _ c4, hm.add _ _ c2 c3] at hle
    nlinarith
  · rw [prodE_eq_mE] at q1 ⊢
    have := abs_le.1 q1
    have := abs_le.1 hmean2
    rw [abs_le]
    constructor <;> linarith
  · have e := lawVar_eq Es p
    rw [lawVar_eq]
    unfold lawVar at e
    rw [e] at q2
    have := abs_le.1 q2
    have := abs_le.1 hstd
    rw [abs_le]
    constructor <;> linarith

/-- **C196, the mean.** It is enough that a polynomial of degree at most `2 oᵢ + 1` in every input, whether in the basis or not, is within `ε` of the model: the mean reported is within `2 ε` of the
mean of the model. -/
theorem c196_mean (hd : d ≠ 0) (P : Fin d → MParam) (A B l u : Fin d → ℝ) (hI : ∀ i, BetaInput (P i) (A i) (B i) (l i) (u i)) (o : Fin d → ℕ) (ho : ∀ i, o i ≠ 0)
    (els : List (List ℕ)) (hB : Regular ⟨List.ofFn P, els, none⟩) (hnd : els.Nodup) (hz : els.head? = some (List.replicate d 0)) (h2 : 2 ≤ els.length)
    (hbox : ∀ row ∈ els, List.Forall₂ (· ≤ ·) row (List.ofFn o)) (f : List ℝ → ℝ) (hf : ContinuousOn (fun v => f (List.ofFn v)) (Icc l u)) :
    ∃ (pts : List (List ℝ)) (wts c : List ℝ) (m : ℝ), tensorGrid (localRules (List.ofFn P) (List.ofFn o)) = .ok (pts, wts) ∧
      Expansion.integrate ⟨List.ofFn P, els, none⟩ pts wts (pts.map f) = .ok c ∧ mean c = .ok m ∧
      ∀ p : MvPolynomial (Fin d) ℝ, (∀ i, p.degreeOf i ≤ 2 * o i + 1) → ∀ ε, (∀ w ∈ Icc l u, |f (List.ofFn w) - MvPolynomial.eval w p| ≤ ε) →
        |m - prodE (List.ofFn fun i => betaE (A i) (B i) (l i) (u i)) f| ≤ 2 * ε := by
  set Es : Fin d → (ℝ → ℝ) → ℝ := fun i => betaE (A i) (B i) (l i) (u i) with hEs
  have hin : ∀ i, Input (P i) (Es i) (l i) (u i) := fun i => beta_input (hI i).shapeA (hI i).shapeB (hI i).range (hI i).valid (hI i).recurrence
  have hm := mE_mean Es l u fun i => (hin i).mean
  have hdl : (Expansion.mk (List.ofFn P) els none).dims = d := by simp [Expansion.dims]
  have hne : List.ofFn P ≠ [] := by
    intro h; have := congrArg List.length h; simp at this; exact hd this
  have hV : ∀ Q ∈ List.ofFn P, Valid Q := by
    intro Q hQ
    obtain ⟨i, rfl⟩ := List.mem_ofFn.1 hQ
    exact (hI i).valid
  obtain ⟨pts, wts, h1, hst⟩ := c166_moments ⟨List.ofFn P, els, none⟩ hB rfl hne hV (List.ofFn o) (by simp [Expansion.dims]) hbox hnd (by rw [hdl]; exact hz) h2
  obtain ⟨c, -, m, -, hc, -, hmc, -, hms, -⟩ := hst (pts.map f) (by simp)
  refine ⟨pts, wts, c, m, h1, hc, hmc, fun p hp ε hε => ?_⟩
  obtain ⟨pts', wts', h1', -, h3, h4, h5, -⟩ := grid_fit ⟨List.ofFn P, els, none⟩ hB rfl hne hV (List.ofFn o) (by simp [Expansion.dims]) hbox hnd
  rw [h1] at h1'
  obtain ⟨rfl, rfl⟩ := Prod.mk.inj (Except.ok.inj h1')
  rw [hdl] at h5
  have hw1 := wts_one _ hne hV _ (by simp) pts wts h1
  have hg : ∑ j ∈ Finset.range pts.length, wts.getD j 0 * MvPolynomial.eval (vec d (pts.getD j [])) p = mE Es fun v => MvPolynomial.eval v p := by
    rw [range_gridSum _ hne _ (by simp) pts wts h1 fun x => MvPolynomial.eval (vec d x) p, grid_poly P Es l u hin o ho p hp]
  have hpc : ContinuousOn (fun v : Fin d → ℝ => MvPolynomial.eval v p) (Icc l u) := (MvPolynomial.continuous_eval p).continuousOn
  have d1 : |m - mE Es fun v => MvPolynomial.eval v p| ≤ ε := by
    rw [hms, ← hg, ← Finset.sum_sub_distrib]
    refine (Finset.abs_sum_le_sum_abs _ _).trans ?_
    rw [← one_mul ε, ← hw1, Finset.sum_mul]
    refine Finset.sum_le_sum fun j hj => ?_
    have hj := Finset.mem_range.1 hj
    have hmem := List.getElem_mem hj
    have hw : 0 < wts.getD j 0 := by
      rw [getD_of_lt _ _ _ (h3 ▸ hj)]
      exact h4 _ (List.getElem_mem _)
    rw [← mul_sub, abs_mul, abs_of_pos hw]
    refine mul_le_mul_of_nonneg_left ?_ hw.le
    have := hε _ (grid_inside' hin hd o ho pts wts h1 _ hmem)
    rw [ofFn_vec _ (h5 _ hmem)] at this
    rwa [getD_map_lt f pts 0 j hj, getD_of_lt _ _ _ hj]
  have d2 : |mE Es (fun w => f (List.ofFn w)) - mE Es fun v => MvPolynomial.eval v p| ≤ ε := by
    rw [← hm.sub hf hpc]
    exact hm.abs_le (hf.sub hpc) hε
  rw [prodE_eq_mE]
  have := abs_le.1 d1
  have := abs_le.1 d2
  rw [abs_le]
  constructor <;> linarith

/-- One uniform input on `[-1, 1]` with order 1, and the model `|x|`: the constant 1/2 is within 1/2 of it, so the hypotheses of both theorems can be met and the errors are at most 1. -/
example : ∃ P : MParam, BetaInput P 1 1 (-1) 1 ∧ Regular ⟨List.ofFn fun _ : Fin 1 => P, [[0], [1]], none⟩ ∧
    (∀ row ∈ [[0], [1]], List.Forall₂ (· ≤ ·) row (List.ofFn fun _ : Fin 1 => 1)) ∧ ContinuousOn (fun v : Fin 1 → ℝ => (fun x : List ℝ => |x.getD 0 0|) (List.ofFn v)) (Icc (fun _ => -1) fun _ => 1) ∧
    ∀ w ∈ Icc (fun _ : Fin 1 => (-1 : ℝ)) fun _ => 1, |(fun x : List ℝ => |x.getD 0 0|) (List.ofFn w) - MvPolynomial.eval w (MvPolynomial.C (1/2 : ℝ))| ≤ 1/2 := by
  obtain ⟨P, hv, hab, -⟩ := exists_valid (jtab (1 - 1) (1 - 1) (-1) 1)
    (by norm_num [jtab, jacobiRow]) (fun k hk => beta_tab_pos one_pos one_pos (by norm_num) k hk) none none 0
  have e : (fun v : Fin 1 → ℝ => (fun x : List ℝ => |x.getD 0 0|) (List.ofFn v)) = fun v => |v 0| := by
    funext v
    simp
  refine ⟨P, ⟨hv, one_pos, one_pos, by norm_num, hab⟩, ⟨by simp, by simp [Expansion.dims], fun _ => ⟨1, rfl⟩, by simp [SquareOpt]⟩, by simp, ?_, fun w hw => ?_⟩
  · rw [e]
    exact (by fun_prop : Continuous fun v : Fin 1 → ℝ => |v 0|).continuousOn
  · have e1 := congrFun e w
    beta_reduce at e1 ⊢
    rw [e1, MvPolynomial.eval_C]
    have h1 := hw.1 0
    have h2 := hw.2 0
    have h3 : |w 0| ≤ 1 := abs_le.2 ⟨h1, h2⟩
    have h4 := abs_nonneg (w 0)
    rw [abs_le]
    constructor <;> linarith

end EQ.Stats
