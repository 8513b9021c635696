import Verif.Param.SampledProps
import Verif.Poly.FitProps
import Verif.Stats.Props

/-!
# Fits over laws given by samples of their density: C154
-/

namespace EQ.Poly
open EQ.Param EQ.Basis EQ.Sampling EQ.Sampling.Spec EQ.ParamSpec EQ.Stats.Spec Spec Polynomial

/-- A parameter whose recurrence coefficients come from samples of its density (`template.py:62-75`): the points, the values of the
density, and what the one-point rule reads. -/
structure Sampled where
  x : List ℝ
  w : List ℝ
  lower : Option ℝ
  upper : Option ℝ
  mean : ℝ

/-- What the multivariate code reads from such a parameter (`parameter.py:205-214`, `parameter.py:240-276`, `parameter.py:359-401`): row `k` of the
recurrence coefficients is the same for all orders from one on that have it, so one table describes them all. -/
noncomputable def Sampled.mparam (E : EighArgsort) (s : Sampled) : MParam where
  ab := fun k => customCoeffs s.x s.w (k + 1) k
  lower := s.lower
  upper := s.upper
  mean := s.mean
  eigD := fun n => (E.eigh (jacobiMatrix (customCoeffs s.x s.w (n + 1)) (n + 1))).1
  eigV := fun n => (E.eigh (jacobiMatrix (customCoeffs s.x s.w (n + 1)) (n + 1))).2
  argsort := fun n => E.argsort (E.eigh (jacobiMatrix (customCoeffs s.x s.w (n + 1)) (n + 1))).1

/-- The samples are values of a density, with more than `o + 1` distinct points where it is not zero. -/
structure Enough (s : Sampled) (o : ℕ) : Prop where
  len : s.x.length = s.w.length
  nonneg : ∀ v ∈ s.w, 0 ≤ v
  sum : s.w.sum ≠ 0
  card : o + 1 < (((s.x.zip s.w).filter fun q => q.2 ≠ 0).map Prod.fst).toFinset.card

/-- The table of the model is that of every call with a large enough order. -/
theorem mparam_table (E : EighArgsort) (s : Sampled) (o k : ℕ) (ho : 1 ≤ o) (hk : k ≤ o + 1) : (s.mparam E).ab k = customCoeffs s.x s.w o k := by
  simp only [Sampled.mparam]
  rw [customCoeffs_eq _ _ _ _ (by omega) (by omega), customCoeffs_eq _ _ _ _ ho hk]

/-- The rule is the one of the parameter. -/
theorem mparam_rule (E : EighArgsort) (s : Sampled) (o : ℕ) :
    ∃ R, localQuadrature E (sampledParam s.x s.w s.lower s.upper s.mean) .none o = .ok R ∧
      (s.mparam E).localRule o = ⟨R.map Prod.fst, R.map Prod.snd⟩ := by
  refine ⟨_, rfl, ?_⟩
  unfold MParam.localRule
  cases o with
  | zero => simp [gaussRule, sampledParam, Sampled.mparam]
  | succ n =>
    rw [if_neg (by omega)]
    simp only [gaussRule, sampledParam, List.map_ofFn]
    have h0 : (s.mparam E).ab 0 = customCoeffs s.x s.w (n + 1 + 2) 0 := mparam_table E s _ 0 (by omega) (by omega)
    simp only [quadratureOfEigh, h0]
    rfl

/-- A parameter with positive coefficients up to `K` agrees up to degree `K` with one that has positive coefficients throughout. -/
theorem exists_valid {P : MParam} {K : ℕ} (b0 : (P.ab 0).2 = 1) (pos : ∀ k, 1 ≤ k → k ≤ K → 0 < (P.ab k).2)
    (eigh : ∀ n, n ≤ K → EighContract (jacobiMatrix P.ab (n + 1)) (P.eigD n) (P.eigV n))
    (sort : ∀ n, n ≤ K → ArgsortContract (P.eigD n) (P.argsort n)) :
    ∃ P', Valid P' ∧ (∀ o, o ≤ K → P'.localRule o = P.localRule o) ∧ ∀ n, n ≤ K → ∀ x, univ P' n x = univ P n x := by
  classical
  set ab' : Table := fun k => if k ≤ K then P.ab k else (0, 1) with hab
  have hab' : ∀ k, k ≤ K → ab' k = P.ab k := fun k hk => by rw [hab]; simp only [if_pos hk]
  have hex := fun n => c13_eigh_reachable ab' n
  let P' : MParam :=
    { ab := ab', lower := P.lower, upper := P.upper, mean := P.mean
      eigD := fun n => if n ≤ K then P.eigD n else (hex n).choose
      eigV := fun n => if n ≤ K then P.eigV n else (hex n).choose_spec.choose
      argsort := fun n => if n ≤ K then P.argsort n else (hex n).choose_spec.choose_spec.choose }
  refine ⟨P', ⟨?_, fun k hk => ?_, fun n => ?_, fun n => ?_⟩, fun o ho => ?_, fun n hn x => ?_⟩
  · change (ab' 0).2 = 1
    rw [hab' 0 (by omega), b0]
  · change 0 < (ab' k).2
    by_cases h : k ≤ K
    · rw [hab' k h]; exact pos k hk h
    · rw [hab]; simp only [if_neg h]; exact one_pos
  · change EighContract (jacobiMatrix ab' (n + 1)) (if n ≤ K then P.eigD n else (hex n).choose)
      (if n ≤ K then P.eigV n else (hex n).choose_spec.choose)
    by_cases h : n ≤ K
    · rw [if_pos h, if_pos h, jacobiMatrix_congr ab' P.ab (n + 1) fun k hk => hab' k (by omega)]
      exact eigh n h
    · rw [if_neg h, if_neg h]
      exact (hex n).choose_spec.choose_spec.choose_spec.1
  · change ArgsortContract (if n ≤ K then P.eigD n else (hex n).choose) (if n ≤ K then P.argsort n else (hex n).choose_spec.choose_spec.choose)
    by_cases h : n ≤ K
    · rw [if_pos h, if_pos h]; exact sort n h
    · rw [if_neg h, if_neg h]
      exact (hex n).choose_spec.choose_spec.choose_spec.2
  · unfold MParam.localRule
    by_cases h : o = 0
    · rw [if_pos h, if_pos h]
    · rw [if_neg h, if_neg h]
      have e1 : P'.eigD o = P.eigD o := if_pos ho
      have e2 : P'.eigV o = P.eigV o := if_pos ho
      have e3 : P'.argsort o = P.argsort o := if_pos ho
      have e4 : P'.ab 0 = P.ab 0 := hab' 0 (by omega)
      simp only [quadratureOfEigh, e1, e2, e3, e4]
  · unfold univ
    rw [(orthoTables_eq P'.ab (n + 1) x n (by omega)).1, (orthoTables_eq P.ab (n + 1) x n (by omega)).1,
      opoly_congr P'.ab P.ab n (fun k hk => congrArg Prod.fst (hab' k (by omega))) (fun k _ hk => congrArg Prod.snd (hab' k (by omega)))]

/-- Facts about a sampled parameter. -/
theorem sampled_valid {E : EighArgsort} (hE : EighArgsortOK E) {s : Sampled} {o : ℕ} (h : Enough s o) :
    (∃ P', Valid P' ∧ P'.localRule o = (s.mparam E).localRule o ∧ ∀ n, n ≤ o → ∀ x, univ P' n x = univ (s.mparam E) n x) ∧
    ∀ i j, i ≤ o → j ≤ o → sampleE (s.x.zip s.w) (fun t => univ (s.mparam E) i t * univ (s.mparam E) j t) = if i = j then 1 else 0 := by
  have hrow : ∀ k, (s.mparam E).ab k = customT (customData s.x s.w) k := fun k =>
    customCoeffs_eq s.x s.w (k + 1) k (by omega) (by omega)
  obtain ⟨hpos, hset, hE1, hone⟩ := sampled_facts s.x s.w h.len h.nonneg h.sum
  have hcard : o + 1 < ((customData s.x s.w).map Prod.fst).toFinset.card := by rw [hset]; exact h.card
  obtain ⟨hb, horth⟩ := customT_orthonormal (customData s.x s.w) hpos (o + 1) hcard
  have hJ : ∀ n, jacobiMatrix (customCoeffs s.x s.w (n + 1)) (n + 1) = jacobiMatrix (s.mparam E).ab (n + 1) := fun n =>
    jacobiMatrix_congr _ _ _ fun k hk => (mparam_table E s (n + 1) k (by omega) (by omega)).symm
  constructor
  · have hb0 : ((s.mparam E).ab 0).2 = 1 := by rw [hrow, customT_zero]; exact hone
    obtain ⟨P', h1, h2, h3⟩ := exists_valid (P := s.mparam E) (K := o) hb0
      (fun k h1 h2 => by rw [hrow]; exact hb k h1 (by omega))
      (fun n _ => by rw [← hJ n]; exact hE.eigh _ (jacobiMatrix_symm _ _)) (fun n _ => hE.argsort _)
    exact ⟨P', h1, h2 o le_rfl, h3⟩
  · intro i j hi hj
    have hu : ∀ n t, univ (s.mparam E) n t = (opoly (customT (customData s.x s.w)) n).eval t := by
      intro n t
      unfold univ
      rw [(orthoTables_eq (s.mparam E).ab (n + 1) t n (by omega)).1,
        opoly_congr _ (customT (customData s.x s.w)) n (fun k _ => by rw [hrow]) fun k _ _ => by rw [hrow]]
    simp only [hu, ← eval_mul]
    rw [← hE1, horth i j (by omega) (by omega), hone]

/-! ## Recovery -/

/-- Replacing the parameters by valid ones. -/
theorem exists_params {E : EighArgsort} (hE : EighArgsortOK E) {S : List Sampled} {orders : List ℕ} (h : List.Forall₂ Enough S orders) :
    ∃ Ps : List MParam, Ps.length = S.length ∧ (∀ P ∈ Ps, Valid P) ∧ localRules Ps orders = localRules (S.map (Sampled.mparam E)) orders ∧
      ∀ row, List.Forall₂ (· ≤ ·) row orders → ∀ x, basisFun Ps row x = basisFun (S.map (Sampled.mparam E)) row x := by
  induction h with
  | nil => exact ⟨[], rfl, by simp, rfl, fun row _ x => rfl⟩
  | @cons s o S os hs hS ih =>
    obtain ⟨Ps, hl, hv, hr, hb⟩ := ih
    obtain ⟨⟨P, h1, h2, h3⟩, -⟩ := sampled_valid hE hs
    refine ⟨P :: Ps, by simp [hl], ?_, ?_, ?_⟩
    · intro Q hQ
      rcases List.mem_cons.1 hQ with rfl | hQ
      · exact h1
      · exact hv Q hQ
    · simp only [localRules, List.map_cons, List.zipWith_cons_cons] at hr ⊢
      rw [h2, hr]
    · intro row hrow x
      cases hrow with
      | @cons n _ row _ hn hrow =>
        cases x with
        | nil => rfl
        | cons t x =>
          simp only [basisFun, List.map_cons]
          rw [h3 n hn, hb row hrow]

/-- **C154, recovery.** For all numbers of parameters whose densities are sampled at more than `order + 1` distinct points, all index
sets of distinct rows inside the orders and all coefficients, whatever the eigenvalue solver returns within its contract: the tensor grid of the
parameters exists, its weights are positive and sum to one; numerical integration of values of an expansion returns its
coefficients; and `get_polyfit` reproduces it at every stack of points. -/
theorem c154_recovery {E : EighArgsort} (hE : EighArgsortOK E) (S : List Sampled) (orders : List ℕ) (hS : List.Forall₂ Enough S orders)
    (hne : S ≠ []) (B : Expansion) (hB : Regular B) (hR : B.invR = none) (hP : B.params = S.map (Sampled.mparam E))
    (hbox : ∀ row ∈ B.elements, List.Forall₂ (· ≤ ·) row orders) (hnd : B.elements.Nodup) (c : List ℝ) (hc : c.length = B.elements.length) :
    ∃ pts wts, tensorGrid (localRules B.params orders) = .ok (pts, wts) ∧ wts.length = pts.length ∧ wts.sum = 1 ∧ (∀ w ∈ wts, 0 < w) ∧
      (∀ x ∈ pts, x.length = B.dims) ∧
      B.integrate pts wts (pts.map (expansion B.params B.elements c)) = .ok c ∧
      ∀ stack : List (List ℝ), (∀ x ∈ stack, x.length = B.dims) →
        B.polyfit c stack = .ok (stack.map (expansion B.params B.elements c)) := by
  obtain ⟨Ps, hl, hv, hr, hb⟩ := exists_params hE hS
  have hdim : B.dims = S.length := by rw [Expansion.dims, hP, List.length_map]
  let B' : Expansion := ⟨Ps, B.elements, none⟩
  have hd' : B'.dims = B.dims := by rw [hdim]; exact hl
  have hB' : Regular B' := ⟨hB.ne, fun row h => by rw [hd']; exact hB.rows row h, fun h => hB.one (by rw [← hd']; exact h), by
    simp [B', SquareOpt]⟩
  have ho : orders.length = B'.dims := by rw [hd', hdim]; exact hS.length_eq.symm
  have hPs : Ps ≠ [] := fun h => hne (List.length_eq_zero_iff.1 (by rw [← hl, h]; rfl))
  obtain ⟨pts, wts, h1, -, h3, -, h5, h6, h7⟩ := c21_parameters Ps hPs hv orders ho
  obtain ⟨pts', wts', h1', hint, -⟩ := c30_exact_recovery B' hB' rfl hPs hv orders ho hbox hnd c hc
  have h1'' : tensorGrid (localRules Ps orders) = .ok (pts', wts') := h1'
  rw [h1] at h1''
  obtain ⟨rfl, rfl⟩ := Prod.mk.inj (Except.ok.inj h1'')
  have h7' : ∀ x ∈ pts, x.length = B.dims := fun x hx => by rw [h7 x hx, hdim, hl]
  have hbf : ∀ row ∈ B.elements, ∀ x, basisFun B'.params row x = basisFun B.params row x := fun row h x => by
    rw [hP]; exact hb row (hbox row h) x
  have hexp : ∀ x, expansion B'.params B'.elements c x = expansion B.params B.elements c x := by
    intro x
    rw [sum_expansion _ _ _ hc, sum_expansion _ _ _ hc]
    refine Finset.sum_congr rfl fun k hk => ?_
    rw [Finset.mem_range] at hk
    rw [hbf _ (by rw [getD_of_lt _ _ _ hk]; exact List.getElem_mem _)]
  refine ⟨pts, wts, by rw [hP, ← hr]; exact h1, h3, h5, h6, h7', ?_, fun stack hst => ?_⟩
  · rw [integrate_plain B' hB' (.inr rfl) pts (fun x hx => by rw [hd']; exact h7' x hx) wts _ h3 (fun w h => (h6 w h).le) (by simp)] at hint
    rw [integrate_plain B hB (.inr hR) pts h7' wts _ h3 (fun w h => (h6 w h).le) (by simp)]
    rw [← hint]
    congr 1
    refine List.map_congr_left fun row hrow => Finset.sum_congr rfl fun j _ => ?_
    rw [hbf row hrow]
    congr 3
    exact List.map_congr_left fun x _ => (hexp x).symm
  · rw [polyfit_eq B hB c hc stack hst, Stats.eff_plain B (.inr hR)]

/-! ## Moments -/

theorem sampleE_sum {ι : Type*} (s : List (ℝ × ℝ)) (I : Finset ι) (a : ι → ℝ) (f : ι → ℝ → ℝ) :
    sampleE s (fun t => ∑ i ∈ I, a i * f i t) = ∑ i ∈ I, a i * sampleE s (f i) := by
  unfold sampleE
  have h : (s.map fun q => q.2 * ∑ i ∈ I, a i * f i q.1).sum = ∑ i ∈ I, a i * (s.map fun q => q.2 * f i q.1).sum := by
    induction s with
    | nil => simp
    | cons q s ih =>
      simp only [List.map_cons, List.sum_cons, ih, mul_add, Finset.sum_add_distrib]
      rw [Finset.mul_sum]
      congr 1
      exact Finset.sum_congr rfl fun i _ => by ring
  rw [h, Finset.sum_div]
  exact Finset.sum_congr rfl fun i _ => mul_div_assoc _ _ _

theorem prodE_sum {ι : Type*} (S : List (List (ℝ × ℝ))) (I : Finset ι) (a : ι → ℝ) (f : ι → List ℝ → ℝ) :
    prodE (S.map sampleE) (fun x => ∑ i ∈ I, a i * f i x) = ∑ i ∈ I, a i * prodE (S.map sampleE) (f i) := by
  induction S generalizing f with
  | nil => rfl
  | cons s S ih =>
    simp only [List.map_cons, prodE]
    have : (fun t => prodE (S.map sampleE) fun xs => ∑ i ∈ I, a i * f i (t :: xs)) =
        fun t => ∑ i ∈ I, a i * prodE (S.map sampleE) fun xs => f i (t :: xs) := by
      funext t
      exact ih fun i xs => f i (t :: xs)
    rw [this, sampleE_sum]

theorem prodE_mul (S : List (List (ℝ × ℝ))) (a : ℝ) (f : List ℝ → ℝ) :
    prodE (S.map sampleE) (fun x => a * f x) = a * prodE (S.map sampleE) f := by
  simpa using prodE_sum S (Finset.univ : Finset (Fin 1)) (fun _ => a) fun _ => f

/-- The product basis functions are orthonormal under the product of the laws. -/
theorem prodE_basis {E : EighArgsort} (hE : EighArgsortOK E) {S : List Sampled} {orders : List ℕ} (h : List.Forall₂ Enough S orders) :
    ∀ row row', List.Forall₂ (· ≤ ·) row orders → List.Forall₂ (· ≤ ·) row' orders →
      prodE (S.map fun s => sampleE (s.x.zip s.w))
        (fun x => basisFun (S.map (Sampled.mparam E)) row x * basisFun (S.map (Sampled.mparam E)) row' x) = if row = row' then 1 else 0 := by
  induction h with
  | nil =>
    intro row row' h h'
    cases h; cases h'
    simp [prodE, basisFun]
  | @cons s o S os hs hS ih =>
    intro row row' h h'
    cases h with
    | @cons n _ row _ hn hrow =>
    cases h' with
    | @cons n' _ row' _ hn' hrow' =>
    have hih := ih row row' hrow hrow'
    have ho := (sampled_valid hE hs).2 n n' hn hn'
    have hS2 : S.map (fun s => sampleE (s.x.zip s.w)) = (S.map fun s => s.x.zip s.w).map sampleE := by rw [List.map_map]; rfl
    simp only [List.map_cons, prodE, basisFun]
    have e : (fun t => prodE (S.map fun s => sampleE (s.x.zip s.w)) fun xs =>
        univ (s.mparam E) n t * basisFun (S.map (Sampled.mparam E)) row xs * (univ (s.mparam E) n' t * basisFun (S.map (Sampled.mparam E)) row' xs)) =
        fun t => ∑ _i : Fin 1, (if row = row' then (1 : ℝ) else 0) * (univ (s.mparam E) n t * univ (s.mparam E) n' t) := by
      funext t
      rw [← hih, hS2]
      simp only [Finset.univ_unique, Finset.sum_singleton]
      rw [mul_comm, ← prodE_mul]
      congr 1
      funext xs
      ring
    rw [e, sampleE_sum, ho]
    simp only [Finset.univ_unique, Finset.sum_singleton, List.cons.injEq]
    by_cases h1 : n = n' <;> by_cases h2 : row = row' <;> simp [h1, h2]

/-- **C154, moments.** For the same fits with at least two coefficients and the constant first: `get_mean` and `get_variance` are the mean and the variance of
the function evaluated by `get_polyfit` when the inputs are independent with the sampled laws. -/
theorem c154_moments {E : EighArgsort} (hE : EighArgsortOK E) (S : List Sampled) (orders : List ℕ) (hS : List.Forall₂ Enough S orders)
    (B : Expansion) (hB : Regular B) (hR : B.invR = none) (hP : B.params = S.map (Sampled.mparam E))
    (hbox : ∀ row ∈ B.elements, List.Forall₂ (· ≤ ·) row orders) (hnd : B.elements.Nodup)
    (hz : B.elements.head? = some (List.replicate B.dims 0)) (c : List ℝ) (hc : c.length = B.elements.length) (h2 : 2 ≤ c.length)
    (f : List ℝ → ℝ) (hf : ∀ x, x.length = B.dims → B.polyfit c [x] = .ok [f x]) :
    Stats.mean c = .ok (prodE (S.map fun s => sampleE (s.x.zip s.w)) f) ∧
    Stats.variance c = .ok (lawVar (S.map fun s => sampleE (s.x.zip s.w)) f) := by
  have hl : S.length = B.dims := by rw [Expansion.dims, hP, List.length_map]
  set Es := S.map fun s => sampleE (s.x.zip s.w) with hEs
  have hEs' : Es = (S.map fun s => s.x.zip s.w).map sampleE := by rw [hEs, List.map_map]; rfl
  have hlE : Es.length = B.dims := by rw [hEs, List.length_map, hl]
  have hpos : 0 < B.elements.length := List.length_pos_iff.2 hB.ne
  have hmem : ∀ i, i < B.elements.length → List.Forall₂ (· ≤ ·) (B.elements.getD i []) orders := fun i hi =>
    hbox _ (by rw [getD_of_lt _ _ _ hi]; exact List.getElem_mem _)
  have h00 := Stats.getD_zero_of_head hz
  have horth : ∀ i, i < B.elements.length → ∀ j, j < B.elements.length →
      prodE Es (fun x => basisFun B.params (B.elements.getD i []) x * basisFun B.params (B.elements.getD j []) x) = if i = j then 1 else 0 := by
    intro i hi j hj
    rw [hP, prodE_basis hE hS _ _ (hmem i hi) (hmem j hj)]
    simp only [Stats.nodup_getD hnd hi hj]
  have hfe : ∀ x, x.length = Es.length → f x = ∑ i ∈ Finset.range B.elements.length,
      c.getD i 0 * basisFun B.params (B.elements.getD i []) x := by
    intro x hx
    rw [Stats.polyfit_single B hB (.inr hR) c hc f hf x (by rw [hx, hlE]), sum_expansion _ _ _ hc]
  have hone : ∀ x : List ℝ, x.length = Es.length → basisFun B.params (B.elements.getD 0 []) x = 1 := by
    intro x hx
    rw [h00]
    unfold Expansion.dims
    exact Stats.basisFun_zero B.params x (by rw [hx, hlE]; rfl)
  have hm : prodE Es f = c.getD 0 0 := by
    rw [Stats.prodE_congr Es f (fun x => ∑ i ∈ Finset.range B.elements.length,
      c.getD i 0 * (basisFun B.params (B.elements.getD i []) x * basisFun B.params (B.elements.getD 0 []) x)) fun x hx => ?_]
    · rw [hEs', prodE_sum, ← hEs', Finset.sum_eq_single 0]
      · rw [horth 0 hpos 0 hpos, if_pos rfl, mul_one]
      · intro i hi h0
        rw [horth i (Finset.mem_range.1 hi) 0 hpos, if_neg h0, mul_zero]
      · intro h; exact absurd (Finset.mem_range.2 hpos) h
    · rw [hfe x hx]
      exact Finset.sum_congr rfl fun i _ => by rw [hone x hx, mul_one]
  constructor
  · rw [hm]
    cases c with
    | nil => simp at h2
    | cons a l => rfl
  · unfold lawVar
    rw [hm, Stats.variance_ok c h2, Stats.varSum_eq, hc]
    congr 1
    set g : ℕ → ℝ := fun i => if i = 0 then 0 else c.getD i 0 with hg
    rw [Stats.prodE_congr Es (fun x => (f x - c.getD 0 0) ^ 2) (fun x => ∑ i ∈ Finset.range B.elements.length, g i *
      (∑ j ∈ Finset.range B.elements.length, g j *
        (basisFun B.params (B.elements.getD i []) x * basisFun B.params (B.elements.getD j []) x))) fun x hx => ?_]
    · rw [hEs', prodE_sum]
      refine Finset.sum_congr rfl fun i hi => ?_
      rw [prodE_sum, ← hEs', Finset.sum_eq_single i]
      · rw [horth i (Finset.mem_range.1 hi) i (Finset.mem_range.1 hi), if_pos rfl, hg]
        dsimp only
        split_ifs <;> ring
      · intro j hj hji
        rw [horth i (Finset.mem_range.1 hi) j (Finset.mem_range.1 hj), if_neg hji.symm, mul_zero]
      · intro h; exact absurd hi h
    · have : f x - c.getD 0 0 = ∑ i ∈ Finset.range B.elements.length, g i * basisFun B.params (B.elements.getD i []) x := by
        rw [hfe x hx]
        obtain ⟨n, hn⟩ : ∃ n, B.elements.length = n + 1 := ⟨_, (Nat.succ_pred_eq_of_pos hpos).symm⟩
        rw [hn, Finset.sum_range_succ', Finset.sum_range_succ', hone x hx]
        simp [hg]
      rw [this, sq, Finset.sum_mul]
      refine Finset.sum_congr rfl fun i _ => ?_
      rw [Finset.mul_sum, Finset.mul_sum]
      exact Finset.sum_congr rfl fun j _ => by ring

/-- Two parameters with a triangular density sampled at three points, and a model linear in both: the hypotheses of
`c154_recovery` and `c154_moments`. -/
example : ∃ (E : EighArgsort) (s : Sampled), EighArgsortOK E ∧ List.Forall₂ Enough [s, s] [1, 1] ∧
    Regular ⟨[s, s].map (Sampled.mparam E), [[0, 0], [0, 1], [1, 0]], none⟩ ∧
    ([[0, 0], [0, 1], [1, 0]] : List (List ℕ)).head? = some (List.replicate 2 0) ∧
    (∀ row ∈ ([[0, 0], [0, 1], [1, 0]] : List (List ℕ)), List.Forall₂ (· ≤ ·) row [1, 1]) := by
  have h : Enough ⟨[-1, 0, 1], [1, 2, 1], none, none, 0⟩ 1 := by
    refine ⟨rfl, by simp, by norm_num, ?_⟩
    have : ((([-1, 0, 1] : List ℝ).zip ([1, 2, 1] : List ℝ)).filter fun q => q.2 ≠ 0).map Prod.fst = [-1, 0, 1] := by
      simp
    rw [this, List.toFinset_card_of_nodup (by norm_num)]
    simp
  refine ⟨someEighArgsort, _, someEighArgsort_ok, .cons h (.cons h .nil), ?_, rfl, by simp⟩
  refine ⟨by simp, ?_, ?_, by simp [SquareOpt]⟩
  · simp [Expansion.dims]
  · simp [Expansion.dims]

end EQ.Poly
