import Verif.Stats.ConvergeLemmas

/-!
# Fits on tensor grids converge: C178 and C179
-/

namespace EQ.Stats
open EQ.Param EQ.ParamSpec EQ.Basis EQ.Sampling EQ.Sampling.Spec EQ.Poly EQ.Poly.Spec EQ.Stats.Spec Set

/-! ## Specification -/

/-- A parameter with a Beta-type law on `[l, u]` (Beta, uniform for `A = B = 1`, Chebyshev for `A = B = 1/2`) and its Gauss rules. -/
structure BetaInput (P : MParam) (A B l u : ℝ) : Prop where
  valid : Valid P
  shapeA : 0 < A
  shapeB : 0 < B
  range : l < u
  recurrence : P.ab = jtab (B - 1) (A - 1) l u

/-- The names of the index sets that have an order for every direction. -/
def orderKinds : List (List Char) :=
  ["tensor-grid".toList, "tensor".toList, "euclidean-degree".toList, "total-order".toList, "hyperbolic-basis".toList]

/-! ## Lemmas -/

section
variable {T : Type} [TopologicalSpace T] {Φ : (T → ℝ) → ℝ} {K : Set T}

theorem MeanOn.finsetSum (h : MeanOn Φ K) {ι : Type} (s : Finset ι) (F : ι → T → ℝ) (hF : ∀ i ∈ s, ContinuousOn (F i) K) :
    Φ (fun x => ∑ i ∈ s, F i x) = ∑ i ∈ s, Φ (F i) := by
  classical
  induction s using Finset.induction_on with
  | empty => simpa using h.const 0
  | insert i s hi ih =>
    have h1 : ContinuousOn (fun x => ∑ j ∈ s, F j x) K := continuousOn_finsetSum s fun j hj => hF j (by simp [hj])
    rw [Finset.sum_insert hi, ← ih fun j hj => hF j (by simp [hj]), ← h.add _ _ (hF i (by simp)) h1]
    congr 1
    funext x
    rw [Finset.sum_insert hi]

/-- Mean squares of near functions. -/
theorem MeanOn.near_sq (h : MeanOn Φ K) {F G : T → ℝ} (hF : ContinuousOn F K) (hG : ContinuousOn G K) {M η : ℝ} (hM : 0 ≤ M) (hη : 0 ≤ η)
    (h1 : Φ (fun x => F x ^ 2) ≤ M ^ 2) (h2 : Φ (fun x => (F x - G x) ^ 2) ≤ η ^ 2) :
    |Φ (fun x => F x ^ 2) - Φ (fun x => G x ^ 2)| ≤ 2 * M * η + η ^ 2 ∧ |Φ F - Φ G| ≤ η ∧ |Φ F| ≤ M := by
  have hH : ContinuousOn (fun x => F x - G x) K := hF.sub hG
  have hH2 : ContinuousOn (fun x => (F x - G x) ^ 2) K := hH.pow 2
  have hFH : ContinuousOn (fun x => F x * (F x - G x)) K := hF.mul hH
  have hF2 : ContinuousOn (fun x => F x ^ 2) K := hF.pow 2
  have hG2 : ContinuousOn (fun x => G x ^ 2) K := hG.pow 2
  have h2FH : ContinuousOn (fun x => 2 * (F x * (F x - G x))) K := continuousOn_const.mul hFH
  have hsq := h.nonneg _ hH2 fun x _ => sq_nonneg _
  have e : Φ (fun x => F x ^ 2) - Φ (fun x => G x ^ 2) = 2 * Φ (fun x => F x * (F x - G x)) - Φ (fun x => (F x - G x) ^ 2) := by
    rw [← h.smul _ _ hFH, ← h.sub hF2 hG2, ← h.sub h2FH hH2]
    congr 1
    funext x
    ring
  have hcs := h.mul_sq_le hF hH
  have habs : |Φ (fun x => F x * (F x - G x))| ≤ M * η := by
    apply abs_le_of_sq_le_sq _ (by positivity)
    calc _ ≤ _ := hcs
      _ ≤ M ^ 2 * η ^ 2 := mul_le_mul h1 h2 hsq (by positivity)
      _ = _ := by ring
  refine ⟨?_, ?_, ?_⟩
  · rw [e]
    have := _root_.abs_le.1 habs
    rw [_root_.abs_le]
    constructor <;> nlinarith
  · rw [← h.sub hF hG]
    exact abs_le_of_sq_le_sq ((h.sq_le hH).trans h2) hη
  · exact abs_le_of_sq_le_sq ((h.sq_le hF).trans h1) hM

/-- Variances of near functions. -/
theorem MeanOn.near_var (h : MeanOn Φ K) {F G : T → ℝ} (hF : ContinuousOn F K) (hG : ContinuousOn G K) {M η : ℝ} (hM : 0 ≤ M) (hη : 0 ≤ η)
    (h1 : Φ (fun x => F x ^ 2) ≤ M ^ 2) (h2 : Φ (fun x => (F x - G x) ^ 2) ≤ η ^ 2) :
    |Φ (fun x => (F x - Φ F) ^ 2) - Φ (fun x => (G x - Φ G) ^ 2)| ≤ 4 * M * η + 2 * η ^ 2 := by
  obtain ⟨p1, p2, p3⟩ := h.near_sq hF hG hM hη h1 h2
  rw [h.var hF, h.var hG]
  have q : |Φ F ^ 2 - Φ G ^ 2| ≤ 2 * M * η + η ^ 2 := by
    have e : Φ F ^ 2 - Φ G ^ 2 = (Φ F - Φ G) * (2 * Φ F - (Φ F - Φ G)) := by ring
    rw [e, abs_mul]
    have : |2 * Φ F - (Φ F - Φ G)| ≤ 2 * M + η := by
      refine (abs_sub _ _).trans ?_
      rw [abs_mul, abs_two]
      linarith
    calc |Φ F - Φ G| * |2 * Φ F - (Φ F - Φ G)| ≤ η * (2 * M + η) := mul_le_mul p2 this (abs_nonneg _) hη
      _ = _ := by ring
  have := _root_.abs_le.1 p1
  have := _root_.abs_le.1 q
  rw [_root_.abs_le]
  constructor <;> linarith

end

variable {d : ℕ}

theorem lawVar_eq (Es : Fin d → (ℝ → ℝ) → ℝ) (h : List ℝ → ℝ) :
    lawVar (List.ofFn Es) h = mE Es fun v => (h (List.ofFn v) - mE Es fun w => h (List.ofFn w)) ^ 2 := by
  unfold lawVar
  rw [prodE_eq_mE, prodE_eq_mE]

/-- A fit as good as wanted in the mean square, from some order on. -/
theorem converge (P : Fin d → MParam) (Es : Fin d → (ℝ → ℝ) → ℝ) (l u : Fin d → ℝ) (hI : ∀ i, Input (P i) (Es i) (l i) (u i)) (hd : d ≠ 0) (r : ℕ → Request)
    (q : ℝ) (hq : 0 < q) (hr : ∀ n, (r n).q = q ∧ lower (r n).name ∈ orderKinds ∧ (r n).orders = List.replicate d n)
    (f : List ℝ → ℝ) (hf : ContinuousOn (fun v => f (List.ofFn v)) (Icc l u)) (η : ℝ) (hη : 0 < η) :
    ∃ N, ∀ n ≥ N, ∃ els pts wts c, (r n).setOrders = .ok els ∧ Regular ⟨List.ofFn P, els, none⟩ ∧ els.Nodup ∧ els.head? = some (List.replicate d 0) ∧ 2 ≤ els.length ∧
      (∀ row ∈ els, List.Forall₂ (· ≤ ·) row (List.replicate d n)) ∧
      tensorGrid (localRules (List.ofFn P) (List.replicate d n)) = .ok (pts, wts) ∧ (∀ x ∈ pts, x.length = d) ∧ wts.length = pts.length ∧ (∀ w ∈ wts, 0 < w) ∧
      Expansion.integrate ⟨List.ofFn P, els, none⟩ pts wts (pts.map f) = .ok c ∧ c.length = els.length ∧
      mE Es (fun v => (f (List.ofFn v) - expansion (List.ofFn P) els c (List.ofFn v)) ^ 2) ≤ η ^ 2 := by
  obtain ⟨a, ha⟩ := expansion_dense P (fun i => (hI i).valid.pos) l u (fun v => f (List.ofFn v)) hf (η / 2) (by positivity)
  obtain ⟨N, hN⟩ := rows_eventually q hq a.support fun s => List.ofFn s
  obtain ⟨N', hN'⟩ := row_eventually q hq (Basis.Spec.purePower d 0 1)
  refine ⟨max (max N N') 1, fun n hn => ?_⟩
  have hn1 : n ≠ 0 := by have := (le_max_right _ _).trans hn; omega
  have hnN : N ≤ n := (le_max_left _ _).trans ((le_max_left _ _).trans hn)
  have hnN' : N' ≤ n := (le_max_right _ _).trans ((le_max_left _ _).trans hn)
  obtain ⟨hrq, hrk, hro⟩ := hr n
  obtain ⟨els, h1, h2, h3, h4, h5, h6⟩ := els_facts (r n) (by rw [hrq]; exact hq) hrk d n hd hro
  rw [hro] at h4
  rw [hrq] at h6
  have hdl : (Expansion.mk (List.ofFn P) els none).dims = d := by simp [Expansion.dims]
  have hB : Regular ⟨List.ofFn P, els, none⟩ := by
    refine ⟨?_, fun row h => by rw [hdl]; exact (h4 row h).1, fun h => ?_, by simp [SquareOpt]⟩
    · intro h
      simp only at h
      rw [h] at h2
      simp at h2
    · rw [hdl] at h
      exact ⟨n, h5 h⟩
  have hlen : 2 ≤ els.length := by
    have m1 := h6 (Basis.Spec.purePower d 0 1) (by simp [Basis.Spec.purePower]) (hN' n hnN').1 (hN' n hnN').2
    have m2 := List.mem_of_mem_head? h2
    by_contra hlt
    obtain ⟨x, hx⟩ : ∃ x, els = [x] := List.length_eq_one_iff.1 (by
      have : els.length ≠ 0 := by intro h; rw [List.length_eq_zero_iff.1 h] at m2; simp at m2
      omega)
    rw [hx] at m1 m2
    simp only [List.mem_singleton] at m1 m2
    have e := m1.trans m2.symm
    have := congrArg (fun l : List ℕ => l.getD 0 0) e
    obtain ⟨k, rfl⟩ := Nat.exists_eq_succ_of_ne_zero hd
    simp [Basis.Spec.purePower, List.replicate_succ] at this
  obtain ⟨pts, wts, c, g1, g2, g3, g4, g5, g6, g7⟩ := core P Es l u hI hd n hn1 els hB h3 h2 (fun row h => (h4 row h).2) f hf a
    (fun s hs => h6 _ (by simp) (hN n hnN s hs).1 (hN n hnN s hs).2) (η / 2) ha
  refine ⟨els, pts, wts, c, h1, hB, h3, h2, hlen, fun row h => (h4 row h).2, g1, g2, g3, g4, g5, g6, g7.trans (le_of_eq (by ring))⟩

/-- Integrating out inputs first does not change the mean. -/
theorem mE_cE (P : Fin d → MParam) (Es : Fin d → (ℝ → ℝ) → ℝ) (l u : Fin d → ℝ) (hI : ∀ i, Input (P i) (Es i) (l i) (u i)) (keep : ℕ → Bool)
    (F : (Fin d → ℝ) → ℝ) (hF : ContinuousOn F (Icc l u)) : mE Es (cE Es keep F) = mE Es F := by
  classical
  have hm := mE_mean Es l u fun i => (hI i).mean
  obtain ⟨f1, f2⟩ := cE_facts Es l u (fun i => (hI i).mean) keep
  have hm2 : MeanOn (fun F => mE Es (cE Es keep F)) (Icc l u) := by
    refine ⟨fun f g h => hm.congr _ _ fun x hx => (f1 x hx).congr f g h, fun f g hf hg => ?_, fun a f hf => ?_, fun f hf h => ?_, ?_⟩
    · rw [← hm.add _ _ (f2 f hf) (f2 g hg)]
      exact hm.congr _ _ fun x hx => (f1 x hx).add f g hf hg
    · rw [← hm.smul _ _ (f2 f hf)]
      exact hm.congr _ _ fun x hx => (f1 x hx).smul a f hf
    · exact hm.nonneg _ (f2 f hf) fun x hx => (f1 x hx).nonneg f hf h
    · rw [hm.congr _ (fun _ => 1) fun x hx => (f1 x hx).one]
      exact hm.one
  have hlaw := law_ofFn (P := P) (Es := Es) fun i => (hI i).law
  -- basis functions
  have hbasis : ∀ s : Fin d → ℕ, mE Es (cE Es keep (prodPoly P s)) = mE Es (prodPoly P s) := by
    intro s
    have e0 : ∀ v, prodPoly P s v = basisFun (List.ofFn P) (List.ofFn s) (List.ofFn v) := fun v => (basisFun_ofFn P s v).symm
    have e1 : ∀ x, cE Es keep (prodPoly P s) x = (if ∀ k, (List.ofFn s).getD k 0 ≠ 0 → keep k = true then 1 else 0) * prodPoly P s x := by
      intro x
      have := condMean_lin hlaw (Finset.range 1) (fun _ => (1 : ℝ)) (fun _ => List.ofFn s) (by simp) keep (List.ofFn x) (by simp)
      simp only [Finset.sum_range_one, one_mul] at this
      rw [condMean_eq_cE] at this
      rw [show prodPoly P s = fun v => basisFun (List.ofFn P) (List.ofFn s) (List.ofFn v) from funext e0, this]
    rw [show cE Es keep (prodPoly P s) = fun x => (if ∀ k, (List.ofFn s).getD k 0 ≠ 0 → keep k = true then 1 else 0) * prodPoly P s x from funext e1]
    by_cases hk : ∀ k, (List.ofFn s).getD k 0 ≠ 0 → keep k = true
    · simp only [if_pos hk, one_mul]
    · simp only [if_neg hk, zero_mul]
      rw [hm.const]
      have := prodE_lin (List.ofFn P) (List.ofFn Es) hlaw 1 (fun _ => List.ofFn s) (by simp) fun _ => 1
      simp only [Finset.sum_range_one, one_mul] at this
      rw [prodE_eq_mE, if_neg] at this
      · rw [← this]
        congr 1
        funext v
        exact (e0 v).symm
      · intro h0
        apply hk
        intro k hk0
        rw [h0] at hk0
        exfalso
        apply hk0
        by_cases h : k < (List.replicate (List.ofFn P).length 0).length
        · rw [getD_of_lt _ _ _ h]; simp
        · rw [List.getD_eq_default _ _ (by omega)]
  by_contra hne
  have hpos : 0 < |mE Es (cE Es keep F) - mE Es F| := abs_pos.2 (sub_ne_zero.2 hne)
  obtain ⟨a, ha⟩ := expansion_dense P (fun i => (hI i).valid.pos) l u F hF (|mE Es (cE Es keep F) - mE Es F| / 4) (by linarith)
  have hcp : ∀ s : Fin d → ℕ, ContinuousOn (prodPoly P s) (Icc l u) := by
    intro s
    have := continuous_basisFun P (List.ofFn s) (by simp)
    rw [show prodPoly P s = fun v => basisFun (List.ofFn P) (List.ofFn s) (List.ofFn v) from funext fun v => (basisFun_ofFn P s v).symm]
    exact this.continuousOn
  have hS : ContinuousOn (fun v => a.sum fun r c => c * prodPoly P r v) (Icc l u) :=
    continuousOn_finsetSum _ fun s _ => continuousOn_const.mul (hcp s)
  have hd : ContinuousOn (fun v => F v - a.sum fun r c => c * prodPoly P r v) (Icc l u) := hF.sub hS
  have b1 := hm.abs_le hd ha
  have b2 := hm2.abs_le hd ha
  rw [hm.sub hF hS] at b1
  have b2' : |mE Es (cE Es keep F) - mE Es (cE Es keep fun v => a.sum fun r c => c * prodPoly P r v)| ≤ |mE Es (cE Es keep F) - mE Es F| / 4 := by
    rw [← hm2.sub hF hS]; exact b2
  have e : mE Es (cE Es keep fun v => a.sum fun r c => c * prodPoly P r v) = mE Es fun v => a.sum fun r c => c * prodPoly P r v := by
    have s1 := hm.finsetSum a.support (fun r v => a r * prodPoly P r v) fun r _ => continuousOn_const.mul (hcp r)
    have s2 := hm2.finsetSum a.support (fun r v => a r * prodPoly P r v) fun r _ => continuousOn_const.mul (hcp r)
    have t : ∀ r, mE Es (cE Es keep fun v => a r * prodPoly P r v) = mE Es fun v => a r * prodPoly P r v := by
      intro r
      rw [hm2.smul _ _ (hcp r), hm.smul _ _ (hcp r), hbasis]
    simp only [t] at s2
    exact s2.trans s1.symm
  rw [e] at b2'
  generalize mE Es (fun v => a.sum fun r c => c * prodPoly P r v) = z at b1 b2'
  have := abs_sub_le (mE Es (cE Es keep F)) z (mE Es F)
  rw [abs_sub_comm z] at this
  linarith

/-- Conditional means do not increase mean squares. -/
theorem cE_sq (P : Fin d → MParam) (Es : Fin d → (ℝ → ℝ) → ℝ) (l u : Fin d → ℝ) (hI : ∀ i, Input (P i) (Es i) (l i) (u i)) (keep : ℕ → Bool)
    (F : (Fin d → ℝ) → ℝ) (hF : ContinuousOn F (Icc l u)) : mE Es (fun x => cE Es keep F x ^ 2) ≤ mE Es fun x => F x ^ 2 := by
  have hm := mE_mean Es l u fun i => (hI i).mean
  obtain ⟨f1, f2⟩ := cE_facts Es l u (fun i => (hI i).mean) keep
  have hF2 : ContinuousOn (fun x => F x ^ 2) (Icc l u) := hF.pow 2
  rw [← mE_cE P Es l u hI keep _ hF2]
  have h1 : ContinuousOn (fun x => cE Es keep F x ^ 2) (Icc l u) := (f2 F hF).pow 2
  exact hm.mono h1 (f2 _ hF2) fun x hx => (f1 x hx).sq_le hF

theorem quotient_near {a b a' b' M δ η : ℝ} (hb : 0 < b) (hM : 0 ≤ M) (ha : |a| ≤ M) (hδ : 0 < δ) (h1 : |a' - a| ≤ η) (h2 : |b' - b| ≤ η)
    (h3 : η ≤ b / 2) (h4 : 4 * (b + M) * η ≤ δ * b ^ 2) : |a' / b' - a / b| < δ := by
  have hb' : b / 2 ≤ b' := by have := (abs_le.1 h2).1; linarith
  have hb0 : 0 < b' := by linarith
  rw [div_sub_div _ _ hb0.ne' hb.ne', abs_div, abs_of_pos (mul_pos hb0 hb), div_lt_iff₀ (mul_pos hb0 hb)]
  have e : a' * b - b' * a = (a' - a) * b + a * (b - b') := by ring
  rw [e]
  have t1 : |(a' - a) * b| ≤ η * b := by rw [abs_mul, abs_of_pos hb]; exact mul_le_mul_of_nonneg_right h1 hb.le
  have t2 : |a * (b - b')| ≤ M * η := by
    rw [abs_mul, abs_sub_comm]; exact mul_le_mul ha h2 (abs_nonneg _) hM
  have t3 : δ * (b / 2 * b) ≤ δ * (b' * b) := mul_le_mul_of_nonneg_left (mul_le_mul_of_nonneg_right hb' hb.le) hδ.le
  have t4 : 0 < δ * b ^ 2 := by positivity
  refine lt_of_le_of_lt (abs_add_le _ _) ?_
  nlinarith

theorem exists_small (M b δ : ℝ) (hM : 0 ≤ M) (hb : 0 < b) (hδ : 0 < δ) : ∃ η, 0 < η ∧ 4 * M * η + 2 * η ^ 2 ≤ b ∧ η < δ := by
  refine ⟨min (min 1 (δ / 2)) (b / (4 * M + 2)), by positivity, ?_, ?_⟩
  · set η := min (min 1 (δ / 2)) (b / (4 * M + 2)) with h
    have h0 : 0 < η := by positivity
    have h1 : η ≤ 1 := (min_le_left _ _).trans (min_le_left _ _)
    have h2 : η ≤ b / (4 * M + 2) := min_le_right _ _
    rw [le_div_iff₀ (by positivity)] at h2
    nlinarith
  · refine lt_of_le_of_lt ((min_le_left _ _).trans (min_le_right _ _)) (by linarith)

/-! ## Properties -/

/-- **C178.** Numerical integration on tensor grids converges, for every model that is continuous on the box of the inputs: from some order on, the mean
squared error of the polynomial returned, the error of the mean reported and the error of the variance reported are below any bound. This holds for the
tensor-grid, Euclidean-degree, total-order and hyperbolic index sets with the same order for all inputs, the inputs having Beta-type laws. Least squares
on the same grid returns the same polynomial. -/
theorem c178_convergence (hd : d ≠ 0) (P : Fin d → MParam) (A B l u : Fin d → ℝ) (hI : ∀ i, BetaInput (P i) (A i) (B i) (l i) (u i))
    (r : ℕ → Request) (q : ℝ) (hq : 0 < q) (hr : ∀ n, (r n).q = q ∧ lower (r n).name ∈ orderKinds ∧ (r n).orders = List.replicate d n)
    (f : List ℝ → ℝ) (hf : ContinuousOn (fun v => f (List.ofFn v)) (Icc l u)) (δ : ℝ) (hδ : 0 < δ) :
    ∃ N, ∀ n ≥ N, ∃ (els : List (List ℕ)) (pts : List (List ℝ)) (wts c : List ℝ) (g : List ℝ → ℝ) (m v : ℝ) (M : List (List ℝ)), (r n).setOrders = .ok els ∧ tensorGrid (localRules (List.ofFn P) (r n).orders) = .ok (pts, wts) ∧
      Expansion.integrate ⟨List.ofFn P, els, none⟩ pts wts (pts.map f) = .ok c ∧
      Expansion.getPoly ⟨List.ofFn P, els, none⟩ none pts = .ok M ∧
      (∀ c', LstsqContract (designMatrix M wts) (rhs wts (pts.map f)) M.length c' → c' = c) ∧
      (∀ x : List ℝ, x.length = d → Expansion.polyfit ⟨List.ofFn P, els, none⟩ c [x] = .ok [g x]) ∧ mean c = .ok m ∧ variance c = .ok v ∧
      prodE (List.ofFn fun i => betaE (A i) (B i) (l i) (u i)) (fun x => (f x - g x) ^ 2) < δ ∧
      |m - prodE (List.ofFn fun i => betaE (A i) (B i) (l i) (u i)) f| < δ ∧
      |v - lawVar (List.ofFn fun i => betaE (A i) (B i) (l i) (u i)) f| < δ := by
  set Es : Fin d → (ℝ → ℝ) → ℝ := fun i => betaE (A i) (B i) (l i) (u i) with hEs
  have hin : ∀ i, Input (P i) (Es i) (l i) (u i) := fun i => beta_input (hI i).shapeA (hI i).shapeB (hI i).range (hI i).valid (hI i).recurrence
  have hm := mE_mean Es l u fun i => (hin i).mean
  have hf2 : ContinuousOn (fun v : Fin d → ℝ => f (List.ofFn v) ^ 2) (Icc l u) := hf.pow 2
  have hK0 := hm.nonneg _ hf2 fun v _ => sq_nonneg _
  set K := √(mE Es fun v => f (List.ofFn v) ^ 2) with hK
  have hK2 : mE Es (fun v => f (List.ofFn v) ^ 2) ≤ K ^ 2 := by rw [hK, Real.sq_sqrt hK0]
  obtain ⟨η, hη, hη1, hη2⟩ := exists_small K (δ / 2) (min δ 1) (Real.sqrt_nonneg _) (by linarith) (by positivity)
  have hη3 : η < δ := hη2.trans_le (min_le_left _ _)
  have hη4 : η < 1 := hη2.trans_le (min_le_right _ _)
  obtain ⟨N, hN⟩ := converge P Es l u hin hd r q hq hr f hf η hη
  refine ⟨N, fun n hn => ?_⟩
  obtain ⟨els, pts, wts, c, h1, hB, hnd, hz, hlen, hbox, hg, hpl, hwl, hwp, hc, hcl, herr⟩ := hN n hn
  have hdl : (Expansion.mk (List.ofFn P) els none).dims = d := by simp [Expansion.dims]
  have hlaw := law_ofFn (P := P) (Es := Es) fun i => (hin i).law
  have hpf : ∀ x : List ℝ, x.length = (Expansion.mk (List.ofFn P) els none).dims → Expansion.polyfit ⟨List.ofFn P, els, none⟩ c [x] = .ok [expansion (List.ofFn P) els c x] := by
    intro x hx
    rw [polyfit_eq _ hB c hcl [x] (by simpa using hx), eff_none _ rfl]
    rfl
  obtain ⟨hmean, hvar⟩ := c32_mean_variance_partial ⟨List.ofFn P, els, none⟩ hB (.inr rfl) (by rw [hdl]; exact hz) hnd (List.ofFn Es) hlaw c hcl (by omega) _ hpf
  have hG : ContinuousOn (fun v : Fin d → ℝ => expansion (List.ofFn P) els c (List.ofFn v)) (Icc l u) :=
    (continuous_expansion P els (fun row h => (hB.rows row h).trans hdl) c hcl).continuousOn
  have hsq := hm.near_sq hf hG (Real.sqrt_nonneg _) hη.le hK2 herr
  have hva := hm.near_var hf hG (Real.sqrt_nonneg _) hη.le hK2 herr
  have hne : List.ofFn P ≠ [] := by
    intro h; have := congrArg List.length h; simp at this; exact hd this
  have hV : ∀ Q ∈ List.ofFn P, Valid Q := by
    intro Q hQ
    obtain ⟨i, rfl⟩ := List.mem_ofFn.1 hQ
    exact (hI i).valid
  obtain ⟨M, hM, hls⟩ := c31_least_squares ⟨List.ofFn P, els, none⟩ hB pts (by rw [hdl]; exact hpl) wts (pts.map f) hwl hwp (by simp)
  refine ⟨els, pts, wts, c, expansion (List.ofFn P) els c, _, _, M, h1, by rw [(hr n).2.2]; exact hg, hc, hM, fun c' hc' => ?_,
    fun x hx => hpf x (hx.trans hdl.symm), hmean, hvar, ?_, ?_, ?_⟩
  · obtain ⟨pts', wts', e, hpro⟩ := c166_projection ⟨List.ofFn P, els, none⟩ hB rfl hne hV (List.replicate d n) (by simp [Expansion.dims]) hbox hnd
    rw [hg] at e
    obtain ⟨rfl, rfl⟩ := Prod.mk.inj (Except.ok.inj e)
    obtain ⟨z, F, hz1, hz2, hz3⟩ := hpro (pts.map f) (by simp)
    rw [hc] at hz1
    obtain rfl := Except.ok.inj hz1
    obtain ⟨fit, hfit, hmin, -, -⟩ := hls c' hc'
    have hc'l : c'.length = els.length := by
      obtain ⟨M', hM', hMl, -⟩ := getPoly_dot ⟨List.ofFn P, els, none⟩ hB pts (by rw [hdl]; exact hpl)
      rw [hM] at hM'
      obtain rfl := Except.ok.inj hM'
      rw [hc'.1, hMl]
    refine (hz3 c' (fit c') (by omega) fun x hx => ?_).2 ?_
    · simpa using hfit c' hc'l [x] (by simpa using hx)
    · refine (hmin c hcl).trans (le_of_eq ?_)
      unfold misfit
      apply Finset.sum_congr rfl
      intro j hj
      have hx : (pts.getD j []).length = (Expansion.mk (List.ofFn P) els none).dims := by
        rw [hdl, getD_of_lt _ _ _ (Finset.mem_range.1 hj)]; exact hpl _ (List.getElem_mem _)
      have e1 := hfit c hcl [pts.getD j []] (by simpa using hx)
      rw [hz2 _ hx] at e1
      simp only [Except.ok.injEq, List.map_cons, List.map_nil, List.cons.injEq, and_true] at e1
      rw [e1]
  · rw [prodE_eq_mE]
    refine lt_of_le_of_lt herr ?_
    nlinarith
  · rw [prodE_eq_mE, prodE_eq_mE, abs_sub_comm]
    exact lt_of_le_of_lt hsq.2.1 hη3
  · have := lawVar_eq Es (expansion (List.ofFn P) els c)
    unfold lawVar at this
    rw [this, lawVar_eq, abs_sub_comm]
    refine lt_of_le_of_lt hva (by linarith)

/-- **C179.** Under the conditions of C178, with two or more inputs and a model of non-zero variance: the Sobol' indices reported converge to those of the
model. For every set of inputs, the sum of the reported indices of its subsets is, from some order on, within any bound of the variance of the conditional
mean of the model given those inputs, relative to the variance of the model; the bound holds for all sets of inputs at once. In particular the
first-order indices; and the total indices converge to those of the model. -/
theorem c179_sobol_convergence (hd : 2 ≤ d) (P : Fin d → MParam) (A B l u : Fin d → ℝ) (hI : ∀ i, BetaInput (P i) (A i) (B i) (l i) (u i))
    (r : ℕ → Request) (q : ℝ) (hq : 0 < q) (hr : ∀ n, (r n).q = q ∧ lower (r n).name ∈ orderKinds ∧ (r n).orders = List.replicate d n)
    (f : List ℝ → ℝ) (hf : ContinuousOn (fun v => f (List.ofFn v)) (Icc l u)) (Es : List ((ℝ → ℝ) → ℝ))
    (hE : Es = List.ofFn fun i => betaE (A i) (B i) (l i) (u i)) (hv : lawVar Es f ≠ 0) (δ : ℝ) (hδ : 0 < δ) :
    ∃ N, ∀ n ≥ N, ∃ (els : List (List ℕ)) (pts : List (List ℝ)) (wts c : List ℝ) (s : Sobol) (L : ℕ → List (List ℕ × ℝ)) (T : List ℝ), (r n).setOrders = .ok els ∧ tensorGrid (localRules (List.ofFn P) (r n).orders) = .ok (pts, wts) ∧
      Expansion.integrate ⟨List.ofFn P, els, none⟩ pts wts (pts.map f) = .ok c ∧ allSobol c els d none = .ok s ∧
      (∀ o, getSobol s o = .ok (L o)) ∧ getSobolTotal s d = .ok T ∧ T.length = d ∧
      (∀ keep : ℕ → Bool, |∑ o ∈ Finset.Icc 1 d, (((L o).filter fun t => t.1.all keep).map Prod.snd).sum - lawVar Es (condMean Es keep f) / lawVar Es f| < δ) ∧
      ∀ i < d, (∃ x, ([i], x) ∈ L 1 ∧ |x - lawVar Es (condMean Es (fun k => k == i) f) / lawVar Es f| < δ) ∧
        |T.getD i 0 - (1 - lawVar Es (condMean Es (fun k => k != i) f) / lawVar Es f)| < δ := by
  subst hE
  set Es : Fin d → (ℝ → ℝ) → ℝ := fun i => betaE (A i) (B i) (l i) (u i) with hEs
  have hin : ∀ i, Input (P i) (Es i) (l i) (u i) := fun i => beta_input (hI i).shapeA (hI i).shapeB (hI i).range (hI i).valid (hI i).recurrence
  have hm := mE_mean Es l u fun i => (hin i).mean
  have hf2 : ContinuousOn (fun v : Fin d → ℝ => f (List.ofFn v) ^ 2) (Icc l u) := hf.pow 2
  have hK0 := hm.nonneg _ hf2 fun v _ => sq_nonneg _
  set K := √(mE Es fun v => f (List.ofFn v) ^ 2) with hK
  have hKn : 0 ≤ K := Real.sqrt_nonneg _
  have hK2 : mE Es (fun v => f (List.ofFn v) ^ 2) ≤ K ^ 2 := by rw [hK, Real.sq_sqrt hK0]
  -- the variance of the model
  set b := lawVar (List.ofFn Es) f with hb
  have hbe : b = mE Es (fun v => f (List.ofFn v) ^ 2) - mE Es (fun v => f (List.ofFn v)) ^ 2 := by
    rw [hb, lawVar_eq, hm.var hf]
  have hb0 : 0 < b := by
    refine lt_of_le_of_ne ?_ (Ne.symm hv)
    rw [hb, lawVar_eq]
    have hc : ContinuousOn (fun v : Fin d → ℝ => (f (List.ofFn v) - mE Es fun w => f (List.ofFn w)) ^ 2) (Icc l u) := (hf.sub continuousOn_const).pow 2
    exact hm.nonneg _ hc fun v _ => sq_nonneg _
  -- the size of the perturbation allowed
  have hκ0 : 0 < min (b / 2) (δ * b ^ 2 / (4 * (b + K ^ 2))) := by positivity
  set κ := min (b / 2) (δ * b ^ 2 / (4 * (b + K ^ 2))) with hκ
  have hκ1 : κ ≤ b / 2 := min_le_left _ _
  have hκ2 : 4 * (b + K ^ 2) * κ ≤ δ * b ^ 2 := by
    have : κ ≤ δ * b ^ 2 / (4 * (b + K ^ 2)) := min_le_right _ _
    rw [le_div_iff₀ (by positivity)] at this
    linarith
  obtain ⟨η, hη, hη1, -⟩ := exists_small K κ 1 hKn hκ0 one_pos
  obtain ⟨N, hN⟩ := converge P Es l u hin (by omega) r q hq hr f hf η hη
  refine ⟨N, fun n hn => ?_⟩
  obtain ⟨els, pts, wts, c, h1, hB, hnd, hz, hlen, hbox, hg, hpl, hwl, hwp, hc, hcl, herr⟩ := hN n hn
  have hdl : (Expansion.mk (List.ofFn P) els none).dims = d := by simp [Expansion.dims]
  have hlaw := law_ofFn (P := P) (Es := Es) fun i => (hin i).law
  have hpf : ∀ x : List ℝ, x.length = (Expansion.mk (List.ofFn P) els none).dims → Expansion.polyfit ⟨List.ofFn P, els, none⟩ c [x] = .ok [expansion (List.ofFn P) els c x] := by
    intro x hx
    rw [polyfit_eq _ hB c hcl [x] (by simpa using hx), eff_none _ rfl]
    rfl
  set g := expansion (List.ofFn P) els c with hgdef
  have hG : ContinuousOn (fun v : Fin d → ℝ => g (List.ofFn v)) (Icc l u) :=
    (continuous_expansion P els (fun row h => (hB.rows row h).trans hdl) c hcl).continuousOn
  have hva : |lawVar (List.ofFn Es) g - b| ≤ κ := by
    rw [hb, abs_sub_comm, lawVar_eq, lawVar_eq]
    exact (hm.near_var hf hG hKn hη.le hK2 herr).trans hη1
  have hvg : lawVar (List.ofFn Es) g ≠ 0 := by
    intro h0
    rw [h0] at hva
    have := (abs_le.1 hva).1
    linarith
  -- the closed indices
  have hclosed : ∀ keep : ℕ → Bool, |lawVar (List.ofFn Es) (condMean (List.ofFn Es) keep g) / lawVar (List.ofFn Es) g -
      lawVar (List.ofFn Es) (condMean (List.ofFn Es) keep f) / b| < δ := by
    intro keep
    obtain ⟨f1, f2⟩ := cE_facts Es l u (fun i => (hin i).mean) keep
    have e : ∀ h : List ℝ → ℝ, lawVar (List.ofFn Es) (condMean (List.ofFn Es) keep h) =
        mE Es fun v => (cE Es keep (fun w => h (List.ofFn w)) v - mE Es (cE Es keep fun w => h (List.ofFn w))) ^ 2 := by
      intro h
      rw [lawVar_eq]
      simp only [condMean_eq_cE]
    have hcf := f2 _ hf
    have hcg := f2 _ hG
    have s1 : mE Es (fun v => cE Es keep (fun w => f (List.ofFn w)) v ^ 2) ≤ K ^ 2 := (cE_sq P Es l u hin keep _ hf).trans hK2
    have s2 : mE Es (fun v => (cE Es keep (fun w => f (List.ofFn w)) v - cE Es keep (fun w => g (List.ofFn w)) v) ^ 2) ≤ η ^ 2 := by
      have hfg : ContinuousOn (fun v : Fin d → ℝ => f (List.ofFn v) - g (List.ofFn v)) (Icc l u) := hf.sub hG
      refine le_trans (le_of_eq ?_) ((cE_sq P Es l u hin keep _ hfg).trans herr)
      apply hm.congr
      intro v hv
      rw [(f1 v hv).sub hf hG]
    have s3 := (hm.near_var hcf hcg hKn hη.le s1 s2).trans hη1
    refine quotient_near (M := K ^ 2) (η := κ) hb0 (sq_nonneg _) ?_ hδ ?_ hva hκ1 hκ2
    · rw [e, hm.var hcf, _root_.abs_of_nonneg]
      · linarith [sq_nonneg (mE Es (cE Es keep fun w => f (List.ofFn w)))]
      · linarith [hm.sq_le hcf]
    · rw [e, e, abs_sub_comm]
      exact s3
  obtain ⟨s, hs, L, hL, hsum⟩ := c162_closed ⟨List.ofFn P, els, none⟩ hB rfl (by omega) (by rw [hdl]; exact hz) hnd (List.ofFn Es) hlaw c hcl (by omega) g hpf hvg
  obtain ⟨s', L', hs', hL', hfirst⟩ := c162_first ⟨List.ofFn P, els, none⟩ hB rfl (by omega) (by rw [hdl]; exact hz) hnd (List.ofFn Es) hlaw c hcl (by omega) g hpf hvg
  obtain ⟨s'', T, hs'', hT, hTl, htot⟩ := c162_total ⟨List.ofFn P, els, none⟩ hB rfl (by omega) (by rw [hdl]; exact hz) hnd (List.ofFn Es) hlaw c hcl (by omega) g hpf hvg
  rw [hs] at hs' hs''
  obtain rfl := Except.ok.inj hs'
  obtain rfl := Except.ok.inj hs''
  rw [hL 1] at hL'
  obtain rfl := Except.ok.inj hL'
  rw [hdl] at hs hsum hfirst hT hTl htot
  refine ⟨els, pts, wts, c, s, L, T, h1, by rw [(hr n).2.2]; exact hg, hc, hs, hL, hT, hTl, fun keep => ?_, fun i hi => ⟨⟨_, hfirst i hi, hclosed _⟩, ?_⟩⟩
  · rw [hsum keep]
    exact hclosed keep
  · rw [(htot i hi).2]
    have := hclosed fun k => k != i
    rw [abs_sub_comm] at this
    convert this using 2
    ring

/-- Two uniform inputs on `[-1, 1]` and total-order index sets: the hypotheses of C178 and C179, with the model `|x₁| + x₂` as a non-smooth case. -/
example : ∃ P : MParam, BetaInput P 1 1 (-1) 1 ∧ ContinuousOn (fun v : Fin 2 → ℝ => (fun x : List ℝ => |x.getD 0 0| + x.getD 1 0) (List.ofFn v)) (Icc (fun _ => -1) fun _ => 1) ∧
    ∀ n, (Request.mk "total-order".toList (List.replicate 2 n) 0 .linear 1).q = 1 ∧
      lower (Request.mk "total-order".toList (List.replicate 2 n) 0 .linear 1).name ∈ orderKinds := by
  obtain ⟨P, hv, hab, -⟩ := exists_valid (jtab (1 - 1) (1 - 1) (-1) 1)
    (by norm_num [jtab, jacobiRow]) (fun k hk => beta_tab_pos one_pos one_pos (by norm_num) k hk) none none 0
  refine ⟨P, ⟨hv, one_pos, one_pos, by norm_num, hab⟩, ?_, fun n => ⟨rfl, by show lower "total-order".toList ∈ orderKinds; unfold orderKinds; decide⟩⟩
  have : (fun v : Fin 2 → ℝ => (fun x : List ℝ => |x.getD 0 0| + x.getD 1 0) (List.ofFn v)) = fun v => |v 0| + v 1 := by
    funext v
    simp
  rw [this]
  exact (by fun_prop : Continuous fun v : Fin 2 → ℝ => |v 0| + v 1).continuousOn

end EQ.Stats
