import Verif.Tree.InputProps

/-!
# Trees of polynomials and the units of the outputs (C186)

The fits of `_fit_poly` are weighted least squares, so `c186_tree` applies to them.
-/

namespace EQ.Tree
open EQ.Basis EQ.Param EQ.Sampling EQ.Poly EQ.Sub MvPolynomial

variable {d : ℕ}

/-- The points determine the polynomials of total degree at most `p`. -/
def DetPts (p : ℕ) (X : List (Pt d)) : Prop := ∀ q : MvPolynomial (Fin d) ℝ, q.totalDegree ≤ p → (∀ x ∈ X, eval x q = 0) → q = 0

/-- The polynomials of total degree at most `p`, as functions. -/
def polySpace (p : ℕ) : Submodule ℝ (PolyFn d) where
  carrier := {f | ∃ q : MvPolynomial (Fin d) ℝ, q.totalDegree ≤ p ∧ f = fun x => eval x q}
  add_mem' := by
    rintro f g ⟨q, hq, rfl⟩ ⟨r, hr, rfl⟩
    exact ⟨q + r, (totalDegree_add q r).trans (max_le hq hr), by funext x; simp⟩
  zero_mem' := ⟨0, by simp, by funext x; simp⟩
  smul_mem' := by
    rintro c f ⟨q, hq, rfl⟩
    exact ⟨c • q, (totalDegree_smul_le _ _).trans hq, by funext x; simp [smul_eval]⟩

theorem weighted_sum (w : ℕ → ℝ) (f : PolyFn d) (X : List (Pt d)) (y : List ℝ) (h : X.length = y.length) :
    weighted w f ⟨X, y⟩ = ∑ i : Fin X.length, w i * (y.getD i 0 - f X[i]) ^ 2 := by
  have e : ((X.zip y).zipIdx.map fun r => w r.2 * (r.1.2 - f r.1.1) ^ 2) = List.ofFn fun i : Fin X.length => w i * (y.getD i 0 - f X[i]) ^ 2 := by
    apply List.ext_getElem
    · simp [h]
    · intro i h1 h2
      have h2 : i < X.length := by simpa using h2
      simp only [List.getElem_map, List.getElem_zipIdx, List.getElem_zip, List.getElem_ofFn, zero_add, Fin.getElem_fin]
      rw [getD_of_lt y 0 i (h ▸ h2)]
  unfold weighted
  rw [e, List.sum_ofFn]

theorem nodeParam_pos (X : List (Pt d)) (hX : X ≠ []) (j : Fin d) (k : ℕ) (hk : 1 ≤ k) : 0 < ((nodeParam (X.map fun x => x j)).ab k).2 := by
  obtain ⟨x, hx⟩ := List.exists_mem_of_ne_nil X hX
  have hl : least (X.map fun x => x j) ≤ x j := (foldl_min_le _ _).2 _ (List.mem_map.2 ⟨x, hx, rfl⟩)
  have hg : x j ≤ greatest (X.map fun x => x j) := (le_foldl_maxR _ _).2 _ (List.mem_map.2 ⟨x, hx, rfl⟩)
  unfold nodeParam
  split_ifs with h
  · exact uniform_pos (by linarith) k hk
  · refine uniform_pos (lt_of_le_of_ne (hl.trans hg) fun h0 => h ?_) k hk
    rw [h0]
    norm_num

theorem valueAt_comb (P : Fin d → MParam) (hd : 0 < d) (p : ℕ) (c : List ℝ) (hc : c.length = (fitElements d p).length) (x : Pt d) :
    valueAt ⟨orderBasis P p, c⟩ x = eval x (comb P p c) := by
  have he : (orderBasis P p).eff c = c := by
    unfold Expansion.eff
    split_ifs <;> rfl
  unfold valueAt
  simp only
  rw [polyfit_eq (orderBasis P p) (orderBasis_regular P hd p) c hc [List.ofFn x] (by simp [orderBasis, Expansion.dims]), he]
  simp only [List.map_cons, List.map_nil, List.headD_cons]
  exact expansion_comb P hd p c hc x

/-- The parameters of the basis of a node. -/
noncomputable def nodeParams (X : List (Pt d)) (j : Fin d) : MParam := nodeParam (X.map fun x => x j)

/-- The polynomial of a fit at a node. -/
noncomputable def nodePoly (X : List (Pt d)) (p : ℕ) (c : List ℝ) : MvPolynomial (Fin d) ℝ := comb (nodeParams X) p c

/-- The weight of a point, up to a factor common to all points. -/
noncomputable def pointWeight (P : Fin d → MParam) (p : ℕ) (x : Pt d) : ℝ :=
  (if d = 1 then ∑ k ∈ Finset.range (colMax (fitElements d p) 0 + 1), Sampling.Spec.basisFun (List.ofFn P) [k] (List.ofFn x) ^ 2
    else ((fitElements d p).map fun row => Sampling.Spec.basisFun (List.ofFn P) row (List.ofFn x) ^ 2).sum)⁻¹

theorem weights_form (P : Fin d → MParam) (hd : 0 < d) (p : ℕ) {K : ℕ} (Y : Matrix (Fin K) (Fin d) ℝ) (hK : 0 < K) :
    ∃ k, 0 < k ∧ ∀ i : Fin K,
      (sampleWeights (multiPoly (orderBasis P p).params (orderBasis P p).elements (orderBasis P p).dims (rowList Y)) (rowList Y).length).getD i 0 =
        k * pointWeight P p (Y i) := by
  have hne : rowList Y ≠ [] := by
    intro h
    have := congrArg List.length h
    simp [rowList] at this
    omega
  have hp : ∀ x ∈ rowList Y, x.length = (List.ofFn P).length := by simp [rowList]
  have hlen : (rowList Y).length = K := by simp [rowList]
  have hget : ∀ i : Fin K, ∀ h, (rowList Y)[(i : ℕ)]'h = List.ofFn (Y i) := fun i h => by simp [rowList]
  by_cases h1 : d = 1
  · subst h1
    have hP : List.ofFn P = [P 0] := by simp
    obtain ⟨-, -, -, k, hk, h⟩ := c24_sample_weights_one (P 0) (fitElements 1 p) (rowList Y) hne (by simpa using hp)
    refine ⟨k, hk, fun i => ?_⟩
    have h := h i (by rw [hlen]; exact i.2)
    rw [hget] at h
    have e : (sampleWeights (multiPoly (orderBasis P p).params (orderBasis P p).elements (orderBasis P p).dims (rowList Y)) (rowList Y).length) =
        sampleWeights (multiPoly [P 0] (fitElements 1 p) 1 (rowList Y)) (rowList Y).length := by
      simp only [orderBasis, Expansion.dims, hP]
      rfl
    rw [e]
    unfold pointWeight
    rw [if_pos rfl, hP]
    refine (eq_mul_inv_iff_mul_eq₀ fun h0 => ?_).2 h
    rw [h0, mul_zero] at h
    exact hk.ne h
  · obtain ⟨-, -, -, k, hk, h⟩ := c24_sample_weights (List.ofFn P) (by simpa using h1) (fitElements d p)
      (fun row hr => by simpa using ((mem_fitElements hd p row).1 hr).1)
      (by rw [List.length_ofFn]; exact (mem_fitElements hd p _).2 (by simp)) (rowList Y) hne hp
    refine ⟨k, hk, fun i => ?_⟩
    have h := h i (by rw [hlen]; exact i.2)
    rw [hget] at h
    unfold pointWeight
    rw [if_neg h1]
    refine (eq_mul_inv_iff_mul_eq₀ fun h0 => ?_).2 h
    rw [h0, mul_zero] at h
    exact hk.ne h

theorem node_opt {lstsq : List (List ℝ) → List ℝ → ℕ → List ℝ} (hl : LstsqOK lstsq) (hd : 0 < d) (p : ℕ) (X : List (Pt d)) :
    ∃ w : ℕ → ℝ, X ≠ [] → (∀ i < X.length, 0 < w i) ∧ (∃ k, 0 < k ∧ ∀ i (h : i < X.length), w i = k * pointWeight (nodeParams X) p X[i]) ∧ ∀ y : List ℝ, X.length = y.length →
      ∃ c, fitSamples lstsq (nodeBasis (fitElements d p) X) (X.map fun x => List.ofFn x) y = .ok ⟨orderBasis (nodeParams X) p, c⟩ ∧
        c.length = (fitElements d p).length ∧
        ∀ q : MvPolynomial (Fin d) ℝ, q.totalDegree ≤ p →
          weighted w (fun x => eval x (nodePoly X p c)) ⟨X, y⟩ ≤ weighted w (fun x => eval x q) ⟨X, y⟩ := by
  by_cases hX : X = []
  · exact ⟨fun _ => 1, fun h => absurd hX h⟩
  have hK : 0 < X.length := List.length_pos_iff.2 hX
  obtain ⟨w, hw, hform, hfit⟩ := fitSamples_min (K := X.length) hl (nodeParams X) (nodeParam_pos X hX) hd p (Matrix.of fun i => X[i]) hK
  have hrow : rowList (Matrix.of fun i : Fin X.length => X[i]) = X.map fun x => List.ofFn x := by
    apply List.ext_getElem
    · simp [rowList]
    · intro i h1 h2
      simp only [rowList, List.getElem_ofFn, List.getElem_map]
      rfl
  refine ⟨fun i => if h : i < X.length then w ⟨i, h⟩ else 0, fun _ => ⟨fun i hi => ?_, ?_, fun y hy => ?_⟩⟩
  · beta_reduce
    rw [dif_pos hi]
    exact hw _
  · obtain ⟨k, hk, h⟩ := weights_form (nodeParams X) hd p (Matrix.of fun i : Fin X.length => X[i]) hK
    refine ⟨k, hk, fun i hi => ?_⟩
    beta_reduce
    rw [dif_pos hi, hform, h]
    rfl
  obtain ⟨c, h1, h2, h3⟩ := hfit fun i => y.getD i 0
  have hys : (List.ofFn fun i : Fin X.length => y.getD i 0) = y := by
    apply List.ext_getElem
    · simp [hy]
    · intro i h1 h2
      simp [h2]
  rw [hrow, hys] at h1
  refine ⟨c, h1, h2, fun q hq => ?_⟩
  have := h3 q hq
  rw [weighted_sum _ _ _ _ hy, weighted_sum _ _ _ _ hy]
  refine le_trans (le_of_eq (Finset.sum_congr rfl fun i _ => ?_)) (le_trans this (le_of_eq (Finset.sum_congr rfl fun i _ => ?_)))
  · rw [dif_pos i.2]
    show w i * _ = w i * (eval (X[i]) (nodePoly X p c) - _) ^ 2
    ring
  · rw [dif_pos i.2]
    show w i * (eval (X[i]) q - _) ^ 2 = w i * _
    ring

theorem strict_opt (w : ℕ → ℝ) (X : List (Pt d)) (hpos : ∀ i < X.length, 0 < w i) (y : List ℝ) (hp : X.length = y.length) (p : ℕ) (hD : DetPts p X)
    (r : MvPolynomial (Fin d) ℝ) (hdeg : r.totalDegree ≤ p)
    (h3 : ∀ q : MvPolynomial (Fin d) ℝ, q.totalDegree ≤ p → weighted w (fun x => eval x r) ⟨X, y⟩ ≤ weighted w (fun x => eval x q) ⟨X, y⟩)
    (q : MvPolynomial (Fin d) ℝ) (hq : q.totalDegree ≤ p) (hne : q ≠ r) :
    weighted w (fun x => eval x r) ⟨X, y⟩ < weighted w (fun x => eval x q) ⟨X, y⟩ := by
  have hmid := h3 (C (1 / 2) * (r + q)) (by
    refine (totalDegree_mul _ _).trans ?_
    rw [totalDegree_C, zero_add]
    exact (totalDegree_add r q).trans (max_le hdeg hq))
  have hdelta : 0 < ∑ i : Fin X.length, w i * (eval (X[i]) r - eval (X[i]) q) ^ 2 := by
    have hnn : ∀ i ∈ Finset.univ, 0 ≤ w (i : Fin X.length) * (eval (X[i]) r - eval (X[i]) q) ^ 2 := fun i _ =>
      mul_nonneg (hpos i i.2).le (sq_nonneg _)
    refine lt_of_le_of_ne (Finset.sum_nonneg hnn) fun h0 => hne ?_
    have hz := (Finset.sum_eq_zero_iff_of_nonneg hnn).1 h0.symm
    have : r - q = 0 := hD (r - q) ((totalDegree_sub r q).trans (max_le hdeg hq)) fun x hx => by
      obtain ⟨i, hi, rfl⟩ := List.getElem_of_mem hx
      have := hz ⟨i, hi⟩ (Finset.mem_univ _)
      have := (mul_eq_zero.1 this).resolve_left (hpos i hi).ne'
      rw [map_sub]
      exact pow_eq_zero_iff two_ne_zero |>.1 this
    exact (sub_eq_zero.1 this).symm
  rw [weighted_sum _ _ _ _ hp, weighted_sum _ _ _ _ hp] at hmid ⊢
  have hsum : ∑ i : Fin X.length, w i * (y.getD i 0 - eval (X[i]) (C (1 / 2) * (r + q))) ^ 2 =
      1 / 2 * ∑ i : Fin X.length, w i * (y.getD i 0 - eval (X[i]) r) ^ 2 + 1 / 2 * ∑ i : Fin X.length, w i * (y.getD i 0 - eval (X[i]) q) ^ 2 -
        1 / 4 * ∑ i : Fin X.length, w i * (eval (X[i]) r - eval (X[i]) q) ^ 2 := by
    rw [Finset.mul_sum, Finset.mul_sum, Finset.mul_sum, ← Finset.sum_add_distrib, ← Finset.sum_sub_distrib]
    refine Finset.sum_congr rfl fun i _ => ?_
    rw [map_mul, map_add, eval_C]
    ring
  rw [hsum] at hmid
  linarith

/-- `_fit_poly` is weighted least squares for all points that determine the polynomials of the degree. -/
theorem fitPoly_leastSquares {lstsq : List (List ℝ) → List ℝ → ℕ → List ℝ} (hl : LstsqOK lstsq) (hd : 0 < d) (p : ℕ) :
    ∃ wts, LeastSquares (fun D : Data d => DetPts p D.X) (fun _ => polySpace p) wts (fun _ => False) (fitPoly lstsq (fitElements d p)) := by
  choose w hw using node_opt (d := d) hl hd p
  refine ⟨w, fun D hD hp => ⟨fun h => h.elim, fun _ => ?_⟩⟩
  obtain ⟨X, y⟩ := D
  have hX : X ≠ [] := by
    rintro rfl
    exact one_ne_zero (hD 1 (by simp) (by simp))
  obtain ⟨hpos, -, hfit⟩ := hw X hX
  obtain ⟨c, h1, h2, h3⟩ := hfit y hp
  have hval : valueAt ⟨orderBasis (nodeParams X) p, c⟩ = fun x : Pt d => eval x (nodePoly X p c) := funext fun x => valueAt_comb _ hd p c h2 x
  have hdeg : (nodePoly X p c).totalDegree ≤ p := comb_deg (nodeParams X) (nodeParam_pos X hX) hd p c
  refine ⟨fun x => eval x (nodePoly X p c), ⟨_, hdeg, rfl⟩, ?_, ?_⟩
  · unfold fitPoly
    simp only [h1, hval]
  · rintro _ ⟨q, hq, rfl⟩ hne
    exact strict_opt (w X) X hpos y hp p hD _ hdeg h3 q hq fun h => hne (by rw [h])

/-- **C186, trees of polynomials.** For the fits of `_fit_poly` with the total-order basis of degree `p`: if every set of samples that a node may hold — the whole
training set, or at least `min_samples_leaf` of the samples — determines the polynomials of the degree, then measuring the outputs in other units (`y ↦ a y + b` with
`a ≠ 0`) changes nothing but the units: fitting and pruning fail in the same way, the splits are the same, and every prediction is transformed like the outputs. -/
theorem c186_poly_tree (cfg : Config) {lstsq : List (List ℝ) → List ℝ → ℕ → List ℝ} (hl : LstsqOK lstsq) (hd : 0 < d) (p : ℕ) (a b : ℝ) (ha : a ≠ 0)
    (D : Data d) (hD : D.Paired) (Vs : List (Data d)) (hV : ∀ V ∈ Vs, V.Paired) (S : State d)
    (h : ∀ L : List (Pt d), L.Sublist D.X → L = D.X ∨ resolveMsl cfg.cardinality S.msl ≤ L.length → DetPts p L) :
    match fitAndPrune cfg (fitPoly lstsq (fitElements d p)) D Vs S,
      fitAndPrune cfg (fitPoly lstsq (fitElements d p)) (D.scale a b) (Vs.map (Data.scale a b)) S with
    | .error e, .error e' => e = e'
    | .ok t, .ok t' =>
      (∀ n, t.tree = some n → ∃ n', t'.tree = some n' ∧ getSplits n' [] = getSplits n []) ∧
      ∀ x, predict t' x = (predict t x).map (Option.map fun v => a * v + b)
    | _, _ => False := by
  obtain ⟨wts, hw⟩ := fitPoly_leastSquares hl hd p
  have hf := c186_least_squares _ _ _ _ _ hw (fun _ => ⟨1, by simp, by funext x; simp⟩) a b ha fun D h => h
  refine c186_tree cfg (fun E => E.X.Sublist D.X ∧ (E.X = D.X ∨ resolveMsl cfg.cardinality S.msl ≤ E.X.length)) _ a b ha
    (fun E hE hp => hf E (h _ hE.1 hE.2) hp) D ⟨List.Sublist.refl _, Or.inl rfl⟩ hD Vs hV S ?_
  intro E hE c hc
  unfold candidates at hc
  simp only [List.mem_flatMap, List.mem_filterMap] at hc
  obtain ⟨j, _, v, _, hc⟩ := hc
  split_ifs at hc with hlen
  obtain rfl := Option.some.inj hc
  exact ⟨⟨(split_sublist j v E).1.trans hE.1, Or.inr hlen.1⟩, ⟨(split_sublist j v E).2.trans hE.1, Or.inr hlen.2⟩⟩

/-- Lines fitted to samples at `0, 1, ..., n + 1`. -/
theorem lines_det (n : ℕ) (y : List ℝ) (S : State 1) (hS : S.msl = some 3) (cfg : Config) (hc : cfg.cardinality = 2)
    (D : Data 1) (hD : D = ⟨(List.range (n + 2)).map fun (i : ℕ) (_ : Fin 1) => (i : ℝ), y⟩) :
    ∀ L : List (Pt 1), L.Sublist D.X → L = D.X ∨ resolveMsl cfg.cardinality S.msl ≤ L.length → DetPts 1 L := by
  subst hD
  intro L hL h q hq h0
  have hlen : 2 ≤ L.length := by
    rcases h with h | h
    · rw [h]; simp
    · rw [hS, hc] at h
      exact le_trans (by decide) h
  have hinc : ((List.range (n + 2)).map fun (i : ℕ) (_ : Fin 1) => (i : ℝ)).Pairwise fun a b => a 0 < b 0 := by
    rw [List.pairwise_map]
    exact List.pairwise_lt_range.imp fun {a b} hab => by
      show (a : ℝ) < b
      exact_mod_cast hab
  have hp := hinc.sublist hL
  match L, hlen, hp, h0 with
  | a :: b :: L, _, hp, h0 =>
    have h1 : a 0 < b 0 := (List.pairwise_cons.1 hp).1 b (by simp)
    refine MvPolynomial.funext fun x => ?_
    have := line_zero q hq a b (h0 a (by simp)) (h0 b (by simp)) ((x 0 - a 0) / (b 0 - a 0))
    rw [map_zero, ← this]
    have h2 : b 0 - a 0 ≠ 0 := (sub_pos.2 h1).ne'
    have e : (fun k => (b k - a k) * ((x 0 - a 0) / (b 0 - a 0)) + a k) = x := by
      funext k
      rw [Subsingleton.elim k 0]
      field_simp
      ring
    rw [e]

/-- The theorem applies to them, for instance to eight samples. -/
example (S : State 1) (hS : S.msl = some 3) (cfg : Config) (hc : cfg.cardinality = 2) :
    ∃ D : Data 1, D.Paired ∧ ∀ L : List (Pt 1), L.Sublist D.X → L = D.X ∨ resolveMsl cfg.cardinality S.msl ≤ L.length → DetPts 1 L :=
  ⟨⟨(List.range 8).map fun (i : ℕ) (_ : Fin 1) => (i : ℝ), [3, 1, 4, 1, 5, 9, 2, 6]⟩, rfl, lines_det 6 _ S hS cfg hc _ rfl⟩

end EQ.Tree
