import Verif.Sub.RidgeModel
import Verif.Sub.FitProj
import Verif.Poly.FitProps
import Verif.Sampling.SampleProps
import Mathlib.Algebra.MvPolynomial.PDeriv

/-!
# Least-squares fits of total-order expansions as polynomials
-/

namespace EQ.Sub
open EQ.Basis EQ.Param EQ.Sampling EQ.Sampling.Spec EQ.Poly EQ.Poly.Spec Matrix MvPolynomial
variable {K m n : ℕ}

/-- The basis function as a polynomial in `n` variables, one parameter per variable. -/
noncomputable def phis (P : Fin n → MParam) (row : List ℕ) : MvPolynomial (Fin n) ℝ :=
  ∏ k : Fin n, Polynomial.aeval (X k : MvPolynomial (Fin n) ℝ) (opoly (P k).ab (row.getD k 0))

theorem eval_phis (P : Fin n → MParam) (y : Fin n → ℝ) (row : List ℕ) :
    eval y (phis P row) = ∏ k : Fin n, (opoly (P k).ab (row.getD k 0)).eval (y k) := by
  rw [phis, map_prod]
  exact Finset.prod_congr rfl fun k _ => eval_aeval_X y k _

theorem phis_degree (P : Fin n → MParam) (hP : ∀ i k, 1 ≤ k → 0 < ((P i).ab k).2) (row : List ℕ) (h : row.length = n) :
    (phis P row).totalDegree ≤ row.sum := by
  refine Finset.sup_le fun s hs => ?_
  rw [mem_support_iff, phis, coeff_prod, Finset.prod_ne_zero_iff] at hs
  rw [← sum_getD row h, Finsupp.sum_fintype _ _ fun i => rfl]
  refine Finset.sum_le_sum fun k _ => ?_
  have h1 := Polynomial.le_natDegree_of_ne_zero (hs k (Finset.mem_univ _))
  rwa [(opoly_degree (P k).ab _ fun j h _ => hP k j h).1] at h1

/-- Every polynomial of total degree at most `p` is a combination of the basis functions. -/
theorem phis_span (P : Fin n → MParam) (hP : ∀ i k, 1 ≤ k → 0 < ((P i).ab k).2) (hn : 0 < n) (p : ℕ) (q : MvPolynomial (Fin n) ℝ)
    (hq : q.totalDegree ≤ p) : ∃ c : Fin (fitElements n p).length → ℝ, q = ∑ r, c r • phis P (fitElements n p)[r] := by
  suffices h : q ∈ Submodule.span ℝ (Set.range fun r : Fin (fitElements n p).length => phis P (fitElements n p)[r]) by
    obtain ⟨c, hc⟩ := (Submodule.mem_span_range_iff_exists_fun ℝ).1 h
    exact ⟨c, hc.symm⟩
  rw [q.as_sum]
  refine Submodule.sum_mem _ fun s hs => ?_
  have hsum : ∑ k, s k ≤ p := by
    have := le_totalDegree hs
    rw [Finsupp.sum_fintype _ _ fun i => rfl] at this
    omega
  choose c hc using fun k : Fin n => opoly_span (P k).ab (s k) (fun j h _ => hP k j h) (Polynomial.X ^ s k)
    (Polynomial.natDegree_X_pow_le _)
  have h1 : ∀ k : Fin n, (X k : MvPolynomial (Fin n) ℝ) ^ s k =
      ∑ a ∈ Finset.range (s k + 1), C (c k a) * Polynomial.aeval (X k : MvPolynomial (Fin n) ℝ) (opoly (P k).ab a) := by
    intro k
    have := congrArg (Polynomial.aeval (X k : MvPolynomial (Fin n) ℝ)) (hc k)
    rw [map_pow, Polynomial.aeval_X, map_sum] at this
    rw [this]
    refine Finset.sum_congr rfl fun a _ => ?_
    rw [map_mul, Polynomial.aeval_C]
    rfl
  have h2 : monomial s (coeff s q) = coeff s q • ∏ k, (X k : MvPolynomial (Fin n) ℝ) ^ s k := by
    rw [MvPolynomial.smul_eq_C_mul, monomial_eq, Finsupp.prod_fintype _ _ fun i => pow_zero _]
  rw [h2]
  refine Submodule.smul_mem _ _ ?_
  rw [Finset.prod_congr rfl fun k _ => h1 k, Finset.prod_univ_sum]
  refine Submodule.sum_mem _ fun a ha => ?_
  rw [Finset.prod_mul_distrib, ← map_prod, ← MvPolynomial.smul_eq_C_mul]
  refine Submodule.smul_mem _ _ (Submodule.subset_span ?_)
  have hmem : List.ofFn a ∈ fitElements n p := by
    rw [mem_fitElements hn, List.sum_ofFn]
    refine ⟨by simp, le_trans (Finset.sum_le_sum fun k _ => ?_) hsum⟩
    have := Finset.mem_range.1 (Fintype.mem_piFinset.1 ha k)
    omega
  obtain ⟨r, hr, e⟩ := List.getElem_of_mem hmem
  refine ⟨⟨r, hr⟩, ?_⟩
  simp only [Fin.getElem_fin, e, phis]
  refine Finset.prod_congr rfl fun k _ => ?_
  rw [List.getD_eq_getElem?_getD, List.getElem?_eq_getElem (by simp)]
  simp

/-- The total-order expansion of the constructors in `subspaces.py`. -/
def orderBasis (P : Fin n → MParam) (p : ℕ) : Expansion := ⟨List.ofFn P, fitElements n p, none⟩

theorem orderBasis_regular (P : Fin n → MParam) (hn : 0 < n) (p : ℕ) : Regular (orderBasis P p) where
  ne := by
    intro h
    have := (mem_fitElements hn p (List.replicate n 0)).2 (by simp)
    rw [show fitElements n p = [] from h] at this
    simp at this
  rows := fun row h => by
    simpa [orderBasis, Expansion.dims] using ((mem_fitElements hn p row).1 h).1
  one := fun h => by
    simp only [orderBasis, Expansion.dims, List.length_ofFn] at h ⊢
    subst h
    exact ⟨p, fitElements_one p⟩
  square := by simp [orderBasis, SquareOpt]

theorem getD_ofFn_ab (P : Fin n → MParam) (k : Fin n) :
    ((List.ofFn P).map MParam.ab).getD k (fun _ => (0, 0)) = (P k).ab := by
  rw [getD_ab _ _ (by simp)]
  simp

theorem basisFun_phis (P : Fin n → MParam) (row : List ℕ) (h : row.length = n) (y : Fin n → ℝ) :
    basisFun (List.ofFn P) row (List.ofFn y) = eval y (phis P row) := by
  rw [basisFun_eq_pol (List.ofFn P) row (List.ofFn y) (by simpa using h) (by simp), eval_phis, List.length_ofFn, Finset.prod_range]
  exact Finset.prod_congr rfl fun k _ => by rw [pol, getD_ofFn_ab, ofFn_getD]

/-- The polynomial with given coefficients. -/
noncomputable def comb (P : Fin n → MParam) (p : ℕ) (c : List ℝ) : MvPolynomial (Fin n) ℝ :=
  ∑ r : Fin (fitElements n p).length, c.getD r 0 • phis P (fitElements n p)[r]

theorem comb_deg (P : Fin n → MParam) (hP : ∀ i k, 1 ≤ k → 0 < ((P i).ab k).2) (hn : 0 < n) (p : ℕ) (c : List ℝ) :
    (comb P p c).totalDegree ≤ p := by
  refine totalDegree_finsetSum_le fun r _ => (totalDegree_smul_le _ _).trans ?_
  obtain ⟨h1, h2⟩ := (mem_fitElements hn p _).1 (List.getElem_mem r.2)
  exact (phis_degree P hP _ h1).trans h2

theorem expansion_comb (P : Fin n → MParam) (hn : 0 < n) (p : ℕ) (c : List ℝ) (hc : c.length = (fitElements n p).length)
    (y : Fin n → ℝ) : expansion (List.ofFn P) (fitElements n p) c (List.ofFn y) = eval y (comb P p c) := by
  unfold expansion comb
  rw [zipWith_sum _ _ _ [] 0 hc.symm, Finset.sum_range, map_sum]
  refine Finset.sum_congr rfl fun r _ => ?_
  rw [smul_eval, getD_of_lt (fitElements n p) _ _ r.2,
    basisFun_phis P _ ((mem_fitElements hn p _).1 (List.getElem_mem r.2)).1]
  rfl

/-- `get_polyfit` evaluates the polynomial. -/
theorem polyfit_comb (P : Fin n → MParam) (hn : 0 < n) (p : ℕ) (c : List ℝ) (hc : c.length = (fitElements n p).length)
    (y : Fin n → ℝ) : (orderBasis P p).polyfit c [List.ofFn y] = .ok [eval y (comb P p c)] := by
  rw [polyfit_eq _ (orderBasis_regular P hn p) c hc _ (by simp [orderBasis, Expansion.dims])]
  simp only [List.map_cons, List.map_nil]
  rw [← expansion_comb P hn p c hc]
  congr 3
  unfold Expansion.eff
  split_ifs <;> rfl

theorem pderiv_aeval_X (k v : Fin n) (q : Polynomial ℝ) (y : Fin n → ℝ) :
    eval y (pderiv v (Polynomial.aeval (X k : MvPolynomial (Fin n) ℝ) q)) = if k = v then (Polynomial.derivative q).eval (y k) else 0 := by
  induction q using Polynomial.induction_on' with
  | add p q hp hq =>
    rw [map_add, map_add, map_add, hp, hq, Polynomial.derivative_add, Polynomial.eval_add]
    split_ifs <;> simp
  | monomial j a =>
    rw [Polynomial.aeval_monomial]
    have : (algebraMap ℝ (MvPolynomial (Fin n) ℝ)) a = C a := rfl
    rw [this, pderiv_C_mul, pderiv_pow, pderiv_X, Polynomial.derivative_monomial, Polynomial.eval_monomial]
    by_cases h : k = v
    · subst h
      rw [if_pos rfl, Pi.single_eq_same]
      simp [MvPolynomial.smul_eq_C_mul]
      ring
    · rw [if_neg h, Pi.single_eq_of_ne (by exact fun e => h e)]
      simp

theorem pderiv_prod {ι : Type*} [DecidableEq ι] (v : Fin n) (s : Finset ι) (f : ι → MvPolynomial (Fin n) ℝ) :
    pderiv v (∏ k ∈ s, f k) = ∑ l ∈ s, ∏ k ∈ s, if k = l then pderiv v (f k) else f k := by
  induction s using Finset.induction_on with
  | empty => simp
  | insert a s ha ih =>
    rw [Finset.prod_insert ha, pderiv_mul, ih, Finset.sum_insert ha, Finset.prod_insert ha, if_pos rfl]
    congr 1
    · congr 1
      refine Finset.prod_congr rfl fun k hk => ?_
      have : k ≠ a := fun h => ha (by rw [← h]; exact hk)
      rw [if_neg this]
    · rw [Finset.mul_sum]
      refine Finset.sum_congr rfl fun l hl => ?_
      rw [Finset.prod_insert ha, if_neg fun h => ha (by rw [h]; exact hl)]

theorem pderiv_phis (P : Fin n → MParam) (row : List ℕ) (v : Fin n) (y : Fin n → ℝ) :
    eval y (pderiv v (phis P row)) = ∏ k : Fin n, (if k = v then Polynomial.derivative (opoly (P k).ab (row.getD k 0))
      else opoly (P k).ab (row.getD k 0)).eval (y k) := by
  rw [phis, pderiv_prod, map_sum, Finset.sum_eq_single v]
  · rw [map_prod]
    refine Finset.prod_congr rfl fun k _ => ?_
    by_cases h : k = v
    · rw [if_pos h, if_pos h, pderiv_aeval_X, if_pos h]
    · rw [if_neg h, if_neg h, eval_aeval_X]
  · intro l _ hl
    rw [map_prod]
    refine Finset.prod_eq_zero (Finset.mem_univ l) ?_
    rw [if_pos rfl, pderiv_aeval_X, if_neg hl]
  · intro h
    exact absurd (Finset.mem_univ v) h

theorem dBasis_phis (P : Fin n → MParam) (row : List ℕ) (v : Fin n) (y : Fin n → ℝ) :
    dBasis (List.ofFn P) v row (List.ofFn y) = eval y (pderiv v (phis P row)) := by
  rw [pderiv_phis, dBasis, List.length_ofFn, Finset.prod_range]
  refine Finset.prod_congr rfl fun k _ => ?_
  rw [pol, getD_ofFn_ab, ofFn_getD]
  by_cases hk : k = v
  · rw [if_pos hk, if_pos (congrArg Fin.val hk)]
  · rw [if_neg hk, if_neg fun h => hk (Fin.ext h)]

/-- `get_polyfit_grad` evaluates the partial derivatives of the polynomial. -/
theorem polygrad_comb (P : Fin n → MParam) (hn : 0 < n) (p : ℕ) (c : List ℝ) (hc : c.length = (fitElements n p).length)
    (Y : Matrix (Fin K) (Fin n) ℝ) :
    polygrad ⟨orderBasis P p, c⟩ Y = .ok fun v i => eval (Y i) (pderiv v (comb P p c)) := by
  unfold polygrad
  rw [polyfitGrad_eq _ (orderBasis_regular P hn p) c hc]
  simp only
  congr 1
  ext v i
  have hd : (orderBasis P p).dims = n := by simp [orderBasis, Expansion.dims]
  rw [getD_map_lt _ _ _ _ (by simp [hd]), List.getElem_range]
  have hv : (v : ℕ) ∈ (none : Option (List ℕ)).getD (List.range (orderBasis P p).dims) := by simp [hd]
  rw [if_pos (.inr hv), getD_map_lt _ _ _ _ (by simp [rowList])]
  have e : (rowList Y)[i.val]'(by simp [rowList]) = List.ofFn (Y i) := by simp [rowList]
  have he : (orderBasis P p).eff c = c := by
    unfold Expansion.eff
    split_ifs <;> rfl
  rw [e, gradFun, he, comb, zipWith_sum _ _ _ [] 0 (by exact hc.symm), map_sum, map_sum]
  rw [show (orderBasis P p).elements = fitElements n p from rfl, Finset.sum_range]
  refine Finset.sum_congr rfl fun r _ => ?_
  rw [Derivation.map_smul, smul_eval, getD_of_lt (fitElements n p) _ _ r.2]
  rw [show (orderBasis P p).params = List.ofFn P from rfl, dBasis_phis]
  rfl

/-- The weights of a user-defined mesh are positive. -/
theorem weights_pos (P : Fin n → MParam) (hn : 0 < n) (p : ℕ) (Y : Matrix (Fin K) (Fin n) ℝ) (hK : 0 < K) :
    (sampleWeights (multiPoly (orderBasis P p).params (orderBasis P p).elements (orderBasis P p).dims (rowList Y)) (rowList Y).length).length =
      (rowList Y).length ∧
    ∀ w ∈ sampleWeights (multiPoly (orderBasis P p).params (orderBasis P p).elements (orderBasis P p).dims (rowList Y)) (rowList Y).length,
      0 < w := by
  have hne : rowList Y ≠ [] := by
    intro h
    have := congrArg List.length h
    simp [rowList] at this
    omega
  have hp : ∀ x ∈ rowList Y, x.length = (List.ofFn P).length := by simp [rowList]
  by_cases h1 : n = 1
  · subst h1
    have hP : List.ofFn P = [P 0] := by simp
    have h := c24_sample_weights_one (P 0) (fitElements 1 p) (rowList Y) hne (by simpa using hp)
    simp only [orderBasis, Expansion.dims, hP]
    exact ⟨h.1, h.2.1⟩
  · have h := c24_sample_weights (List.ofFn P) (by simpa using h1) (fitElements n p)
      (fun row hr => by simpa using ((mem_fitElements hn p row).1 hr).1)
      (by rw [List.length_ofFn]; exact (mem_fitElements hn p _).2 (by simp)) (rowList Y) hne hp
    exact ⟨h.1, h.2.1⟩

/-- The contract of `lstsq`. -/
def LstsqOK (lstsq : List (List ℝ) → List ℝ → ℕ → List ℝ) : Prop := ∀ A b n, LstsqContract A b n (lstsq A b n)

/-- A fit to samples of a polynomial of at most the degree of the basis returns the polynomial, if the samples determine it. -/
theorem fitSamples_exact {lstsq : List (List ℝ) → List ℝ → ℕ → List ℝ} (hl : LstsqOK lstsq) (P : Fin n → MParam)
    (hP : ∀ i k, 1 ≤ k → 0 < ((P i).ab k).2) (hn : 0 < n) (p : ℕ) (Y : Matrix (Fin K) (Fin n) ℝ) (hK : 0 < K)
    (hD : Det p Y) (q : MvPolynomial (Fin n) ℝ) (hq : q.totalDegree ≤ p) :
    ∃ c, fitSamples lstsq (orderBasis P p) (rowList Y) (List.ofFn fun i => eval (Y i) q) = .ok ⟨orderBasis P p, c⟩ ∧
      c.length = (fitElements n p).length ∧ comb P p c = q := by
  obtain ⟨hw, hpos⟩ := weights_pos P hn p Y hK
  obtain ⟨M, hM, hMl, hdot⟩ := getPoly_dot _ (orderBasis_regular P hn p) (rowList Y) (by simp [rowList, orderBasis, Expansion.dims])
  unfold fitSamples
  simp only [hM]
  generalize sampleWeights _ _ = w at hw hpos
  have hcon := hl (designMatrix M w) (rhs w (List.ofFn fun i => eval (Y i) q)) M.length
  generalize lstsq _ _ _ = c at hcon
  have hcl : c.length = (fitElements n p).length := by rw [hcon.1, hMl]; rfl
  refine ⟨c, rfl, hcl, ?_⟩
  have hy : (List.ofFn fun i => eval (Y i) q).length = (rowList Y).length := by simp [rowList]
  have he : ∀ z, (orderBasis P p).eff z = z := fun z => by
    unfold Expansion.eff
    split_ifs <;> rfl
  have hmis : ∀ z : List ℝ, z.length = (fitElements n p).length →
      sqResidual (designMatrix M w) (rhs w (List.ofFn fun i => eval (Y i) q)) z =
        ∑ i : Fin K, w.getD i 0 * (eval (Y i) (comb P p z) - eval (Y i) q) ^ 2 := by
    intro z hz
    rw [sqResidual_eq M (rowList Y) w _ hw (fun w h => (hpos w h).le) hy z (by rw [hz, hMl]; rfl) _ (hdot z hz), misfit, he,
      show (rowList Y).length = K by simp [rowList], Finset.sum_range]
    refine Finset.sum_congr rfl fun i _ => ?_
    have e1 : (rowList Y).getD i [] = List.ofFn (Y i) := by
      rw [List.getD_eq_getElem?_getD, List.getElem?_eq_getElem (by simp [rowList])]
      simp [rowList]
    rw [e1, ofFn_getD, show (orderBasis P p).params = List.ofFn P from rfl, show (orderBasis P p).elements = fitElements n p from rfl,
      expansion_comb P hn p z hz]
  obtain ⟨c0, hc0⟩ := phis_span P hP hn p q hq
  have hc1 : comb P p (List.ofFn c0) = q := by
    rw [hc0, comb]
    exact Finset.sum_congr rfl fun r _ => by rw [ofFn_getD]
  have hle := hcon.2 (List.ofFn c0) (by rw [List.length_ofFn, hMl]; rfl)
  rw [hmis c hcl, hmis _ (by simp), hc1] at hle
  simp only [sub_self, ne_eq, OfNat.ofNat_ne_zero, not_false_eq_true, zero_pow, mul_zero, Finset.sum_const_zero] at hle
  have hwp : ∀ i : Fin K, 0 < w.getD i 0 := fun i => by
    rw [getD_of_lt _ _ _ (by rw [hw]; simp [rowList])]
    exact hpos _ (List.getElem_mem _)
  have h0 := le_antisymm hle (Finset.sum_nonneg fun i _ => mul_nonneg (hwp i).le (sq_nonneg _))
  rw [Finset.sum_eq_zero_iff_of_nonneg fun i _ => mul_nonneg (hwp i).le (sq_nonneg _)] at h0
  have h1 := hD (comb P p c - q) ((totalDegree_sub _ _).trans (max_le (comb_deg P hP hn p c) hq)) fun i => by
    have := h0 i (Finset.mem_univ i)
    rw [mul_eq_zero, or_iff_right (hwp i).ne', pow_eq_zero_iff two_ne_zero] at this
    rw [map_sub, this]
  exact sub_eq_zero.1 h1

end EQ.Sub
