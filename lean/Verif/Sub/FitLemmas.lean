import Verif.Sub.FitModel
import Verif.Poly.Props
import Verif.Basis.Props
import Verif.Param.PearsonLemmas
import Mathlib.RingTheory.MvPolynomial.Basic

/-!
# Lemmas on the fits inside variable projection: the space of polynomials
-/

namespace EQ.Sub
open EQ.Basis EQ.Param EQ.Sampling EQ.Sampling.Spec EQ.Poly Matrix MvPolynomial
variable {K m n : ℕ}

/-! ## The index set -/

theorem totalOrderRec_one (i : ℕ) : totalOrderRec 1 i = [[i]] := by
  simp [totalOrderRec]

theorem fitElements_one (p : ℕ) : fitElements 1 p = (List.range (p + 1)).map fun i => [i] := by
  have key : ∀ h : ℕ, (List.range' 1 h).foldl (fun acc i => acc ++ totalOrderRec 1 i) [[0]] =
      (List.range (h + 1)).map fun i => [i] := by
    intro h
    induction h with
    | zero => rfl
    | succ h ih =>
      rw [List.range'_concat, List.foldl_append, ih, List.range_succ (n := h + 1), List.map_append]
      simp only [List.foldl_cons, List.foldl_nil, totalOrderRec_one]
      congr 3
      omega
  unfold fitElements totalOrderBasis
  have : npMax (List.replicate 1 p) = .ok p := by simp [npMax]
  rw [this]
  exact key p

theorem mem_fitElements (hn : 0 < n) (p : ℕ) (row : List ℕ) :
    row ∈ fitElements n p ↔ row.length = n ∧ row.sum ≤ p := by
  obtain ⟨L, mx, h1, h2, h3, -⟩ := c01_total_order (List.replicate n p) (by simp; omega)
  have : mx = p := by
    obtain ⟨ha, hb⟩ := h2
    simpa [hn.ne'] using ha
  subst this
  unfold fitElements
  rw [h1]
  simpa using h3 row

theorem fitElements_nodup (hn : 0 < n) (p : ℕ) : (fitElements n p).Nodup := by
  obtain ⟨L, mx, h1, h2, h3, h4, -⟩ := c01_total_order (List.replicate n p) (by simp; omega)
  unfold fitElements
  rw [h1]
  exact h4

theorem fitBasis_regular (P : MParam) (hn : 0 < n) (p : ℕ) : Regular (fitBasis P n p) where
  ne := by
    intro h
    have := (mem_fitElements hn p (List.replicate n 0)).2 (by simp)
    rw [show fitElements n p = [] from h] at this
    simp at this
  rows := fun row h => by
    simpa [fitBasis, Expansion.dims] using ((mem_fitElements hn p row).1 h).1
  one := fun h => by
    simp only [fitBasis, Expansion.dims, List.length_replicate] at h ⊢
    subst h
    exact ⟨p, fitElements_one p⟩
  square := by simp [fitBasis, SquareOpt]

theorem getD_replicate_ab (P : MParam) (k : ℕ) (hk : k < n) :
    ((List.replicate n P).map MParam.ab).getD k (fun _ => (0, 0)) = P.ab := by
  rw [getD_ab _ _ (by simpa using hk)]
  simp

theorem ofFn_getD (y : Fin n → ℝ) (k : Fin n) : (List.ofFn y).getD k 0 = y k := by
  rw [List.getD_eq_getElem?_getD, List.getElem?_eq_getElem (by simp)]
  simp

theorem vandermonde_apply (P : MParam) (hn : 0 < n) (p : ℕ) (Y : Matrix (Fin K) (Fin n) ℝ) (i : Fin K)
    (r : Fin (fitElements n p).length) :
    vandermonde P p Y i r = ∏ k : Fin n, (opoly P.ab ((fitElements n p)[r].getD k 0)).eval (Y i k) := by
  have hR := fitBasis_regular P hn p
  unfold vandermonde
  rw [getPoly_plain _ hR (.inr rfl) _ (by simp [rowList, fitBasis, Expansion.dims])]
  simp only
  rw [getD_map_lt _ _ _ _ (by exact r.2), getD_map_lt _ _ _ _ (by simp [rowList])]
  have hrow : (fitElements n p)[r].length = n := ((mem_fitElements hn p _).1 (List.getElem_mem r.2)).1
  have e : (rowList Y)[i.val]'(by simp [rowList]) = List.ofFn (Y i) := by simp [rowList]
  rw [e]
  have := basisFun_eq_pol (List.replicate n P) (fitElements n p)[r] (List.ofFn (Y i)) (by simpa using hrow) (by simp)
  refine this.trans ?_
  rw [List.length_replicate, Finset.prod_range]
  refine Finset.prod_congr rfl fun k _ => ?_
  rw [pol, getD_replicate_ab P k k.2, ofFn_getD]

theorem fitGrad_apply (P : MParam) (hn : 0 < n) (p : ℕ) (Y : Matrix (Fin K) (Fin n) ℝ) (l : Fin n) (i : Fin K)
    (r : Fin (fitElements n p).length) :
    fitGrad P p Y l i r = ∏ k : Fin n, (if k = l then Polynomial.derivative (opoly P.ab ((fitElements n p)[r].getD k 0))
      else opoly P.ab ((fitElements n p)[r].getD k 0)).eval (Y i k) := by
  have hR := fitBasis_regular P hn p
  have e : (rowList Y)[i.val]'(by simp [rowList]) = List.ofFn (Y i) := by simp [rowList]
  have hfin : dBasis (List.replicate n P) l (fitElements n p)[r] (List.ofFn (Y i)) = ∏ k : Fin n,
      (if k = l then Polynomial.derivative (opoly P.ab ((fitElements n p)[r].getD k 0))
      else opoly P.ab ((fitElements n p)[r].getD k 0)).eval (Y i k) := by
    rw [dBasis, List.length_replicate, Finset.prod_range]
    refine Finset.prod_congr rfl fun k _ => ?_
    rw [pol, getD_replicate_ab P k k.2, ofFn_getD]
    by_cases hk : k = l
    · rw [if_pos hk, if_pos (congrArg Fin.val hk)]
    · rw [if_neg hk, if_neg fun h => hk (Fin.ext h)]
  rw [← hfin]
  unfold fitGrad
  by_cases h1 : (fitBasis P n p).dims = 1
  · rw [getPolyGrad_one _ hR h1]
    simp only
    rw [getD_map_lt _ _ _ _ (by exact r.2), getD_map_lt _ _ _ _ (by simp [rowList]), e]
    have : l.val = 0 := by
      have h2 : n = 1 := by simpa [fitBasis, Expansion.dims] using h1
      have := l.2
      omega
    rw [this]
    rfl
  · have : (fitBasis P n p).getPolyGrad none (rowList Y) = .ok (.many ((List.range n).map fun v =>
        (fitBasis P n p).elements.map fun row => (rowList Y).map fun x => dBasis (fitBasis P n p).params v row x)) := by
      unfold Expansion.getPolyGrad
      rw [if_neg hR.ne, if_neg h1, mapM_ok (fun v =>
        (fitBasis P n p).elements.map fun row => (rowList Y).map fun x => dBasis (fitBasis P n p).params v row x)]
      · simp [Except.map, fitBasis, Expansion.dims]
      · intro v hv
        rw [Option.getD_none, if_pos hv, gradMatrix_eq]
        rfl
    rw [this]
    simp only
    rw [getD_map_lt _ _ _ _ (by simp), getD_map_lt _ _ _ _ (by exact r.2), getD_map_lt _ _ _ _ (by simp [rowList]), e]
    simp only [List.getElem_range]
    rfl

/-! ## The space of polynomials -/

/-- The basis function as a polynomial in `n` variables. -/
noncomputable def phi (P : MParam) (n : ℕ) (row : List ℕ) : MvPolynomial (Fin n) ℝ :=
  ∏ k : Fin n, Polynomial.aeval (X k : MvPolynomial (Fin n) ℝ) (opoly P.ab (row.getD k 0))

theorem eval_aeval_X (y : Fin n → ℝ) (k : Fin n) (q : Polynomial ℝ) :
    eval y (Polynomial.aeval (X k : MvPolynomial (Fin n) ℝ) q) = q.eval (y k) := by
  rw [Polynomial.aeval_def, Polynomial.hom_eval₂, eval_X]
  congr 1
  ext
  simp

theorem eval_phi (P : MParam) (y : Fin n → ℝ) (row : List ℕ) :
    eval y (phi P n row) = ∏ k : Fin n, (opoly P.ab (row.getD k 0)).eval (y k) := by
  rw [phi, map_prod]
  exact Finset.prod_congr rfl fun k _ => eval_aeval_X y k _

theorem vandermonde_eval (P : MParam) (hn : 0 < n) (p : ℕ) (Y : Matrix (Fin K) (Fin n) ℝ) (i : Fin K)
    (r : Fin (fitElements n p).length) : vandermonde P p Y i r = eval (Y i) (phi P n (fitElements n p)[r]) := by
  rw [vandermonde_apply P hn, eval_phi]

theorem prod_monomial (c : Fin n → ℝ) (a : Fin n → ℕ) :
    ∏ k, (C (c k) * (X k : MvPolynomial (Fin n) ℝ) ^ a k) = monomial (Finsupp.equivFunOnFinite.symm a) (∏ k, c k) := by
  rw [Finset.prod_mul_distrib, ← map_prod, monomial_eq]
  congr 1
  rw [Finsupp.prod_fintype _ _ fun i => pow_zero _]
  rfl

theorem aeval_X_sum (q : Polynomial ℝ) (k : Fin n) (D : ℕ) (hD : q.natDegree < D) :
    Polynomial.aeval (X k : MvPolynomial (Fin n) ℝ) q = ∑ a ∈ Finset.range D, C (q.coeff a) * X k ^ a := by
  rw [Polynomial.aeval_eq_sum_range' hD]
  exact Finset.sum_congr rfl fun a _ => by rw [MvPolynomial.smul_eq_C_mul]

theorem coeff_prod (q : Fin n → Polynomial ℝ) (s : Fin n →₀ ℕ) :
    coeff s (∏ k, Polynomial.aeval (X k : MvPolynomial (Fin n) ℝ) (q k)) = ∏ k, (q k).coeff (s k) := by
  have hD : ∀ k : Fin n, (q k).natDegree < ∑ j, ((q j).natDegree + s j) + 1 := fun k => by
    have := Finset.single_le_sum (f := fun j => (q j).natDegree + s j) (fun j _ => Nat.zero_le _) (Finset.mem_univ k)
    omega
  have hs : ∀ k : Fin n, s k < ∑ j, ((q j).natDegree + s j) + 1 := fun k => by
    have := Finset.single_le_sum (f := fun j => (q j).natDegree + s j) (fun j _ => Nat.zero_le _) (Finset.mem_univ k)
    omega
  rw [Finset.prod_congr rfl fun k _ => aeval_X_sum (q k) k _ (hD k), Finset.prod_univ_sum]
  simp only [prod_monomial]
  rw [coeff_sum]
  simp only [coeff_monomial]
  rw [Finset.sum_eq_single (fun k => s k)]
  · rw [if_pos]
    ext k
    rfl
  · intro b _ hb
    rw [if_neg]
    intro h
    apply hb
    rw [← h]
    rfl
  · intro h
    exact absurd (Fintype.mem_piFinset.2 fun k => Finset.mem_range.2 (hs k)) h

theorem sum_getD (row : List ℕ) (h : row.length = n) : ∑ k : Fin n, row.getD k 0 = row.sum := by
  subst h
  rw [← Fin.sum_univ_getElem]
  exact Finset.sum_congr rfl fun k _ => by rw [List.getD_eq_getElem?_getD, List.getElem?_eq_getElem k.2]; simp

theorem coeff_phi (P : MParam) (row : List ℕ) (s : Fin n →₀ ℕ) :
    coeff s (phi P n row) = ∏ k : Fin n, (opoly P.ab (row.getD k 0)).coeff (s k) := coeff_prod _ s

theorem phi_degree (P : MParam) (hP : ∀ k, 1 ≤ k → 0 < (P.ab k).2) (row : List ℕ) (h : row.length = n) :
    (phi P n row).totalDegree ≤ row.sum := by
  refine Finset.sup_le fun s hs => ?_
  rw [mem_support_iff, coeff_phi, Finset.prod_ne_zero_iff] at hs
  rw [← sum_getD row h, Finsupp.sum_fintype _ _ fun i => rfl]
  refine Finset.sum_le_sum fun k _ => ?_
  have h1 := Polynomial.le_natDegree_of_ne_zero (hs k (Finset.mem_univ _))
  rwa [(opoly_degree P.ab _ fun k h _ => hP k h).1] at h1

/-- Every polynomial of total degree at most `p` is a combination of the basis functions. -/
theorem phi_span (P : MParam) (hP : ∀ k, 1 ≤ k → 0 < (P.ab k).2) (hn : 0 < n) (p : ℕ) (q : MvPolynomial (Fin n) ℝ)
    (hq : q.totalDegree ≤ p) : ∃ c : Fin (fitElements n p).length → ℝ, q = ∑ r, c r • phi P n (fitElements n p)[r] := by
  suffices h : q ∈ Submodule.span ℝ (Set.range fun r : Fin (fitElements n p).length => phi P n (fitElements n p)[r]) by
    obtain ⟨c, hc⟩ := (Submodule.mem_span_range_iff_exists_fun ℝ).1 h
    exact ⟨c, hc.symm⟩
  rw [q.as_sum]
  refine Submodule.sum_mem _ fun s hs => ?_
  have hsum : ∑ k, s k ≤ p := by
    have := le_totalDegree hs
    rw [Finsupp.sum_fintype _ _ fun i => rfl] at this
    omega
  choose c hc using fun k : Fin n => opoly_span P.ab (s k) (fun j h _ => hP j h) (Polynomial.X ^ s k) (Polynomial.natDegree_X_pow_le _)
  have h1 : ∀ k : Fin n, (X k : MvPolynomial (Fin n) ℝ) ^ s k =
      ∑ a ∈ Finset.range (s k + 1), C (c k a) * Polynomial.aeval (X k : MvPolynomial (Fin n) ℝ) (opoly P.ab a) := by
    intro k
    have := congrArg (Polynomial.aeval (X k : MvPolynomial (Fin n) ℝ)) (hc k)
    rw [map_pow, Polynomial.aeval_X, map_sum] at this
    rw [this]
    refine Finset.sum_congr rfl fun a _ => ?_
    rw [map_mul, Polynomial.aeval_C]
    rfl
  have h2 : monomial s (coeff s q) = coeff s q • ∏ k, (X k : MvPolynomial (Fin n) ℝ) ^ s k := by
    rw [MvPolynomial.smul_eq_C_mul, monomial_eq, Finsupp.prod_fintype _ _ fun i => pow_zero _]
  rw [h2]
  refine Submodule.smul_mem _ _ ?_
  rw [Finset.prod_congr rfl fun k _ => h1 k, Finset.prod_univ_sum]
  refine Submodule.sum_mem _ fun a ha => ?_
  rw [Finset.prod_mul_distrib, ← map_prod, ← MvPolynomial.smul_eq_C_mul]
  refine Submodule.smul_mem _ _ (Submodule.subset_span ?_)
  have hmem : List.ofFn a ∈ fitElements n p := by
    rw [mem_fitElements hn, List.sum_ofFn]
    refine ⟨by simp, le_trans (Finset.sum_le_sum fun k _ => ?_) hsum⟩
    have := Finset.mem_range.1 (Fintype.mem_piFinset.1 ha k)
    omega
  obtain ⟨r, hr, e⟩ := List.getElem_of_mem hmem
  refine ⟨⟨r, hr⟩, ?_⟩
  simp only [Fin.getElem_fin, e, phi]
  refine Finset.prod_congr rfl fun k _ => ?_
  rw [List.getD_eq_getElem?_getD, List.getElem?_eq_getElem (by simp)]
  simp

/-- The basis functions are linearly independent. -/
theorem phi_indep (P : MParam) (hP : ∀ k, 1 ≤ k → 0 < (P.ab k).2) (hn : 0 < n) (p : ℕ)
    (c : Fin (fitElements n p).length → ℝ) (hc : ∑ r, c r • phi P n (fitElements n p)[r] = 0) : c = 0 := by
  by_contra hne
  obtain ⟨r0, hr0⟩ : ∃ r, c r ≠ 0 := Function.ne_iff.1 hne
  obtain ⟨r, hr, hmax⟩ := Finset.exists_max_image (Finset.univ.filter fun r => c r ≠ 0) (fun r => (fitElements n p)[r].sum)
    ⟨r0, by simpa using hr0⟩
  have hr : c r ≠ 0 := by simpa using hr
  have hlen : ∀ r : Fin (fitElements n p).length, (fitElements n p)[r].length = n := fun r =>
    ((mem_fitElements hn p _).1 (List.getElem_mem r.2)).1
  let s : Fin n →₀ ℕ := Finsupp.equivFunOnFinite.symm fun k => (fitElements n p)[r].getD k 0
  have h1 := congrArg (coeff s) hc
  rw [coeff_sum, coeff_zero, Finset.sum_eq_single r] at h1
  · rw [coeff_smul, coeff_phi, smul_eq_mul] at h1
    refine absurd h1 (mul_ne_zero hr (Finset.prod_ne_zero_iff.2 fun k _ => ?_))
    obtain ⟨d1, d2⟩ := opoly_degree P.ab ((fitElements n p)[r].getD k 0) fun k h _ => hP k h
    have : (opoly P.ab ((fitElements n p)[r].getD k 0)).coeff (s k) = (opoly P.ab ((fitElements n p)[r].getD k 0)).leadingCoeff := by
      rw [Polynomial.leadingCoeff, d1]
      rfl
    rw [this, d2, Finset.prod_ne_zero_iff]
    intro j hj
    exact inv_ne_zero (Real.sqrt_ne_zero'.2 (hP j (Finset.mem_Icc.1 hj).1))
  · intro r' _ hrr
    rw [coeff_smul, coeff_phi, smul_eq_mul]
    by_cases hc' : c r' = 0
    · rw [hc', zero_mul]
    refine mul_eq_zero_of_right _ ?_
    by_contra hprod
    have hprod := Finset.prod_ne_zero_iff.1 hprod
    have hle : ∀ k : Fin n, (fitElements n p)[r].getD k 0 ≤ (fitElements n p)[r'].getD k 0 := by
      intro k
      have h1 := Polynomial.le_natDegree_of_ne_zero (hprod k (Finset.mem_univ _))
      rwa [(opoly_degree P.ab _ fun k h _ => hP k h).1] at h1
    have hsum : ∑ k : Fin n, (fitElements n p)[r'].getD k 0 ≤ ∑ k : Fin n, (fitElements n p)[r].getD k 0 := by
      rw [sum_getD _ (hlen r), sum_getD _ (hlen r')]
      exact hmax r' (by simpa using hc')
    have heq := (Finset.sum_eq_sum_iff_of_le fun k _ => hle k).1 (le_antisymm (Finset.sum_le_sum fun k _ => hle k) hsum)
    apply hrr
    have : (fitElements n p)[r'] = (fitElements n p)[r] := by
      refine List.ext_getElem ((hlen r').trans (hlen r).symm) fun k h1 h2 => ?_
      have := heq ⟨k, by rw [← hlen r]; exact h2⟩ (Finset.mem_univ _)
      rw [List.getD_eq_getElem?_getD, List.getD_eq_getElem?_getD, List.getElem?_eq_getElem h1, List.getElem?_eq_getElem h2] at this
      simpa using this.symm
    exact Fin.ext ((fitElements_nodup hn p).getElem_inj_iff.1 this)
  · intro h
    exact absurd (Finset.mem_univ r) h

/-! ## Affine changes of variables -/

theorem bind_degree {n' : ℕ} (L : Fin n → MvPolynomial (Fin n') ℝ) (hL : ∀ k, (L k).totalDegree ≤ 1) (q : MvPolynomial (Fin n) ℝ) :
    (bind₁ L q).totalDegree ≤ q.totalDegree := by
  have : bind₁ L q = ∑ s ∈ q.support, C (coeff s q) * ∏ k, L k ^ s k := by
    conv_lhs => rw [q.as_sum, map_sum]
    refine Finset.sum_congr rfl fun s _ => ?_
    rw [bind₁_monomial]
    exact congrArg _ (Finset.prod_subset (Finset.subset_univ _) fun k _ hk => by rw [Finsupp.notMem_support_iff.1 hk, pow_zero])
  rw [this]
  refine (totalDegree_finsetSum _ _).trans (Finset.sup_le fun s hs => ?_)
  refine (totalDegree_mul _ _).trans ?_
  rw [totalDegree_C, zero_add]
  refine (totalDegree_finsetProd _ _).trans (le_trans ?_ (le_totalDegree hs))
  rw [Finsupp.sum_fintype _ _ fun i => rfl]
  refine Finset.sum_le_sum fun k _ => (totalDegree_pow _ _).trans ?_
  nlinarith [hL k]

theorem eval_bind {n' : ℕ} (L : Fin n → MvPolynomial (Fin n') ℝ) (y : Fin n' → ℝ) (q : MvPolynomial (Fin n) ℝ) :
    eval y (bind₁ L q) = eval (fun k => eval y (L k)) q := by
  induction q using MvPolynomial.induction_on with
  | C a => simp
  | add a b ha hb => rw [map_add, map_add, map_add, ha, hb]
  | mul_X a k ha => rw [map_mul, map_mul, map_mul, ha, bind₁_X_right, eval_X]

end EQ.Sub
