import Verif.Stats.BestProps
import Mathlib.Analysis.SpecialFunctions.Bernstein
import Mathlib.Analysis.Calculus.Taylor

/-!
# Explicit approximations by polynomials

Lemmas for C201 and C202: Bernstein polynomials on a box, Taylor polynomials, and their expansions in the basis.
-/

namespace EQ.Stats
open EQ.Param EQ.ParamSpec EQ.Basis EQ.Sampling EQ.Sampling.Spec EQ.Poly EQ.Poly.Spec EQ.Stats.Spec Set
open scoped Polynomial

variable {d : ℕ}

/-! ## Degrees -/

theorem degreeOf_aeval (p : ℝ[X]) (i j : Fin d) :
    (Polynomial.aeval (MvPolynomial.X j : MvPolynomial (Fin d) ℝ) p).degreeOf i ≤ if i = j then p.natDegree else 0 := by
  classical
  rw [Polynomial.aeval_eq_sum_range]
  refine (MvPolynomial.degreeOf_sum_le _ _ _).trans (Finset.sup_le fun k hk => ?_)
  rw [MvPolynomial.smul_eq_C_mul]
  refine (MvPolynomial.degreeOf_C_mul_le _ _ _).trans ((MvPolynomial.degreeOf_pow_le _ _ _).trans ?_)
  rw [MvPolynomial.degreeOf_X]
  split_ifs
  · rw [mul_one]; exact Nat.lt_succ_iff.1 (Finset.mem_range.1 hk)
  · simp

theorem degreeOf_prod (p : Fin d → ℝ[X]) (i : Fin d) :
    (∏ j, Polynomial.aeval (MvPolynomial.X j : MvPolynomial (Fin d) ℝ) (p j)).degreeOf i ≤ (p i).natDegree := by
  classical
  refine (MvPolynomial.degreeOf_prod_le _ _ _).trans ((Finset.sum_le_sum fun j _ => degreeOf_aeval (p j) i j).trans ?_)
  simp

theorem eval_aeval_X (p : ℝ[X]) (j : Fin d) (v : Fin d → ℝ) :
    MvPolynomial.eval v (Polynomial.aeval (MvPolynomial.X j : MvPolynomial (Fin d) ℝ) p) = p.eval (v j) := by
  rw [Polynomial.aeval_eq_sum_range, Polynomial.eval_eq_sum_range]
  simp [MvPolynomial.smul_eval]

/-! ## Polynomials of bounded degrees are expansions -/

theorem mv_span_box (P : Fin d → MParam) (hP : ∀ i k, 1 ≤ k → 0 < ((P i).ab k).2) (o : Fin d → ℕ) (q : MvPolynomial (Fin d) ℝ) (hq : ∀ i, q.degreeOf i ≤ o i) :
    (fun v : Fin d → ℝ => MvPolynomial.eval v q) ∈ Submodule.span ℝ (prodPoly P '' {a | ∀ i, a i ≤ o i}) := by
  have e : (fun v : Fin d → ℝ => MvPolynomial.eval v q) = ∑ s ∈ q.support, q.coeff s • fun v : Fin d → ℝ => ∏ i, (Polynomial.X ^ s i : ℝ[X]).eval (v i) := by
    funext v
    rw [MvPolynomial.eval_eq', Finset.sum_apply]
    simp
  rw [e]
  refine Submodule.sum_mem _ fun s hs => Submodule.smul_mem _ _ ?_
  have hso : ∀ i, s i ≤ o i := fun i => (MvPolynomial.monomial_le_degreeOf i hs).trans (hq i)
  choose c hc using fun i => opoly_span (P i).ab (s i) (fun k h _ => hP i k h) (Polynomial.X ^ s i : ℝ[X]) (by simp)
  have e : (fun v : Fin d → ℝ => ∏ i, (Polynomial.X ^ s i : ℝ[X]).eval (v i)) =
      ∑ a ∈ Fintype.piFinset fun i => Finset.range (s i + 1), (∏ i, c i (a i)) • prodPoly P a := by
    funext v
    have : ∀ i, (Polynomial.X ^ s i : ℝ[X]).eval (v i) = ∑ a ∈ Finset.range (s i + 1), c i a * Sampling.Spec.univ (P i) a (v i) := by
      intro i
      conv_lhs => rw [hc i]
      rw [Polynomial.eval_finsetSum]
      apply Finset.sum_congr rfl
      intro a _
      rw [Polynomial.eval_mul, Polynomial.eval_C, univ_eq]
    rw [Finset.prod_congr rfl fun i _ => this i, Finset.prod_univ_sum, Finset.sum_apply]
    apply Finset.sum_congr rfl
    intro a _
    rw [Finset.prod_mul_distrib]
    rfl
  rw [e]
  refine Submodule.sum_mem _ fun a ha => Submodule.smul_mem _ _ (Submodule.subset_span ⟨a, fun i => ?_, rfl⟩)
  have := Finset.mem_range.1 (Fintype.mem_piFinset.1 ha i)
  exact (Nat.lt_succ_iff.1 this).trans (hso i)

/-- A polynomial whose degrees do not exceed the orders is an expansion in the tensor-grid basis. -/
theorem box_coeffs (P : Fin d → MParam) (hP : ∀ i k, 1 ≤ k → 0 < ((P i).ab k).2) (o : Fin d → ℕ) (els : List (List ℕ)) (hB : Regular ⟨List.ofFn P, els, none⟩) (hnd : els.Nodup)
    (hall : ∀ a : Fin d → ℕ, (∀ i, a i ≤ o i) → List.ofFn a ∈ els) (q : MvPolynomial (Fin d) ℝ) (hq : ∀ i, q.degreeOf i ≤ o i) :
    ∃ z : List ℝ, z.length = els.length ∧ ∀ x : List ℝ, x.length = d → Expansion.polyfit ⟨List.ofFn P, els, none⟩ z [x] = .ok [MvPolynomial.eval (vec d x) q] := by
  obtain ⟨a, ha, hsum⟩ := (Finsupp.mem_span_image_iff_linearCombination ℝ).1 (mv_span_box P hP o q hq)
  have hdl : (Expansion.mk (List.ofFn P) els none).dims = d := by simp [Expansion.dims]
  have hr : ∀ row ∈ els, row.length = d := fun row h => (hB.rows row h).trans hdl
  have hrows := sum_rows P els hr hnd a (fun r h => hall r (ha h))
  refine ⟨els.map fun row => a fun i => row.getD i 0, by simp, fun x hx => ?_⟩
  rw [polyfit_eq _ hB _ (by simp) [x] (by simpa [hdl] using hx), eff_none _ rfl]
  simp only [List.map_cons, List.map_nil]
  congr 2
  have h1 := congrFun hsum (vec d x)
  rw [← h1, Finsupp.linearCombination_apply]
  have h2 := hrows (vec d x)
  rw [ofFn_vec _ hx] at h2
  have h3 : (a.sum fun i c => c • prodPoly P i) (vec d x) = a.sum fun r c => c * prodPoly P r (vec d x) := by
    rw [Finsupp.sum_apply']
    rfl
  rw [h3, h2]
  rw [sum_expansion _ _ _ (by simp)]
  refine Finset.sum_congr rfl fun s hs => ?_
  rw [getD_map_lt _ els 0 s (Finset.mem_range.1 hs), ← getD_of_lt els [] s (Finset.mem_range.1 hs)]

/-! ## Bernstein polynomials on a box -/

/-- The Bernstein polynomial of an interval. -/
noncomputable def bern (l u : ℝ) (n k : ℕ) : ℝ[X] := (bernsteinPolynomial ℝ n k).comp (Polynomial.C (u - l)⁻¹ * (Polynomial.X - Polynomial.C l))

theorem bern_natDegree (l u : ℝ) (n k : ℕ) (hk : k ≤ n) : (bern l u n k).natDegree ≤ n := by
  unfold bern
  refine Polynomial.natDegree_comp_le.trans ?_
  have h1 : (bernsteinPolynomial ℝ n k).natDegree ≤ n := by
    unfold bernsteinPolynomial
    have a1 : ((n.choose k : ℝ[X]) * Polynomial.X ^ k).natDegree ≤ k := by
      rw [← Polynomial.C_eq_natCast]
      exact Polynomial.natDegree_C_mul_X_pow_le _ _
    have a2 : ((1 - Polynomial.X : ℝ[X]) ^ (n - k)).natDegree ≤ n - k := by
      refine Polynomial.natDegree_pow_le.trans ?_
      have : (1 - Polynomial.X : ℝ[X]).natDegree ≤ 1 := by
        refine (Polynomial.natDegree_sub_le _ _).trans ?_
        simp
      nlinarith
    refine Polynomial.natDegree_mul_le.trans ?_
    omega
  have h2 : (Polynomial.C (u - l)⁻¹ * (Polynomial.X - Polynomial.C l) : ℝ[X]).natDegree ≤ 1 := by
    refine (Polynomial.natDegree_C_mul_le _ _).trans ?_
    rw [Polynomial.natDegree_X_sub_C]
  nlinarith

/-- A point of the interval, in the unit interval. -/
noncomputable def toUnit {l u : ℝ} (h : l < u) (x : ℝ) (hx : x ∈ Icc l u) : unitInterval :=
  ⟨(u - l)⁻¹ * (x - l), mul_nonneg (inv_nonneg.2 (by linarith)) (by linarith [hx.1]), by
    rw [inv_mul_le_iff₀ (by linarith)]; linarith [hx.2]⟩

theorem bern_eval {l u : ℝ} (h : l < u) (n k : ℕ) (x : ℝ) (hx : x ∈ Icc l u) : (bern l u n k).eval x = bernstein n k (toUnit h x hx) := by
  rw [bernstein_apply]
  simp [bern, bernsteinPolynomial, toUnit]

theorem bern_sum {l u : ℝ} (h : l < u) (n : ℕ) (x : ℝ) (hx : x ∈ Icc l u) : ∑ k ∈ Finset.range (n + 1), (bern l u n k).eval x = 1 := by
  rw [Finset.sum_range]
  simp only [bern_eval h n _ x hx]
  exact bernstein.probability n _

/-- The point `k` of `n` steps from `l` to `u`. -/
noncomputable def node (l u : ℝ) (n k : ℕ) : ℝ := l + (u - l) * (k / n)

theorem bern_dist {l u : ℝ} (h : l < u) (n : ℕ) (hn : n ≠ 0) (x : ℝ) (hx : x ∈ Icc l u) :
    ∑ k ∈ Finset.range (n + 1), (bern l u n k).eval x * |node l u n k - x| ≤ (u - l) / (2 * √n) := by
  have hul : 0 < u - l := by linarith
  have hn' : (0 : ℝ) < n := by positivity
  set t := toUnit h x hx with ht
  have hxt : x = l + (u - l) * (t : ℝ) := by
    simp only [ht, toUnit]
    field_simp
    ring
  have hb : ∀ k, 0 ≤ (bern l u n k).eval x := fun k => by rw [bern_eval h n k x hx]; exact bernstein_nonneg
  have hvar : ∑ k ∈ Finset.range (n + 1), (bern l u n k).eval x * |node l u n k - x| ^ 2 ≤ ((u - l) / (2 * √n)) ^ 2 := by
    have hv := bernstein.variance hn t
    have e : ∑ k ∈ Finset.range (n + 1), (bern l u n k).eval x * |node l u n k - x| ^ 2 = (u - l) ^ 2 * ((t : ℝ) * (1 - t) / n) := by
      rw [← hv, Finset.mul_sum, Finset.sum_range]
      refine Finset.sum_congr rfl fun k _ => ?_
      rw [bern_eval h n k x hx, sq_abs, ← ht]
      have : node l u n k - x = (u - l) * ((bernstein.z k : ℝ) - t) := by
        conv_lhs => rw [hxt]
        simp only [node, bernstein.z]
        ring
      rw [this]
      ring
    rw [e, div_pow, mul_pow, Real.sq_sqrt hn'.le]
    have h4 : (t : ℝ) * (1 - t) ≤ 1 / 4 := by nlinarith [sq_nonneg ((t : ℝ) - 1/2)]
    have : (u - l) ^ 2 * ((t : ℝ) * (1 - t) / n) ≤ (u - l) ^ 2 * ((1 / 4) / n) := by gcongr
    refine this.trans (le_of_eq ?_)
    field_simp
    norm_num
  have hcs : (∑ k ∈ Finset.range (n + 1), (bern l u n k).eval x * |node l u n k - x|) ^ 2 ≤
      (∑ k ∈ Finset.range (n + 1), (bern l u n k).eval x) * ∑ k ∈ Finset.range (n + 1), (bern l u n k).eval x * |node l u n k - x| ^ 2 := by
    refine Finset.sum_sq_le_sum_mul_sum_of_sq_le_mul _ (fun k _ => hb k) (fun k _ => mul_nonneg (hb k) (sq_nonneg _)) fun k _ => le_of_eq (by ring)
  rw [bern_sum h n x hx, one_mul] at hcs
  exact abs_le_of_sq_le_sq' (hcs.trans hvar) (by positivity) |>.2

/-- A model that changes by at most `∑ Lᵢ |xᵢ - yᵢ|` is within `∑ Lᵢ (uᵢ - lᵢ) / (2 √nᵢ)` of a polynomial of degree at most `nᵢ` in every input. -/
theorem bernstein_box (l u : Fin d → ℝ) (hlu : ∀ i, l i < u i) (n : Fin d → ℕ) (hn : ∀ i, n i ≠ 0) (F : (Fin d → ℝ) → ℝ) (L : Fin d → ℝ) (hL : ∀ i, 0 ≤ L i)
    (hF : ∀ x ∈ Icc l u, ∀ y ∈ Icc l u, |F x - F y| ≤ ∑ i, L i * |x i - y i|) :
    ∃ q : MvPolynomial (Fin d) ℝ, (∀ i, q.degreeOf i ≤ n i) ∧ ∀ w ∈ Icc l u, |F w - MvPolynomial.eval w q| ≤ ∑ i, L i * (u i - l i) / (2 * √(n i)) := by
  classical
  let K := Fintype.piFinset fun i => Finset.range (n i + 1)
  let pt : (Fin d → ℕ) → Fin d → ℝ := fun k i => node (l i) (u i) (n i) (k i)
  refine ⟨∑ k ∈ K, MvPolynomial.C (F (pt k)) * ∏ i, Polynomial.aeval (MvPolynomial.X i : MvPolynomial (Fin d) ℝ) (bern (l i) (u i) (n i) (k i)), fun i => ?_, fun w hw => ?_⟩
  · refine (MvPolynomial.degreeOf_sum_le _ _ _).trans (Finset.sup_le fun k hk => ?_)
    refine (MvPolynomial.degreeOf_C_mul_le _ _ _).trans ((degreeOf_prod _ i).trans (bern_natDegree _ _ _ _ ?_))
    exact Nat.lt_succ_iff.1 (Finset.mem_range.1 (Fintype.mem_piFinset.1 hk i))
  · have hwi : ∀ i, w i ∈ Icc (l i) (u i) := fun i => ⟨hw.1 i, hw.2 i⟩
    let b : (i : Fin d) → ℕ → ℝ := fun i k => (bern (l i) (u i) (n i) k).eval (w i)
    have hb0 : ∀ i k, 0 ≤ b i k := fun i k => by simp only [b]; rw [bern_eval (hlu i) _ _ _ (hwi i)]; exact bernstein_nonneg
    have hb1 : ∀ i, ∑ k ∈ Finset.range (n i + 1), b i k = 1 := fun i => bern_sum (hlu i) _ _ (hwi i)
    have htot : ∑ k ∈ K, ∏ i, b i (k i) = 1 := by
      rw [← Finset.prod_univ_sum]
      simp [hb1]
    have hmarg : ∀ j, ∑ k ∈ K, (∏ i, b i (k i)) * |pt k j - w j| ≤ (u j - l j) / (2 * √(n j)) := by
      intro j
      have e : ∀ k, (∏ i, b i (k i)) * |pt k j - w j| = ∏ i, (b i (k i) * if i = j then |node (l i) (u i) (n i) (k i) - w i| else 1) := by
        intro k
        rw [Finset.prod_mul_distrib, Finset.prod_ite_eq' Finset.univ j fun i => |node (l i) (u i) (n i) (k i) - w i|]
        simp [pt]
      have e2 : ∑ k ∈ K, (∏ i, b i (k i)) * |pt k j - w j| = ∏ i, ∑ k ∈ Finset.range (n i + 1), b i k * if i = j then |node (l i) (u i) (n i) k - w i| else 1 := by
        rw [Finset.prod_univ_sum]
        exact Finset.sum_congr rfl fun k _ => e k
      rw [e2, Finset.prod_eq_single j]
      · simp only [if_true]
        exact bern_dist (hlu j) (n j) (hn j) (w j) (hwi j)
      · intro i _ hij
        simp only [if_neg hij, mul_one]
        exact hb1 i
      · intro h; exact absurd (Finset.mem_univ j) h
    have hpt : ∀ k ∈ K, pt k ∈ Icc l u := by
      intro k hk
      have hk' : ∀ i, ((k i : ℕ) : ℝ) / n i ∈ Icc (0 : ℝ) 1 := by
        intro i
        have hle : k i ≤ n i := Nat.lt_succ_iff.1 (Finset.mem_range.1 (Fintype.mem_piFinset.1 hk i))
        have h0 : (0 : ℝ) < n i := by have := hn i; positivity
        exact ⟨by positivity, (div_le_one h0).2 (by exact_mod_cast hle)⟩
      constructor
      · intro i
        have := mul_nonneg (sub_pos.2 (hlu i)).le (hk' i).1
        simp only [pt, node]; linarith
      · intro i
        have := mul_le_mul_of_nonneg_left (hk' i).2 (sub_pos.2 (hlu i)).le
        simp only [pt, node]; linarith
    have hev : MvPolynomial.eval w (∑ k ∈ K, MvPolynomial.C (F (pt k)) * ∏ i, Polynomial.aeval (MvPolynomial.X i : MvPolynomial (Fin d) ℝ) (bern (l i) (u i) (n i) (k i))) =
        ∑ k ∈ K, F (pt k) * ∏ i, b i (k i) := by
      rw [map_sum]
      refine Finset.sum_congr rfl fun k _ => ?_
      rw [map_mul, MvPolynomial.eval_C, map_prod]
      simp only [eval_aeval_X, b]
    rw [hev]
    have e1 : F w - ∑ k ∈ K, F (pt k) * ∏ i, b i (k i) = ∑ k ∈ K, (∏ i, b i (k i)) * (F w - F (pt k)) := by
      simp only [mul_sub, Finset.sum_sub_distrib]
      rw [← Finset.sum_mul, htot, one_mul]
      congr 1
      exact Finset.sum_congr rfl fun k _ => mul_comm _ _
    rw [e1]
    calc |∑ k ∈ K, (∏ i, b i (k i)) * (F w - F (pt k))| ≤ ∑ k ∈ K, (∏ i, b i (k i)) * ∑ j, L j * |pt k j - w j| := by
          refine (Finset.abs_sum_le_sum_abs _ _).trans (Finset.sum_le_sum fun k hk => ?_)
          rw [abs_mul, abs_of_nonneg (Finset.prod_nonneg fun i _ => hb0 i (k i)), abs_sub_comm]
          exact mul_le_mul_of_nonneg_left (hF _ (hpt k hk) _ hw) (Finset.prod_nonneg fun i _ => hb0 i (k i))
      _ = ∑ j, L j * ∑ k ∈ K, (∏ i, b i (k i)) * |pt k j - w j| := by
          simp only [Finset.mul_sum]
          rw [Finset.sum_comm]
          exact Finset.sum_congr rfl fun j _ => Finset.sum_congr rfl fun k _ => by ring
      _ ≤ ∑ i, L i * (u i - l i) / (2 * √(n i)) := by
          refine Finset.sum_le_sum fun j _ => ?_
          rw [mul_div_assoc]
          exact mul_le_mul_of_nonneg_left (hmarg j) (hL j)

/-! ## Taylor polynomials -/

theorem taylor_poly {l u : ℝ} (hlu : l ≤ u) (F : ℝ → ℝ) (n : ℕ) (hF : ContDiffOn ℝ (n + 1) F (Icc l u)) (C : ℝ)
    (hC : ∀ y ∈ Icc l u, |iteratedDerivWithin (n + 1) F (Icc l u) y| ≤ C) :
    ∃ p : ℝ[X], p.natDegree ≤ n ∧ ∀ x ∈ Icc l u, |F x - p.eval x| ≤ C * (u - l) ^ (n + 1) / n.factorial := by
  refine ⟨∑ k ∈ Finset.range (n + 1), Polynomial.C ((k.factorial : ℝ)⁻¹ * iteratedDerivWithin k F (Icc l u) l) * (Polynomial.X - Polynomial.C l) ^ k, ?_, fun x hx => ?_⟩
  · refine Polynomial.natDegree_sum_le_of_forall_le _ _ fun k hk => ?_
    refine (Polynomial.natDegree_C_mul_le _ _).trans (Polynomial.natDegree_pow_le.trans ?_)
    rw [Polynomial.natDegree_X_sub_C, mul_one]
    exact Nat.lt_succ_iff.1 (Finset.mem_range.1 hk)
  · have h := taylor_mean_remainder_bound hlu hF hx (C := C) (fun y hy => by rw [Real.norm_eq_abs]; exact hC y hy)
    rw [Real.norm_eq_abs, taylor_within_apply] at h
    have hC0 : 0 ≤ C := (abs_nonneg _).trans (hC l ⟨le_rfl, hlu⟩)
    have e : Polynomial.eval x (∑ k ∈ Finset.range (n + 1), Polynomial.C ((k.factorial : ℝ)⁻¹ * iteratedDerivWithin k F (Icc l u) l) * (Polynomial.X - Polynomial.C l) ^ k) =
        ∑ k ∈ Finset.range (n + 1), ((k.factorial : ℝ)⁻¹ * (x - l) ^ k) • iteratedDerivWithin k F (Icc l u) l := by
      rw [Polynomial.eval_finsetSum]
      refine Finset.sum_congr rfl fun k _ => ?_
      simp only [Polynomial.eval_mul, Polynomial.eval_C, Polynomial.eval_pow, Polynomial.eval_sub, Polynomial.eval_X, smul_eq_mul]
      ring
    rw [e]
    refine h.trans ?_
    have h1 : 0 ≤ x - l := by linarith [hx.1]
    have h2 : x - l ≤ u - l := by linarith [hx.2]
    gcongr

end EQ.Stats
