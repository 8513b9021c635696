import Verif.Stats.RateLemmas
import Verif.Sub.RidgeLemmas
import Verif.Poly.EquivFit

/-!
# The models that a basis can represent, and least squares for other declared laws (C207)
-/

namespace EQ.Stats
open EQ.Param EQ.ParamSpec EQ.Basis EQ.Basis.Spec EQ.Sampling EQ.Sampling.Spec EQ.Poly EQ.Poly.Spec EQ.Stats.Spec Set
open scoped Polynomial

variable {d : ℕ}

/-! ## Specification -/

/-- The function `φ` of `d` numbers is a polynomial in the monomials `x₁^k₁ ⋯ x_d^k_d` with `(k₁, …, k_d)` in the list. -/
def InMonomials (d : ℕ) (els : List (List ℕ)) (φ : List ℝ → ℝ) : Prop :=
  ∃ q : MvPolynomial (Fin d) ℝ, (∀ s ∈ q.support, List.ofFn s ∈ els) ∧ ∀ x : List ℝ, x.length = d → φ x = MvPolynomial.eval (vec d x) q

/-! ## Lemmas -/

theorem mv_span_down (P : Fin d → MParam) (hP : ∀ i k, 1 ≤ k → 0 < ((P i).ab k).2) (els : List (List ℕ)) (hdc : DownClosed els) (q : MvPolynomial (Fin d) ℝ)
    (hq : ∀ s ∈ q.support, List.ofFn s ∈ els) :
    (fun v : Fin d → ℝ => MvPolynomial.eval v q) ∈ Submodule.span ℝ (prodPoly P '' {a | List.ofFn a ∈ els}) := by
  have e : (fun v : Fin d → ℝ => MvPolynomial.eval v q) = ∑ s ∈ q.support, q.coeff s • fun v : Fin d → ℝ => ∏ i, (Polynomial.X ^ s i : ℝ[X]).eval (v i) := by
    funext v
    rw [MvPolynomial.eval_eq', Finset.sum_apply]
    simp
  rw [e]
  refine Submodule.sum_mem _ fun s hs => Submodule.smul_mem _ _ ?_
  choose c hc using fun i => opoly_span (P i).ab (s i) (fun k h _ => hP i k h) (Polynomial.X ^ s i : ℝ[X]) (by simp)
  have e : (fun v : Fin d → ℝ => ∏ i, (Polynomial.X ^ s i : ℝ[X]).eval (v i)) =
      ∑ a ∈ Fintype.piFinset fun i => Finset.range (s i + 1), (∏ i, c i (a i)) • prodPoly P a := by
    funext v
    have : ∀ i, (Polynomial.X ^ s i : ℝ[X]).eval (v i) = ∑ a ∈ Finset.range (s i + 1), c i a * Sampling.Spec.univ (P i) a (v i) := by
      intro i
      conv_lhs => rw [hc i]
      rw [Polynomial.eval_finsetSum]
      apply Finset.sum_congr rfl
      intro a _
      rw [Polynomial.eval_mul, Polynomial.eval_C, univ_eq]
    rw [Finset.prod_congr rfl fun i _ => this i, Finset.prod_univ_sum, Finset.sum_apply]
    apply Finset.sum_congr rfl
    intro a _
    rw [Finset.prod_mul_distrib]
    rfl
  rw [e]
  refine Submodule.sum_mem _ fun a ha => Submodule.smul_mem _ _ (Submodule.subset_span ⟨a, ?_, rfl⟩)
  refine hdc _ _ (hq s hs) ?_
  unfold Below
  rw [List.forall₂_iff_get]
  refine ⟨by simp, fun i h1 h2 => ?_⟩
  simp only [List.get_eq_getElem, List.getElem_ofFn]
  have hi : i < d := by simpa using h1
  have := Finset.mem_range.1 (Fintype.mem_piFinset.1 ha ⟨i, hi⟩)
  omega

/-- The monomials of a basis function. -/
theorem phis_support (P : Fin d → MParam) (hP : ∀ i k, 1 ≤ k → 0 < ((P i).ab k).2) (row : List ℕ) (h : row.length = d) (s : Fin d →₀ ℕ) (hs : s ∈ (Sub.phis P row).support) :
    Below (List.ofFn s) row := by
  rw [MvPolynomial.mem_support_iff, Sub.phis, Sub.coeff_prod, Finset.prod_ne_zero_iff] at hs
  unfold Below
  rw [List.forall₂_iff_get]
  refine ⟨by simpa using h.symm, fun i h1 h2 => ?_⟩
  simp only [List.get_eq_getElem, List.getElem_ofFn]
  have hi : i < d := by simpa using h1
  have := Polynomial.le_natDegree_of_ne_zero (hs ⟨i, hi⟩ (Finset.mem_univ _))
  rwa [(opoly_degree (P ⟨i, hi⟩).ab _ fun k h _ => hP ⟨i, hi⟩ k h).1, getD_of_lt _ _ _ (by simpa using h2)] at this

/-- **C207, the models.** A fit in a downward closed index set (C05: every index set the library offers) can be exactly the polynomials in the monomials of the index set, whatever the laws of the
parameters: the value of every set of coefficients is one, and every one has coefficients. -/
theorem c207_models (P : Fin d → MParam) (hP : ∀ i k, 1 ≤ k → 0 < ((P i).ab k).2) (els : List (List ℕ)) (hB : Regular ⟨List.ofFn P, els, none⟩) (hnd : els.Nodup)
    (hdc : DownClosed els) (φ : List ℝ → ℝ) :
    (∃ z : List ℝ, z.length = els.length ∧ ∀ x : List ℝ, x.length = d → Expansion.polyfit ⟨List.ofFn P, els, none⟩ z [x] = .ok [φ x]) ↔ InMonomials d els φ := by
  have hdl : (Expansion.mk (List.ofFn P) els none).dims = d := by simp [Expansion.dims]
  have hr : ∀ row ∈ els, row.length = d := fun row h => (hB.rows row h).trans hdl
  constructor
  · rintro ⟨z, hz, hφ⟩
    refine ⟨∑ r ∈ Finset.range els.length, z.getD r 0 • Sub.phis P (els.getD r []), fun s hs => ?_, fun x hx => ?_⟩
    · have := MvPolynomial.support_sum hs
      obtain ⟨r, hr', hs'⟩ := Finset.mem_biUnion.1 this
      have hmem : els.getD r [] ∈ els := by
        rw [getD_of_lt _ _ _ (Finset.mem_range.1 hr')]
        exact List.getElem_mem _
      exact hdc _ _ hmem (phis_support P hP _ (hr _ hmem) s (MvPolynomial.support_smul hs'))
    · have h := hφ x hx
      rw [polyfit_eq _ hB z hz [x] (by simpa [hdl] using hx), eff_none _ rfl] at h
      have h : expansion (List.ofFn P) els z x = φ x := by simpa using Except.ok.inj h
      rw [← h, sum_expansion _ _ _ hz, map_sum]
      refine Finset.sum_congr rfl fun r hr' => ?_
      have hmem : els.getD r [] ∈ els := by
        rw [getD_of_lt _ _ _ (Finset.mem_range.1 hr')]
        exact List.getElem_mem _
      rw [MvPolynomial.smul_eval, ← Sub.basisFun_phis P _ (hr _ hmem), ofFn_vec _ hx]
  · rintro ⟨q, hq, hφ⟩
    obtain ⟨a, ha, hsum⟩ := (Finsupp.mem_span_image_iff_linearCombination ℝ).1 (mv_span_down P hP els hdc q hq)
    have hrows := sum_rows P els hr hnd a (fun r h => ha h)
    refine ⟨els.map fun row => a fun i => row.getD i 0, by simp, fun x hx => ?_⟩
    rw [polyfit_eq _ hB _ (by simp) [x] (by simpa [hdl] using hx), eff_none _ rfl]
    simp only [List.map_cons, List.map_nil]
    congr 2
    rw [hφ x hx]
    have h1 := congrFun hsum (vec d x)
    rw [← h1, Finsupp.linearCombination_apply]
    have h2 := hrows (vec d x)
    rw [ofFn_vec _ hx] at h2
    have h3 : (a.sum fun i c => c • prodPoly P i) (vec d x) = a.sum fun r c => c * prodPoly P r (vec d x) := by
      rw [Finsupp.sum_apply']
      rfl
    rw [h3, h2]
    rw [sum_expansion _ _ _ (by simp)]
    refine Finset.sum_congr rfl fun s hs => ?_
    rw [getD_map_lt _ els 0 s (Finset.mem_range.1 hs), ← getD_of_lt els [] s (Finset.mem_range.1 hs)]

/-- **C207, the laws.** Least squares predicts the same whatever laws the parameters are declared with: two fits to the same weighted samples in the same downward closed index set agree at
the samples, and at every point if the samples determine a polynomial of the index set. Only the statistics depend on the laws. -/
theorem c207_laws (P P' : Fin d → MParam) (hP : ∀ i k, 1 ≤ k → 0 < ((P i).ab k).2) (hP' : ∀ i k, 1 ≤ k → 0 < ((P' i).ab k).2) (els : List (List ℕ))
    (hB : Regular ⟨List.ofFn P, els, none⟩) (hnd : els.Nodup) (hdc : DownClosed els) (pts : List (List ℝ)) (wts ys : List ℝ) (hs : Sample d pts wts ys) (c c' : List ℝ)
    (hf : LsqFit ⟨List.ofFn P, els, none⟩ pts wts ys c) (hf' : LsqFit ⟨List.ofFn P', els, none⟩ pts wts ys c') :
    ∃ φ φ' : List ℝ → ℝ, (∀ x : List ℝ, x.length = d → Expansion.polyfit ⟨List.ofFn P, els, none⟩ c [x] = .ok [φ x]) ∧
      (∀ x : List ℝ, x.length = d → Expansion.polyfit ⟨List.ofFn P', els, none⟩ c' [x] = .ok [φ' x]) ∧ (∀ x ∈ pts, φ x = φ' x) ∧
      (Determined ⟨List.ofFn P, els, none⟩ pts → ∀ x : List ℝ, x.length = d → φ x = φ' x) := by
  have hdl : (Expansion.mk (List.ofFn P) els none).dims = d := by simp [Expansion.dims]
  have hdl' : (Expansion.mk (List.ofFn P') els none).dims = d := by simp [Expansion.dims]
  have hB' : Regular ⟨List.ofFn P', els, none⟩ := ⟨hB.ne, fun r h => by rw [hdl', hB.rows r h, hdl], fun h => hB.one (by rw [hdl, ← hdl']; exact h), hB.square⟩
  have hpf : ∀ (Q : Fin d → MParam), Regular ⟨List.ofFn Q, els, none⟩ → ∀ y : List ℝ, y.length = els.length → ∀ x : List ℝ, x.length = d →
      Expansion.polyfit ⟨List.ofFn Q, els, none⟩ y [x] = .ok [expansion (List.ofFn Q) els y x] := by
    intro Q hQ y hy x hx
    rw [polyfit_eq _ hQ y hy [x] (by simpa [Expansion.dims] using hx), eff_none _ rfl]
    rfl
  have hs1 : Sample (Expansion.mk (List.ofFn P) els none).dims pts wts ys := by rw [hdl]; exact hs
  have hs2 : Sample (Expansion.mk (List.ofFn P') els none).dims pts wts ys := by rw [hdl']; exact hs
  have hcl := ((fitted_iff _ hB hs1 c).1 hf).1
  have hcl' := ((fitted_iff _ hB' hs2 c').1 hf').1
  set φ := expansion (List.ofFn P) els c with hφ
  set φ' := expansion (List.ofFn P') els c' with hφ'
  -- each fit is an expansion in the other basis
  obtain ⟨y', hy', hyv'⟩ := (c207_models P' hP' els hB' hnd hdc φ).2 ((c207_models P hP els hB hnd hdc φ).1 ⟨c, hcl, hpf P hB c hcl⟩)
  obtain ⟨y, hy, hyv⟩ := (c207_models P hP els hB hnd hdc φ').2 ((c207_models P' hP' els hB' hnd hdc φ').1 ⟨c', hcl', hpf P' hB' c' hcl'⟩)
  have ey' : ∀ x : List ℝ, x.length = d → expansion (List.ofFn P') els y' x = φ x := by
    intro x hx
    have := hyv' x hx
    rw [hpf P' hB' y' hy' x hx] at this
    simpa using Except.ok.inj this
  have ey : ∀ x : List ℝ, x.length = d → expansion (List.ofFn P) els y x = φ' x := by
    intro x hx
    have := hyv x hx
    rw [hpf P hB y hy x hx] at this
    simpa using Except.ok.inj this
  have hlen : ∀ j ∈ Finset.range pts.length, (pts.getD j []).length = d := by
    intro j hj
    rw [getD_of_lt _ _ _ (Finset.mem_range.1 hj)]
    exact hs.size _ (List.getElem_mem _)
  have o1 := fitted_orth _ hB hs1 c hf c hcl
  have o2 := fitted_orth _ hB hs1 c hf y hy
  have o3 := fitted_orth _ hB' hs2 c' hf' c' hcl'
  have o4 := fitted_orth _ hB' hs2 c' hf' y' hy'
  have effn : ∀ (Q : Fin d → MParam) (z : List ℝ), Expansion.eff ⟨List.ofFn Q, els, none⟩ z = z := fun Q z => eff_none ⟨List.ofFn Q, els, none⟩ rfl z
  simp only [effn] at o1 o2 o3 o4
  have hzero : ∑ j ∈ Finset.range pts.length, wts.getD j 0 * (φ (pts.getD j []) - φ' (pts.getD j [])) ^ 2 = 0 := by
    have e2 : ∑ j ∈ Finset.range pts.length, wts.getD j 0 * ((φ (pts.getD j []) - ys.getD j 0) * φ' (pts.getD j [])) = 0 := by
      refine Eq.trans ?_ o2
      exact Finset.sum_congr rfl fun j hj => by rw [ey _ (hlen j hj)]
    have e4 : ∑ j ∈ Finset.range pts.length, wts.getD j 0 * ((φ' (pts.getD j []) - ys.getD j 0) * φ (pts.getD j [])) = 0 := by
      refine Eq.trans ?_ o4
      exact Finset.sum_congr rfl fun j hj => by rw [ey' _ (hlen j hj)]
    have e1 : ∑ j ∈ Finset.range pts.length, wts.getD j 0 * ((φ (pts.getD j []) - ys.getD j 0) * φ (pts.getD j [])) = 0 := o1
    have e3 : ∑ j ∈ Finset.range pts.length, wts.getD j 0 * ((φ' (pts.getD j []) - ys.getD j 0) * φ' (pts.getD j [])) = 0 := o3
    have : ∑ j ∈ Finset.range pts.length, wts.getD j 0 * (φ (pts.getD j []) - φ' (pts.getD j [])) ^ 2 =
        ∑ j ∈ Finset.range pts.length, wts.getD j 0 * ((φ (pts.getD j []) - ys.getD j 0) * φ (pts.getD j [])) -
        ∑ j ∈ Finset.range pts.length, wts.getD j 0 * ((φ (pts.getD j []) - ys.getD j 0) * φ' (pts.getD j [])) -
        ∑ j ∈ Finset.range pts.length, wts.getD j 0 * ((φ' (pts.getD j []) - ys.getD j 0) * φ (pts.getD j [])) +
        ∑ j ∈ Finset.range pts.length, wts.getD j 0 * ((φ' (pts.getD j []) - ys.getD j 0) * φ' (pts.getD j [])) := by
      rw [← Finset.sum_sub_distrib, ← Finset.sum_sub_distrib, ← Finset.sum_add_distrib]
      exact Finset.sum_congr rfl fun j _ => by ring
    rw [this, e1, e2, e3, e4]
    norm_num
  have hw : ∀ j ∈ Finset.range pts.length, 0 < wts.getD j 0 := by
    intro j hj
    rw [getD_of_lt _ _ _ (hs.wlen ▸ Finset.mem_range.1 hj)]
    exact hs.pos _ (List.getElem_mem _)
  have heq : ∀ x ∈ pts, φ x = φ' x := by
    intro x hx
    obtain ⟨j, hj, rfl⟩ := List.getElem_of_mem hx
    have h := (Finset.sum_eq_zero_iff_of_nonneg fun j hj => mul_nonneg (hw j hj).le (sq_nonneg _)).1 hzero j (Finset.mem_range.2 hj)
    rw [getD_of_lt pts [] j hj] at h
    rcases mul_eq_zero.1 h with h | h
    · exact absurd h (hw j (Finset.mem_range.2 hj)).ne'
    · exact sub_eq_zero.1 (pow_eq_zero_iff (two_ne_zero) |>.1 h)
  refine ⟨φ, φ', hpf P hB c hcl, hpf P' hB' c' hcl', heq, fun hdet x hx => ?_⟩
  -- the difference of the coefficients in the first basis
  have hdz : ∀ x : List ℝ, x.length = d → expansion (List.ofFn P) els ((List.range els.length).map fun r => c.getD r 0 - y.getD r 0) x = φ x - φ' x := by
    intro x hx
    rw [← ey x hx, hφ, sum_expansion _ _ _ hcl, sum_expansion _ _ _ hy, sum_expansion _ _ _ (by simp), ← Finset.sum_sub_distrib]
    refine Finset.sum_congr rfl fun r hr => ?_
    rw [getD_map_lt _ _ _ _ (by simpa using hr)]
    simp only [List.getElem_range]
    ring
  have hz := hdet ((List.range els.length).map fun r => c.getD r 0 - y.getD r 0) (by simp) (by
    rw [polyfit_eq _ hB _ (by simp) pts (by rw [hdl]; exact hs.size), eff_none _ rfl]
    congr 1
    refine List.map_congr_left fun x hx => ?_
    rw [hdz x (hs.size x hx), heq x hx, sub_self])
  have := hdz x hx
  rw [hz] at this
  have h0 : expansion (List.ofFn P) els (List.replicate els.length 0) x = 0 := by
    rw [sum_expansion _ _ _ (by simp)]
    refine Finset.sum_eq_zero fun r hr => ?_
    rw [getD_of_lt _ _ _ (by simpa using hr), List.getElem_replicate, zero_mul]
  rw [show (Expansion.mk (List.ofFn P) els none).elements = els from rfl, h0] at this
  linarith

/-- The hypotheses of both theorems can be met: straight lines through two samples, with uniform laws on two different ranges; the samples determine the line. -/
example : ∃ P P' : MParam, P.ab ≠ P'.ab ∧ (∀ k, 1 ≤ k → 0 < (P.ab k).2) ∧ (∀ k, 1 ≤ k → 0 < (P'.ab k).2) ∧ Regular ⟨List.ofFn fun _ : Fin 1 => P, [[0], [1]], none⟩ ∧
    DownClosed [[0], [1]] ∧ Sample 1 [[0], [1]] [1, 2] [3, 5] ∧ (∃ c, LsqFit ⟨List.ofFn fun _ : Fin 1 => P, [[0], [1]], none⟩ [[0], [1]] [1, 2] [3, 5] c) ∧
    (∃ c, LsqFit ⟨List.ofFn fun _ : Fin 1 => P', [[0], [1]], none⟩ [[0], [1]] [1, 2] [3, 5] c) ∧ Determined ⟨List.ofFn fun _ : Fin 1 => P, [[0], [1]], none⟩ [[0], [1]] := by
  have hb1 : ∀ k, 1 ≤ k → 0 < (jtab ((1 : ℝ) - 1) (1 - 1) (-1) 1 k).2 := fun k hk => beta_tab_pos one_pos one_pos (by norm_num) k hk
  have hb2 : ∀ k, 1 ≤ k → 0 < (jtab ((1 : ℝ) - 1) (1 - 1) 0 1 k).2 := fun k hk => beta_tab_pos one_pos one_pos (by norm_num) k hk
  obtain ⟨P, -, h1, -⟩ := exists_valid (jtab (1 - 1) (1 - 1) (-1) 1) (by norm_num [jtab, jacobiRow]) hb1 none none 0
  obtain ⟨P', -, h2, -⟩ := exists_valid (jtab (1 - 1) (1 - 1) 0 1) (by norm_num [jtab, jacobiRow]) hb2 none none 0
  have hreg : ∀ Q : MParam, Regular ⟨List.ofFn fun _ : Fin 1 => Q, [[0], [1]], none⟩ := fun Q =>
    ⟨by simp, by simp [Expansion.dims], fun _ => ⟨1, rfl⟩, by simp [SquareOpt]⟩
  have hs : Sample 1 [[0], [1]] [1, 2] [3, 5] := ⟨by simp, by simp, by simp, by simp⟩
  have hfit : ∀ Q : MParam, ∃ c, LsqFit ⟨List.ofFn fun _ : Fin 1 => Q, [[0], [1]], none⟩ [[0], [1]] [1, 2] [3, 5] c := by
    intro Q
    obtain ⟨M, hM, -⟩ := getPoly_dot _ (hreg Q) [[0], [1]] hs.size
    exact ⟨_, M, hM, (exists_lstsq _ _ _).choose_spec⟩
  refine ⟨P, P', ?_, by rw [h1]; exact hb1, by rw [h2]; exact hb2, hreg P, ?_, hs, hfit P, hfit P', ?_⟩
  · rw [h1, h2]
    intro h
    have := congrArg Prod.fst (congrFun h 0)
    norm_num [jtab, jacobiRow] at this
  · intro a b hb hab
    simp only [List.mem_cons, List.not_mem_nil, or_false] at hb
    rcases hb with rfl | rfl
    · obtain ⟨i, rfl⟩ := List.length_eq_one_iff.1 (show a.length = 1 from hab.length_eq)
      simp [Below] at hab
      simp [hab]
    · obtain ⟨i, rfl⟩ := List.length_eq_one_iff.1 (show a.length = 1 from hab.length_eq)
      simp [Below] at hab
      simp
      omega
  · intro z hz h
    obtain ⟨a, b, rfl⟩ := List.length_eq_two.1 (show z.length = 2 from hz)
    rw [polyfit_eq _ (hreg P) _ hz _ hs.size, eff_none _ rfl] at h
    have hp : 0 < (P.ab 1).2 := by rw [h1]; exact hb1 1 le_rfl
    have h := Except.ok.inj h
    simp [expansion, basisFun, univ_eq, opoly] at h
    obtain ⟨e1, e2⟩ := h
    have hb : b * (√(P.ab 1).2)⁻¹ = 0 := by linear_combination e2 - e1
    have : b = 0 := by
      rcases mul_eq_zero.1 hb with h | h
      · exact h
      · exact absurd h (by positivity)
    subst this
    simp at e1
    simp [e1]

end EQ.Stats
