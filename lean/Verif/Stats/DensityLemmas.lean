import Verif.Stats.MeanLemmas
import Mathlib.Algebra.MvPolynomial.Eval
import Mathlib.RingTheory.Adjoin.Polynomial.Basic

/-!
# Expansions are dense in the continuous functions on a box

Lemmas for C178 and C179.
-/

namespace EQ.Stats
open EQ.Param EQ.Sampling EQ.Sampling.Spec EQ.Poly EQ.Poly.Spec EQ.Stats.Spec Set
open scoped Polynomial

variable {d : ℕ}

/-- The basis function of a multi-index. -/
noncomputable def prodPoly (P : Fin d → MParam) (r : Fin d → ℕ) (v : Fin d → ℝ) : ℝ := ∏ i, Sampling.Spec.univ (P i) (r i) (v i)

theorem prodPoly_span (P : Fin d → MParam) (hP : ∀ i k, 1 ≤ k → 0 < ((P i).ab k).2) (p : Fin d → ℝ[X]) :
    (fun v : Fin d → ℝ => ∏ i, (p i).eval (v i)) ∈ Submodule.span ℝ (range (prodPoly P)) := by
  choose c hc using fun i => opoly_span (P i).ab (p i).natDegree (fun k h _ => hP i k h) (p i) le_rfl
  have e : (fun v : Fin d → ℝ => ∏ i, (p i).eval (v i)) =
      ∑ a ∈ Fintype.piFinset fun i => Finset.range ((p i).natDegree + 1), (∏ i, c i (a i)) • prodPoly P a := by
    funext v
    have : ∀ i, (p i).eval (v i) = ∑ a ∈ Finset.range ((p i).natDegree + 1), c i a * Sampling.Spec.univ (P i) a (v i) := by
      intro i
      conv_lhs => rw [hc i]
      rw [Polynomial.eval_finsetSum]
      apply Finset.sum_congr rfl
      intro a _
      rw [Polynomial.eval_mul, Polynomial.eval_C, univ_eq]
    rw [Finset.prod_congr rfl fun i _ => this i, Finset.prod_univ_sum, Finset.sum_apply]
    apply Finset.sum_congr rfl
    intro a _
    rw [Finset.prod_mul_distrib]
    rfl
  rw [e]
  exact Submodule.sum_mem _ fun a _ => Submodule.smul_mem _ _ (Submodule.subset_span ⟨a, rfl⟩)

theorem mv_span (P : Fin d → MParam) (hP : ∀ i k, 1 ≤ k → 0 < ((P i).ab k).2) (q : MvPolynomial (Fin d) ℝ) :
    (fun v : Fin d → ℝ => MvPolynomial.eval v q) ∈ Submodule.span ℝ (range (prodPoly P)) := by
  have e : (fun v : Fin d → ℝ => MvPolynomial.eval v q) = ∑ s ∈ q.support, q.coeff s • fun v : Fin d → ℝ => ∏ i, (Polynomial.X ^ s i : ℝ[X]).eval (v i) := by
    funext v
    rw [MvPolynomial.eval_eq', Finset.sum_apply]
    simp
  rw [e]
  exact Submodule.sum_mem _ fun s _ => Submodule.smul_mem _ _ (prodPoly_span P hP _)

/-- Every continuous function on a box is close to an expansion. -/
theorem expansion_dense (P : Fin d → MParam) (hP : ∀ i k, 1 ≤ k → 0 < ((P i).ab k).2) (l u : Fin d → ℝ) (F : (Fin d → ℝ) → ℝ) (hF : ContinuousOn F (Icc l u))
    (ε : ℝ) (hε : 0 < ε) : ∃ a : (Fin d → ℕ) →₀ ℝ, ∀ v ∈ Icc l u, |F v - a.sum fun r c => c * prodPoly P r v| ≤ ε := by
  have : CompactSpace (Icc l u) := isCompact_iff_compactSpace.1 isCompact_Icc
  let co : Fin d → C(Icc l u, ℝ) := fun i => ⟨fun x => x.1 i, (continuous_apply i).comp continuous_subtype_val⟩
  have hsep : (Algebra.adjoin ℝ (range co)).SeparatesPoints := by
    intro x y hxy
    obtain ⟨i, hi⟩ : ∃ i, x.1 i ≠ y.1 i := by
      by_contra h
      push Not at h
      exact hxy (Subtype.ext (funext h))
    exact ⟨co i, ⟨co i, Algebra.subset_adjoin ⟨i, rfl⟩, rfl⟩, hi⟩
  obtain ⟨⟨g, hg⟩, hb⟩ := ContinuousMap.exists_mem_subalgebra_near_continuous_of_separatesPoints _ hsep (fun x : Icc l u => F x.1)
    (continuousOn_iff_continuous_domRestrict.1 hF) ε hε
  rw [Algebra.adjoin_range_eq_range_aeval] at hg
  obtain ⟨q, hq⟩ := hg
  have he : ∀ (q : MvPolynomial (Fin d) ℝ) (x : Icc l u), (MvPolynomial.aeval co q) x = MvPolynomial.eval x.1 q := by
    intro q x
    induction q using MvPolynomial.induction_on with
    | C a => simp
    | add p q hp hq => rw [map_add, map_add, ContinuousMap.add_apply, hp, hq]
    | mul_X p i hp =>
      rw [map_mul, map_mul, ContinuousMap.mul_apply, hp]
      simp [co]
  obtain ⟨a, ha⟩ := Finsupp.mem_span_range_iff_exists_finsupp.1 (mv_span P hP q)
  refine ⟨a, fun v hv => ?_⟩
  have h1 := (hb ⟨v, hv⟩).le
  have h2 : g ⟨v, hv⟩ = a.sum fun r c => c * prodPoly P r v := by
    rw [← hq]
    refine (he q ⟨v, hv⟩).trans ?_
    have := congrFun ha v
    rw [← this, Finsupp.sum_apply']
    rfl
  simp only [h2, Real.norm_eq_abs] at h1
  rwa [abs_sub_comm]

end EQ.Stats
