import Verif.Sampling.OrthLemmas
import Verif.Sampling.Props
import Verif.Sampling.SampleProps
import Verif.Sampling.SparseWitness
import Verif.Param.NodeLemmas
import Mathlib.Topology.Order.IntermediateValue

/-!
# Quadrature points of consecutive orders interlace (C189)
-/

namespace EQ.Sampling
open EQ.Param EQ.ParamSpec EQ.Sampling.Spec Polynomial Finset

/-- Consecutive polynomials have no common zero. -/
theorem no_common_zero (ab : Table) (hb : ∀ k, 1 ≤ k → 0 < (ab k).2) (x : ℝ) :
    ∀ m, (opoly ab m).eval x = 0 → (opoly ab (m + 1)).eval x ≠ 0 := by
  intro m
  induction m with
  | zero => intro h; simp [opoly] at h
  | succ m ih =>
    intro h1 h2
    refine ih ?_ h1
    have h2 : (opoly ab (m + 2)).eval x = 0 := h2
    rw [opoly] at h2
    simp only [eval_mul, eval_sub, eval_C, eval_X, h1, mul_zero, zero_sub, mul_neg, neg_eq_zero] at h2
    have e1 : (√(ab (m + 2)).2)⁻¹ ≠ 0 := inv_ne_zero (Real.sqrt_ne_zero'.2 (hb _ (by omega)))
    have e2 : √(ab (m + 1)).2 ≠ 0 := Real.sqrt_ne_zero'.2 (hb _ (by omega))
    simpa [e1, e2] using h2

/-- A polynomial changes sign between consecutive zeros of the next one. -/
theorem sign_change (ab : Table) (hb : ∀ k, 1 ≤ k → 0 < (ab k).2) (n : ℕ) (y : Fin (n + 2) → ℝ)
    (V : Matrix (Fin (n + 2)) (Fin (n + 2)) ℝ) (h : EighContract (jacobiMatrix ab (n + 2)) y V) (i : Fin (n + 1)) :
    (opoly ab (n + 1)).eval (y i.castSucc) * (opoly ab (n + 1)).eval (y i.succ) < 0 := by
  have G := gaussFacts ab (n + 1) (fun k h1 _ => hb k h1) y V h
  set a := i.castSucc with ha
  set b := i.succ with hbb
  have hab : a ≠ b := by rw [ha, hbb]; simp [Fin.ext_iff]
  let p := opoly ab (n + 1)
  let q : ℝ[X] := ∏ j ∈ (univ.erase a).erase b, (X - C (y j))
  have hqd : q.natDegree = n := by
    rw [natDegree_prod_of_monic _ _ fun j _ => monic_X_sub_C _]
    simp only [natDegree_X_sub_C, sum_const, smul_eq_mul, mul_one]
    rw [card_erase_of_mem (mem_erase.2 ⟨hab.symm, mem_univ _⟩), card_erase_of_mem (mem_univ _)]
    simp
  obtain ⟨c, hc⟩ := opoly_span ab n (fun k h1 _ => hb k h1) q hqd.le
  have hsum : ∑ k, (V 0 k) ^ 2 * (p.eval (y k) * q.eval (y k)) = 0 := by
    have e : ∀ k, (V 0 k) ^ 2 * (p.eval (y k) * q.eval (y k)) =
        ∑ m ∈ range (n + 1), c m * ((V 0 k) ^ 2 * ((opoly ab (n + 1)).eval (y k) * (opoly ab m).eval (y k))) := by
      intro k
      rw [hc, eval_finsetSum, mul_sum, mul_sum]
      refine sum_congr rfl fun m _ => ?_
      rw [eval_mul, eval_C]
      ring
    rw [sum_congr rfl fun k _ => e k, sum_comm]
    refine sum_eq_zero fun m hm => ?_
    have hm := mem_range.1 hm
    rw [← mul_sum, discrete_orthonormal ab (n + 1) (fun k h1 _ => hb k h1) y V h (n + 1) m (by omega) (by omega), if_neg (by omega), mul_zero]
  have htwo : (V 0 a) ^ 2 * (p.eval (y a) * q.eval (y a)) + (V 0 b) ^ 2 * (p.eval (y b) * q.eval (y b)) = 0 := by
    rw [← hsum, ← add_sum_erase univ _ (mem_univ a), ← add_sum_erase (univ.erase a) _ (mem_erase.2 ⟨hab.symm, mem_univ b⟩)]
    have : ∑ k ∈ (univ.erase a).erase b, (V 0 k) ^ 2 * (p.eval (y k) * q.eval (y k)) = 0 := by
      refine sum_eq_zero fun k hk => ?_
      have : q.eval (y k) = 0 := by
        rw [eval_prod]
        exact prod_eq_zero hk (by simp)
      rw [this, mul_zero, mul_zero]
    rw [this, add_zero]
  have hqq : 0 < q.eval (y a) * q.eval (y b) := by
    rw [eval_prod, eval_prod, ← prod_mul_distrib]
    refine prod_pos fun j hj => ?_
    simp only [eval_sub, eval_X, eval_C]
    obtain ⟨hjb, hja⟩ := mem_erase.1 hj
    have hja := (mem_erase.1 hja).1
    rcases lt_or_gt_of_ne hja with h1 | h1
    · have h2 : j < b := h1.trans (by rw [ha, hbb]; exact Fin.castSucc_lt_succ)
      exact mul_pos (sub_pos.2 (G.strict h1)) (sub_pos.2 (G.strict h2))
    · have h2 : b < j := by
        rw [ha] at h1
        refine lt_of_le_of_ne ?_ (Ne.symm hjb)
        rw [hbb]
        exact Fin.castSucc_lt_iff_succ_le.1 h1
      exact mul_pos_of_neg_of_neg (sub_neg.2 (G.strict h1)) (sub_neg.2 (G.strict h2))
  have hpb : p.eval (y b) ≠ 0 := fun h0 => no_common_zero ab hb (y b) (n + 1) h0 (nodes_are_roots ab (n + 1) (fun k h1 _ => hb k h1) y V h b)
  have hqb : q.eval (y b) ≠ 0 := fun h0 => by rw [h0, mul_zero] at hqq; exact lt_irrefl _ hqq
  have hva : 0 < (V 0 a) ^ 2 := by have := G.first_ne a; positivity
  have hvb : 0 < (V 0 b) ^ 2 := by have := G.first_ne b; positivity
  by_contra hcon
  push Not at hcon
  have h1 : 0 ≤ (V 0 a) ^ 2 * (p.eval (y a) * p.eval (y b)) * (q.eval (y a) * q.eval (y b)) := mul_nonneg (mul_nonneg hva.le hcon) hqq.le
  have h2 : 0 < (V 0 b) ^ 2 * (p.eval (y b) * q.eval (y b)) ^ 2 := by
    have : p.eval (y b) * q.eval (y b) ≠ 0 := mul_ne_zero hpb hqb
    positivity
  have h3 : (V 0 a) ^ 2 * (p.eval (y a) * p.eval (y b)) * (q.eval (y a) * q.eval (y b)) + (V 0 b) ^ 2 * (p.eval (y b) * q.eval (y b)) ^ 2 = 0 := by
    linear_combination (p.eval (y b) * q.eval (y b)) * htwo
  linarith

theorem strictMono_id {n : ℕ} (f : Fin n → Fin n) (h : StrictMono f) : ∀ i, f i = i := by
  have hs : Function.Surjective f := Finite.surjective_of_injective h.injective
  have e : h.orderIsoOfSurjective f hs = OrderIso.refl _ := Subsingleton.elim _ _
  intro i
  have := congrArg (fun g => g i) e
  simpa using this

theorem interlace (ab : Table) (hb : ∀ k, 1 ≤ k → 0 < (ab k).2) (n : ℕ) (x : Fin (n + 1) → ℝ)
    (U : Matrix (Fin (n + 1)) (Fin (n + 1)) ℝ) (hU : EighContract (jacobiMatrix ab (n + 1)) x U) (y : Fin (n + 2) → ℝ)
    (V : Matrix (Fin (n + 2)) (Fin (n + 2)) ℝ) (h : EighContract (jacobiMatrix ab (n + 2)) y V) (i : Fin (n + 1)) :
    y i.castSucc < x i ∧ x i < y i.succ := by
  have G := gaussFacts ab (n + 1) (fun k h1 _ => hb k h1) y V h
  have Gx := gaussFacts ab n (fun k h1 _ => hb k h1) x U hU
  have hex : ∀ i : Fin (n + 1), ∃ k, y i.castSucc < x k ∧ x k < y i.succ := by
    intro i
    have hs := sign_change ab hb n y V h i
    have hlt : y i.castSucc < y i.succ := G.strict Fin.castSucc_lt_succ
    have hc : ContinuousOn (fun t => (opoly ab (n + 1)).eval t) (Set.Icc (y i.castSucc) (y i.succ)) := (Polynomial.continuous _).continuousOn
    obtain ⟨z, hz, hz0⟩ : ∃ z ∈ Set.Ioo (y i.castSucc) (y i.succ), (opoly ab (n + 1)).eval z = 0 := by
      rcases mul_neg_iff.1 hs with ⟨h1, h2⟩ | ⟨h1, h2⟩
      · exact intermediate_value_Ioo' hlt.le hc ⟨h2, h1⟩
      · exact intermediate_value_Ioo hlt.le hc ⟨h1, h2⟩
    obtain ⟨k, rfl⟩ := roots_are_nodes ab n (fun k h1 _ => hb k h1) x U hU z hz0
    exact ⟨k, hz.1, hz.2⟩
  choose f hf using hex
  have hmono : StrictMono f := by
    intro i j hij
    have h1 : y i.succ ≤ y j.castSucc := G.strict.monotone (by rw [← Fin.castSucc_lt_iff_succ_le]; simpa using hij)
    exact Gx.strict.lt_iff_lt.1 ((hf i).2.trans_le (h1.trans (hf j).1.le))
  have := hf i
  rwa [strictMono_id f hmono i] at this

/-- **C189.** Between every two neighbouring quadrature points of a parameter of one order lies exactly one point of the order before: the points of consecutive
orders interlace. -/
theorem c189_interlace (P : MParam) (hP : Valid P) (o : ℕ) (ho : 1 ≤ o) (i : ℕ) (hi : i < (P.localRule o).pts.length) :
    (P.localRule (o + 1)).pts.getD i 0 < (P.localRule o).pts.getD i 0 ∧
    (P.localRule o).pts.getD i 0 < (P.localRule (o + 1)).pts.getD (i + 1) 0 := by
  rw [(localRule_length P o).1] at hi
  have e : ∀ o, 1 ≤ o → ∀ i (hi : i < o + 1), (P.localRule o).pts.getD i 0 = P.eigD o ⟨i, hi⟩ := by
    intro o ho i hi
    unfold MParam.localRule
    rw [if_neg (by omega)]
    simp only
    rw [getD_of_lt _ _ _ (by simpa using hi), List.getElem_ofFn]
    exact (rule_eq P.ab o (fun k h1 _ => hP.pos k h1) _ _ (hP.eigh o) _ (hP.sort o) _).1
  rw [e o ho i hi, e (o + 1) (by omega) i (by omega), e (o + 1) (by omega) (i + 1) (by omega)]
  exact interlace P.ab hP.pos o (P.eigD o) (P.eigV o) (hP.eigh o) (P.eigD (o + 1)) (P.eigV (o + 1)) (hP.eigh (o + 1)) ⟨i, hi⟩

/-- Not vacuous: the uniform parameter, whose two points of order 1 lie between its three points of order 2. -/
example : ∃ P : MParam, Valid P ∧ (P.localRule 1).pts.length = 2 ∧
    (P.localRule 2).pts.getD 0 0 < (P.localRule 1).pts.getD 0 0 ∧ (P.localRule 1).pts.getD 0 0 < (P.localRule 2).pts.getD 1 0 ∧
    (P.localRule 2).pts.getD 1 0 < (P.localRule 1).pts.getD 1 0 ∧ (P.localRule 1).pts.getD 1 0 < (P.localRule 2).pts.getD 2 0 := by
  obtain ⟨P, hP⟩ := exists_uniform
  have hl := (localRule_length P 1).1
  have h0 := c189_interlace P hP.valid 1 le_rfl 0 (by omega)
  have h1 := c189_interlace P hP.valid 1 le_rfl 1 (by omega)
  exact ⟨P, hP.valid, hl, h0.1, h0.2, h1.1, h1.2⟩

end EQ.Sampling
