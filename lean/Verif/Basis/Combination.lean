import Verif.Basis.SparseLemmas
import Mathlib.RingTheory.PowerSeries.WellKnown
import Mathlib.RingTheory.Polynomial.Basic
import Mathlib.Data.Real.Basic

/-!
# Helper lemmas: the sparse-grid combination of products of eventually constant sequences
-/

namespace EQ.Basis
open Spec

/-- Coefficients of `(1 - X)^n`. -/
theorem coeff_one_sub_pow (n k : ℕ) :
    PowerSeries.coeff k ((1 - PowerSeries.X : PowerSeries ℝ) ^ n) = (-1) ^ k * (n.choose k : ℝ) := by
  induction n generalizing k with
  | zero =>
    cases k with
    | zero => simp
    | succ k => simp [PowerSeries.coeff_one]
  | succ n ih =>
    rw [pow_succ, mul_sub, mul_one, map_sub]
    cases k with
    | zero => simp [ih]
    | succ k =>
      rw [PowerSeries.coeff_succ_mul_X, ih, ih, Nat.choose_succ_succ]
      push_cast
      ring

/-- The sum of the products over all rows with a given sum is a coefficient of the product of the series. -/
theorem sum_totalOrder (us : List (ℕ → ℝ)) : ∀ n s : ℕ, us.length = n + 1 →
    ((totalOrderRec (n + 1) s).map fun r => (List.zipWith (fun (u : ℕ → ℝ) j => u j) us r).prod).sum =
      PowerSeries.coeff s (us.map fun u => PowerSeries.mk u).prod := by
  induction us with
  | nil => intro n s h; simp at h
  | cons u us ih =>
    intro n s h
    cases n with
    | zero =>
      have : us = [] := by simpa using h
      subst this
      simp [totalOrderRec]
    | succ n =>
      have h' : us.length = n + 1 := by simpa using h
      rw [List.map_cons, List.prod_cons, PowerSeries.coeff_mul,
        Finset.Nat.sum_antidiagonal_eq_sum_range_succ
          (fun a b => PowerSeries.coeff a (PowerSeries.mk u) * PowerSeries.coeff b (us.map fun u => PowerSeries.mk u).prod)]
      rw [totalOrderRec, List.map_flatMap, List.flatMap_def, List.sum_flatten, List.map_map, Finset.sum_range, ← List.sum_ofFn]
      congr 1
      apply List.ext_getElem
      · simp
      · intro i h1 h2
        simp only [List.getElem_map, List.getElem_range, List.getElem_ofFn, PowerSeries.coeff_mk, List.map_map]
        rw [← ih n (s - i) h', ← List.sum_map_mul_left]
        rfl

/-- A series whose terms are constant from `m` on is a polynomial of degree at most `m` over `1 - X`. -/
theorem eventually_const (u : ℕ → ℝ) (m : ℕ) (h : ∀ j, m ≤ j → u j = u m) :
    ∃ p : Polynomial ℝ, p.natDegree ≤ m ∧ p.eval 1 = u m ∧
      (PowerSeries.mk u) * (1 - PowerSeries.X) = (p : PowerSeries ℝ) := by
  refine ⟨∑ j ∈ Finset.range (m + 1), Polynomial.monomial j (if j = 0 then u 0 else u j - u (j - 1)), ?_, ?_, ?_⟩
  · refine (Polynomial.natDegree_sum_le _ _).trans ?_
    rw [Finset.fold_max_le]
    refine ⟨Nat.zero_le _, fun j hj => ?_⟩
    exact (Polynomial.natDegree_monomial_le _).trans (by rw [Finset.mem_range] at hj; omega)
  · rw [Polynomial.eval_finsetSum]
    simp only [Polynomial.eval_monomial, one_pow, mul_one]
    clear h
    induction m with
    | zero => simp
    | succ m ih => rw [Finset.sum_range_succ, ih]; simp
  · ext k
    rw [mul_sub, mul_one, map_sub, Polynomial.coeff_coe, Polynomial.finsetSum_coeff]
    simp only [Polynomial.coeff_monomial, Finset.sum_ite_eq', Finset.mem_range]
    cases k with
    | zero => simp
    | succ k =>
      rw [PowerSeries.coeff_succ_mul_X]
      simp only [PowerSeries.coeff_mk, Nat.add_sub_cancel, Nat.succ_ne_zero, if_false]
      split_ifs with hk
      · rfl
      · rw [h (k + 1) (by omega), h k (by omega), sub_self]

/-- The product of such series. -/
theorem prod_eventually_const : ∀ (us : List (ℕ → ℝ)) (ms : List ℕ),
    List.Forall₂ (fun u m => ∀ j, m ≤ j → u j = u m) us ms →
    ∃ p : Polynomial ℝ, p.natDegree ≤ ms.sum ∧
      p.eval 1 = (List.zipWith (fun (u : ℕ → ℝ) m => u m) us ms).prod ∧
      (us.map fun u => PowerSeries.mk u).prod * (1 - PowerSeries.X) ^ us.length = (p : PowerSeries ℝ) := by
  intro us ms h
  induction h with
  | nil => exact ⟨1, by simp, by simp, by simp⟩
  | @cons u m us ms h1 _ ih =>
    obtain ⟨p, p1, p2, p3⟩ := ih
    obtain ⟨q, q1, q2, q3⟩ := eventually_const u m h1
    refine ⟨q * p, ?_, ?_, ?_⟩
    · exact (Polynomial.natDegree_mul_le).trans (by simp; omega)
    · simp [q2, p2]
    · rw [Polynomial.coe_mul, ← p3, ← q3, List.map_cons, List.prod_cons, List.length_cons, pow_succ]
      ring

theorem coeff_geom (p : Polynomial ℝ) (L : ℕ) (h : p.natDegree ≤ L) :
    PowerSeries.coeff L ((PowerSeries.mk 1 : PowerSeries ℝ) * (p : PowerSeries ℝ)) = p.eval 1 := by
  rw [mul_comm, PowerSeries.coeff_mul, Finset.Nat.sum_antidiagonal_eq_sum_range_succ
    (fun a b => PowerSeries.coeff a (p : PowerSeries ℝ) * PowerSeries.coeff b (PowerSeries.mk 1 : PowerSeries ℝ)),
    Polynomial.eval_eq_sum_range' (Nat.lt_succ_of_le h)]
  simp

/-- The combination of products of sequences that are constant from `m_i` on, with `Σ m_i` at most the level of the
sparse grid, is the product of their final values. -/
theorem combination (level n : ℕ) (L : List (List ℕ)) (hmem : ∀ row : List ℕ, row ∈ L ↔
      row.length = n + 1 ∧ level ≤ row.sum ∧ row.sum ≤ level + n) (hnd : L.Nodup)
    (us : List (ℕ → ℝ)) (ms : List ℕ) (hlen : us.length = n + 1)
    (hc : List.Forall₂ (fun u m => ∀ j, m ≤ j → u j = u m) us ms) (hs : ms.sum ≤ level + n) :
    (L.map fun r => ((-1 : ℝ) ^ (level + n - r.sum) * (n.choose (level + n - r.sum) : ℝ)) *
      (List.zipWith (fun (u : ℕ → ℝ) j => u j) us r).prod).sum =
      (List.zipWith (fun (u : ℕ → ℝ) m => u m) us ms).prod := by
  obtain ⟨p, p1, p2, p3⟩ := prod_eventually_const us ms hc
  rw [← p2, ← coeff_geom p (level + n) (p1.trans hs), ← p3, hlen]
  have e : (PowerSeries.mk 1 : PowerSeries ℝ) * ((us.map fun u => PowerSeries.mk u).prod * (1 - PowerSeries.X) ^ (n + 1)) =
      (1 - PowerSeries.X) ^ n * (us.map fun u => PowerSeries.mk u).prod := by
    have := PowerSeries.mk_one_mul_one_sub_eq_one ℝ
    calc _ = (PowerSeries.mk 1 * (1 - PowerSeries.X)) * ((1 - PowerSeries.X) ^ n * (us.map fun u => PowerSeries.mk u).prod) := by ring
      _ = _ := by rw [this, one_mul]
  rw [e, PowerSeries.coeff_mul, Finset.Nat.sum_antidiagonal_eq_sum_range_succ
    (fun a b => PowerSeries.coeff a ((1 - PowerSeries.X : PowerSeries ℝ) ^ n) *
      PowerSeries.coeff b (us.map fun u => PowerSeries.mk u).prod)]
  rw [← List.sum_toFinset _ hnd]
  have hmaps : ∀ row ∈ L.toFinset, level + n - row.sum ∈ Finset.range (level + n + 1) := by
    intro row _
    rw [Finset.mem_range]; omega
  rw [← Finset.sum_fiberwise_of_maps_to hmaps]
  apply Finset.sum_congr rfl
  intro k hk
  rw [Finset.mem_range] at hk
  rw [coeff_one_sub_pow, ← sum_totalOrder us n (level + n - k) hlen]
  by_cases hkn : k ≤ n
  · have hset : (L.toFinset.filter fun row => level + n - row.sum = k) = (totalOrderRec (n + 1) (level + n - k)).toFinset := by
      ext row
      simp only [Finset.mem_filter, List.mem_toFinset, hmem, mem_totalOrderRec]
      omega
    rw [hset, List.sum_toFinset _ (nodup_totalOrderRec _ _), ← List.sum_map_mul_left]
    congr 1
    apply List.map_congr_left
    intro r hr
    rw [mem_totalOrderRec] at hr
    rw [hr.2, show level + n - (level + n - k) = k by omega]
  · have hset : (L.toFinset.filter fun row => level + n - row.sum = k) = ∅ := by
      ext row
      simp only [Finset.mem_filter, List.mem_toFinset, hmem, Finset.notMem_empty, iff_false]
      omega
    rw [hset, Finset.sum_empty, Nat.choose_eq_zero_of_lt (by omega)]
    simp

end EQ.Basis
