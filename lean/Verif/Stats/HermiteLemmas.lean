import Mathlib.LinearAlgebra.Lagrange
import Mathlib.Analysis.Calculus.LocalExtr.Rolle
import Mathlib.Analysis.Calculus.IteratedDeriv.Lemmas
import Mathlib.Analysis.Calculus.Deriv.Polynomial
import Mathlib.Algebra.Polynomial.Roots
import Mathlib.Data.Finset.Sort

/-!
# Hermite interpolation and its error

Lemmas for C213.
-/

namespace EQ.Stats
open Set Polynomial

/-- Between the zeros of a function lie zeros of its derivative. -/
theorem rolle_finset {a b : ℝ} {g g' : ℝ → ℝ} (hg : ContinuousOn g (Icc a b)) (hd : ∀ x ∈ Ioo a b, HasDerivAt g (g' x) x) (Z : Finset ℝ) (k : ℕ) (hk : Z.card = k + 1)
    (hZ : ∀ z ∈ Z, z ∈ Icc a b) (h0 : ∀ z ∈ Z, g z = 0) :
    ∃ Y : Finset ℝ, Y.card = k ∧ (∀ y ∈ Y, y ∈ Icc a b) ∧ (∀ y ∈ Y, g' y = 0) ∧ Disjoint Y Z := by
  set z := Z.orderEmbOfFin hk with hz
  have hmem : ∀ i, z i ∈ Z := fun i => Z.orderEmbOfFin_mem hk i
  have hlt : ∀ i : Fin k, z i.castSucc < z i.succ := fun i => z.strictMono i.castSucc_lt_succ
  have hroll : ∀ i : Fin k, ∃ c ∈ Ioo (z i.castSucc) (z i.succ), g' c = 0 := by
    intro i
    have h1 := hZ _ (hmem i.castSucc)
    have h2 := hZ _ (hmem i.succ)
    refine exists_hasDerivAt_eq_zero (hlt i) (hg.mono (Icc_subset_Icc h1.1 h2.2)) ?_ fun x hx => hd x ⟨h1.1.trans_lt hx.1, hx.2.trans_le h2.2⟩
    rw [h0 _ (hmem _), h0 _ (hmem _)]
  choose c hc hc0 using hroll
  have hmono : StrictMono c := by
    intro i j hij
    have : z i.succ ≤ z j.castSucc := z.monotone (by rw [Fin.le_def]; simpa using hij)
    exact ((hc i).2.trans_le this).trans (hc j).1
  refine ⟨Finset.univ.image c, ?_, ?_, ?_, ?_⟩
  · rw [Finset.card_image_of_injective _ hmono.injective, Finset.card_univ, Fintype.card_fin]
  · intro y hy
    obtain ⟨i, -, rfl⟩ := Finset.mem_image.1 hy
    exact ⟨(hZ _ (hmem i.castSucc)).1.trans (hc i).1.le, (hc i).2.le.trans (hZ _ (hmem i.succ)).2⟩
  · intro y hy
    obtain ⟨i, -, rfl⟩ := Finset.mem_image.1 hy
    exact hc0 i
  · rw [Finset.disjoint_left]
    intro y hy hyZ
    obtain ⟨i, -, rfl⟩ := Finset.mem_image.1 hy
    have : c i ∈ Set.range z := by rw [hz, Finset.range_orderEmbOfFin]; exact hyZ
    obtain ⟨j, hj⟩ := this
    have h1 := (hc i).1
    have h2 := (hc i).2
    rw [← hj] at h1 h2
    have h1 := z.lt_iff_lt.1 h1
    have h2 := z.lt_iff_lt.1 h2
    rw [Fin.lt_def] at h1 h2
    simp at h1 h2
    omega

/-- `k` derivatives further there is still a zero. -/
theorem rolle_iterate {a b : ℝ} (G : ℕ → ℝ → ℝ) (N : ℕ) (hc : ∀ k ≤ N, ContinuousOn (G k) (Icc a b)) (hd : ∀ k < N, ∀ x ∈ Ioo a b, HasDerivAt (G k) (G (k + 1) x) x) :
    ∀ (j k : ℕ), k + j ≤ N → ∀ Z : Finset ℝ, Z.card = j + 1 → (∀ z ∈ Z, z ∈ Icc a b) → (∀ z ∈ Z, G k z = 0) → ∃ ξ ∈ Icc a b, G (k + j) ξ = 0 := by
  intro j
  induction j with
  | zero =>
    intro k _ Z hZ hm h0
    obtain ⟨z, hz⟩ := Finset.card_pos.1 (by omega : 0 < Z.card)
    exact ⟨z, hm z hz, h0 z hz⟩
  | succ j ih =>
    intro k hk Z hZ hm h0
    obtain ⟨Y, y1, y2, y3, -⟩ := rolle_finset (hc k (by omega)) (hd k (by omega)) Z (j + 1) hZ hm h0
    obtain ⟨ξ, h1, h2⟩ := ih (k + 1) (by omega) Y y1 y2 y3
    exact ⟨ξ, h1, by rw [show k + (j + 1) = k + 1 + j by omega]; exact h2⟩

/-- The polynomial that vanishes at the points of `S`. -/
noncomputable def nodal (S : Finset ℝ) : ℝ[X] := ∏ s ∈ S, (X - C s)

theorem nodal_monic (S : Finset ℝ) : (nodal S).Monic := monic_prod_of_monic _ _ fun s _ => monic_X_sub_C s

theorem nodal_natDegree (S : Finset ℝ) : (nodal S).natDegree = S.card := by
  unfold nodal
  rw [natDegree_prod_of_monic _ _ fun s _ => monic_X_sub_C s]
  simp

theorem nodal_eval (S : Finset ℝ) (x : ℝ) : (nodal S).eval x = ∏ s ∈ S, (x - s) := by
  unfold nodal
  rw [eval_prod]
  simp

theorem nodal_deriv_ne (S : Finset ℝ) (s : ℝ) (hs : s ∈ S) : (derivative (nodal S)).eval s ≠ 0 := by
  classical
  unfold nodal
  rw [← Finset.mul_prod_erase _ _ hs, derivative_mul]
  simp only [derivative_sub, derivative_X, derivative_C, sub_zero, one_mul, eval_add, eval_mul, eval_sub, eval_X, eval_C, sub_self, zero_mul, add_zero, eval_prod]
  refine Finset.prod_ne_zero_iff.2 fun t ht => sub_ne_zero.2 ?_
  exact (Finset.ne_of_mem_erase ht).symm

/-- Hermite's interpolation polynomial. -/
theorem exists_hermite (S : Finset ℝ) (hS : S.Nonempty) (v d : ℝ → ℝ) :
    ∃ H : ℝ[X], H.natDegree < 2 * S.card ∧ (∀ s ∈ S, H.eval s = v s) ∧ ∀ s ∈ S, (derivative H).eval s = d s := by
  have hinj : Set.InjOn (fun x : ℝ => x) (S : Set ℝ) := fun _ _ _ _ h => h
  set L := Lagrange.interpolate S (fun x => x) v with hL
  set Q := Lagrange.interpolate S (fun x => x) (fun s => (d s - (derivative L).eval s) / (derivative (nodal S)).eval s) with hQ
  have hcard := hS.card_pos
  have hdeg : ∀ r : ℝ → ℝ, (Lagrange.interpolate S (fun x => x) r).natDegree < S.card := by
    intro r
    by_cases h0 : Lagrange.interpolate S (fun x => x) r = 0
    · rw [h0]; simpa using hcard
    · exact (natDegree_lt_iff_degree_lt h0).2 (Lagrange.degree_interpolate_lt _ hinj)
  have hz : ∀ s ∈ S, (nodal S).eval s = 0 := by
    intro s hs
    rw [nodal_eval]
    exact Finset.prod_eq_zero hs (sub_self s)
  refine ⟨L + nodal S * Q, ?_, ?_, ?_⟩
  · refine lt_of_le_of_lt (natDegree_add_le _ _) (max_lt ?_ ?_)
    · have : L.natDegree < S.card := hdeg v
      omega
    · have : Q.natDegree < S.card := hdeg (fun s => (d s - (derivative L).eval s) / (derivative (nodal S)).eval s)
      refine lt_of_le_of_lt natDegree_mul_le ?_
      rw [nodal_natDegree]
      omega
  · intro s hs
    rw [eval_add, eval_mul, hz s hs, zero_mul, add_zero]
    exact Lagrange.eval_interpolate_at_node v hinj hs
  · intro s hs
    rw [derivative_add, derivative_mul, eval_add, eval_add, eval_mul, eval_mul, hz s hs, zero_mul, add_zero,
      show eval s Q = _ from Lagrange.eval_interpolate_at_node _ hinj hs]
    have := nodal_deriv_ne S s hs
    field_simp
    ring

/-- The error of Hermite's interpolation polynomial. -/
theorem hermite_error {a b : ℝ} (hab : a < b) (S : Finset ℝ) (hS : S.Nonempty) (hmem : ∀ s ∈ S, s ∈ Icc a b) (F : ℝ → ℝ) (hF : ContDiffOn ℝ (2 * S.card : ℕ) F (Icc a b)) :
    ∃ H : ℝ[X], H.natDegree < 2 * S.card ∧ (∀ s ∈ S, H.eval s = F s) ∧
      ∀ x ∈ Icc a b, ∃ ξ ∈ Icc a b, F x - H.eval x = iteratedDerivWithin (2 * S.card) F (Icc a b) ξ / (2 * S.card).factorial * ∏ s ∈ S, (x - s) ^ 2 := by
  classical
  obtain ⟨H, h1, h2, h3⟩ := exists_hermite S hS F (derivWithin F (Icc a b))
  have hu := uniqueDiffOn_Icc hab
  have hcard := hS.card_pos
  refine ⟨H, h1, h2, fun x hx => ?_⟩
  by_cases hxS : x ∈ S
  · exact ⟨x, hx, by rw [h2 x hxS, Finset.prod_eq_zero hxS (by ring)]; ring⟩
  have hπ : (nodal S).eval x ≠ 0 := by
    rw [nodal_eval]
    exact Finset.prod_ne_zero_iff.2 fun s hs => sub_ne_zero.2 fun h => hxS (h ▸ hs)
  set c : ℝ := (F x - H.eval x) / (nodal S).eval x ^ 2 with hcdef
  set p : ℝ[X] := H + C c * nodal S ^ 2 with hp
  set G : ℕ → ℝ → ℝ := fun k t => iteratedDerivWithin k F (Icc a b) t - (derivative^[k] p).eval t with hG
  have hGc : ∀ k ≤ 2 * S.card, ContinuousOn (G k) (Icc a b) := fun k hk =>
    (hF.continuousOn_iteratedDerivWithin (by exact_mod_cast hk) hu).sub (derivative^[k] p).differentiable.continuous.continuousOn
  have hGd : ∀ k < 2 * S.card, ∀ t ∈ Ioo a b, HasDerivAt (G k) (G (k + 1) t) t := by
    intro k hk t ht
    have hd := (hF.differentiableOn_iteratedDerivWithin (m := k) (by exact_mod_cast hk) hu t (Ioo_subset_Icc_self ht)).hasDerivWithinAt
    rw [← iteratedDerivWithin_succ] at hd
    have hn : Icc a b ∈ nhds t := Icc_mem_nhds ht.1 ht.2
    have := (hd.hasDerivAt hn).sub ((derivative^[k] p).hasDerivAt t)
    rw [← Function.iterate_succ_apply' derivative k p] at this
    exact this
  have hz : ∀ s ∈ S, (nodal S).eval s = 0 := by
    intro s hs
    rw [nodal_eval]
    exact Finset.prod_eq_zero hs (sub_self s)
  have hG0 : ∀ s ∈ insert x S, G 0 s = 0 := by
    intro s hs
    rw [Finset.mem_insert] at hs
    simp only [hG, iteratedDerivWithin_zero, Function.iterate_zero, id, hp, eval_add, eval_mul, eval_C, eval_pow]
    rcases hs with rfl | hs
    · rw [hcdef]; field_simp; ring
    · rw [h2 s hs, hz s hs]; ring
  have hG1 : ∀ s ∈ S, G 1 s = 0 := by
    intro s hs
    simp only [hG, iteratedDerivWithin_one, Function.iterate_one, hp, derivative_add, derivative_C_mul, eval_add, eval_mul, eval_C, derivative_pow, eval_pow, hz s hs, h3 s hs]
    simp
  obtain ⟨Y, y1, y2, y3, y4⟩ := rolle_finset (hGc 0 (by omega)) (hGd 0 (by omega)) (insert x S) S.card (by rw [Finset.card_insert_of_notMem hxS])
    (by intro z hz; rcases Finset.mem_insert.1 hz with rfl | h; exacts [hx, hmem z h]) hG0
  have hdis : Disjoint Y S := y4.mono_right (Finset.subset_insert x S)
  obtain ⟨ξ, hξ, h0⟩ := rolle_iterate G (2 * S.card) hGc hGd (2 * S.card - 1) 1 (by omega) (Y ∪ S) (by rw [Finset.card_union_of_disjoint hdis, y1]; omega)
    (by intro z hz; rcases Finset.mem_union.1 hz with h | h; exacts [y2 z h, hmem z h])
    (by intro z hz; rcases Finset.mem_union.1 hz with h | h; exacts [y3 z h, hG1 z h])
  rw [show 1 + (2 * S.card - 1) = 2 * S.card by omega] at h0
  refine ⟨ξ, hξ, ?_⟩
  have hder : (derivative^[2 * S.card] p).eval ξ = c * (2 * S.card).factorial := by
    have hdp : (nodal S ^ 2).natDegree = 2 * S.card := by rw [(nodal_monic S).natDegree_pow, nodal_natDegree]
    have hmon : (nodal S ^ 2).Monic := (nodal_monic S).pow 2
    rw [hp, iterate_map_add, iterate_derivative_eq_zero h1, zero_add, iterate_derivative_C_mul, eval_mul, eval_C]
    congr 1
    have hdeg : (derivative^[2 * S.card] (nodal S ^ 2)).natDegree ≤ 0 := by
      have := natDegree_iterate_derivative (nodal S ^ 2) (2 * S.card)
      rw [hdp] at this
      omega
    rw [eq_C_of_natDegree_le_zero hdeg, eval_C, coeff_iterate_derivative, zero_add, Nat.descFactorial_self]
    have : (nodal S ^ 2).coeff (2 * S.card) = 1 := by
      rw [← hdp]; exact hmon
    rw [this]
    simp
  simp only [hG] at h0
  rw [hder, sub_eq_zero] at h0
  rw [h0, mul_div_assoc, div_self (by exact_mod_cast (Nat.factorial_pos _).ne'), mul_one, hcdef, Finset.prod_pow, ← nodal_eval]
  field_simp

end EQ.Stats
