import Verif.Basis.FirstProps

/-!
# Index sets are nested and symmetric (C167)
-/

namespace EQ.Basis
open Spec

/-! ## Specification -/

/-- The row `row` with its entries rearranged by `σ`: entry `i` is entry `σ i` of `row`. -/
def arrange {d : ℕ} (σ : Equiv.Perm (Fin d)) (row : Fin d → ℕ) : List ℕ := List.ofFn fun i => row (σ i)

/-! ## Lemmas -/

theorem maxOf_le {a b : List ℕ} {m m' : ℕ} (h : Below a b) (hm : MaxOf m a) (hm' : MaxOf m' b) : m ≤ m' := by
  obtain ⟨i, hi, rfl⟩ := List.getElem_of_mem hm.1
  have hl := h.length_eq
  have := (List.forall₂_iff_get.1 h).2 i hi (by omega)
  exact this.trans (hm'.2 _ (List.getElem_mem _))

theorem below_ofFn {d : ℕ} (a b : Fin d → ℕ) : Below (List.ofFn a) (List.ofFn b) ↔ ∀ i, a i ≤ b i := by
  unfold Below
  rw [List.forall₂_iff_get]
  constructor
  · rintro ⟨-, h⟩ i
    simpa using h i (by simp) (by simp)
  · intro h
    refine ⟨by simp, fun i h1 h2 => ?_⟩
    simpa using h ⟨i, by simpa using h1⟩

theorem arrange_perm {d : ℕ} (σ : Equiv.Perm (Fin d)) (row : Fin d → ℕ) : (arrange σ row).Perm (List.ofFn row) :=
  Equiv.Perm.ofFn_comp_perm σ row

theorem maxOf_perm {a b : List ℕ} {m : ℕ} (h : a.Perm b) : MaxOf m a ↔ MaxOf m b := by
  unfold MaxOf
  rw [h.mem_iff]
  constructor
  · rintro ⟨h1, h2⟩; exact ⟨h1, fun x hx => h2 x (h.mem_iff.2 hx)⟩
  · rintro ⟨h1, h2⟩; exact ⟨h1, fun x hx => h2 x (h.mem_iff.1 hx)⟩

theorem length_le_of_subset {a b : List (List ℕ)} (hnd : a.Nodup) (h : ∀ r ∈ a, r ∈ b) : a.length ≤ b.length :=
  (List.Nodup.subperm hnd h).length_le

/-! ## Properties -/

/-- C167. Raising orders never removes a multi-index: each kind of index set for the lower orders is contained in the one for the higher orders. -/
theorem c167_orders (o o' : List ℕ) (hne : o ≠ []) (h : Below o o') (q : ℝ) (hq : 0 < q) :
    ∃ T T' H H' E E' G G', totalOrderBasis o = .ok T ∧ totalOrderBasis o' = .ok T' ∧ hyperbolicBasis o q = .ok H ∧ hyperbolicBasis o' q = .ok H' ∧
      euclideanDegreeBasis o = .ok E ∧ euclideanDegreeBasis o' = .ok E' ∧ tensorGridBasis o = .ok G ∧ tensorGridBasis o' = .ok G' ∧
      T ⊆ T' ∧ H ⊆ H' ∧ E ⊆ E' ∧ G ⊆ G' ∧ T.length ≤ T'.length ∧ H.length ≤ H'.length ∧ E.length ≤ E'.length ∧ G.length ≤ G'.length := by
  have hl := h.length_eq
  have hne' : o' ≠ [] := by rintro rfl; exact hne (List.length_eq_zero_iff.1 hl)
  obtain ⟨T, m1, t1, t2, t3, t4, -⟩ := c01_total_order o hne
  obtain ⟨T', m1', t1', t2', t3', -⟩ := c01_total_order o' hne'
  obtain ⟨H, m2, a1, a2, a3, a4, -⟩ := c04_hyperbolic o q hq hne
  obtain ⟨H', m2', a1', a2', a3', -⟩ := c04_hyperbolic o' q hq hne'
  obtain ⟨E, m3, e1, e2, e3, e4, -⟩ := c03_euclidean o hne
  obtain ⟨E', m3', e1', e2', e3', -⟩ := c03_euclidean o' hne'
  obtain ⟨G, g1, g2, g3, -⟩ := c02_tensor_grid o hne
  obtain ⟨G', g1', g2', -⟩ := c02_tensor_grid o' hne'
  have hT : T ⊆ T' := fun row hr => by
    have := (t3 row).1 hr
    exact (t3' row).2 ⟨by omega, this.2.trans (maxOf_le h t2 t2')⟩
  have hH : H ⊆ H' := fun row hr => by
    have hr := (a3 row).1 hr
    have hm := maxOf_le h a2 a2'
    refine (a3' row).2 ⟨by omega, hr.2.1.trans hm, hr.2.2.trans ?_⟩
    exact Real.rpow_le_rpow (Nat.cast_nonneg _) (by exact_mod_cast hm) hq.le
  have hE : E ⊆ E' := fun row hr => by
    have hr := (e3 row).1 hr
    exact (e3' row).2 ⟨Below.trans hr.1 h, hr.2.trans (Nat.pow_le_pow_left (maxOf_le h e2 e2') 2)⟩
  have hG : G ⊆ G' := fun row hr => (g2' row).2 (Below.trans ((g2 row).1 hr) h)
  exact ⟨T, T', H, H', E, E', G, G', t1, t1', a1, a1', e1, e1', g1, g1', hT, hH, hE, hG, length_le_of_subset t4 hT, length_le_of_subset a4 hH,
    length_le_of_subset e4 hE, length_le_of_subset g3 hG⟩

/-- C167. With the same order in every direction, the kinds of index sets are nested: hyperbolic (any `q`) in total order in Euclidean degree in tensor
grid. -/
theorem c167_kinds (d n : ℕ) (hd : d ≠ 0) (q : ℝ) (hq : 0 < q) :
    ∃ H T E G, hyperbolicBasis (List.replicate d n) q = .ok H ∧ totalOrderBasis (List.replicate d n) = .ok T ∧
      euclideanDegreeBasis (List.replicate d n) = .ok E ∧ tensorGridBasis (List.replicate d n) = .ok G ∧ H ⊆ T ∧ T ⊆ E ∧ E ⊆ G := by
  have hne : List.replicate d n ≠ [] := by simpa using hd
  obtain ⟨T, m1, t1, t2, t3, -⟩ := c01_total_order _ hne
  obtain ⟨H, m2, a1, a2, a3, -⟩ := c04_hyperbolic _ q hq hne
  obtain ⟨E, m3, e1, e2, e3, -⟩ := c03_euclidean _ hne
  obtain ⟨G, g1, g2, -⟩ := c02_tensor_grid _ hne
  refine ⟨H, T, E, G, a1, t1, e1, g1, fun row hr => ?_, fun row hr => c03_contains_total_order d n hd E T e1 t1 row hr, fun row hr => ?_⟩
  · obtain rfl := MaxOf.unique t2 a2
    exact (t3 row).2 ⟨((a3 row).1 hr).1, ((a3 row).1 hr).2.1⟩
  · exact (g2 row).2 ((e3 row).1 hr).1

/-- C167. The index sets treat the directions alike: rearranging the orders rearranges the entries of the multi-indices in the same way. -/
theorem c167_symmetric {d : ℕ} (hd : d ≠ 0) (o : Fin d → ℕ) (σ : Equiv.Perm (Fin d)) (q : ℝ) (hq : 0 < q) :
    ∃ T T' H H' E E' G G', totalOrderBasis (List.ofFn o) = .ok T ∧ totalOrderBasis (arrange σ o) = .ok T' ∧
      hyperbolicBasis (List.ofFn o) q = .ok H ∧ hyperbolicBasis (arrange σ o) q = .ok H' ∧ euclideanDegreeBasis (List.ofFn o) = .ok E ∧
      euclideanDegreeBasis (arrange σ o) = .ok E' ∧ tensorGridBasis (List.ofFn o) = .ok G ∧ tensorGridBasis (arrange σ o) = .ok G' ∧
      ∀ row : Fin d → ℕ, (arrange σ row ∈ T' ↔ List.ofFn row ∈ T) ∧ (arrange σ row ∈ H' ↔ List.ofFn row ∈ H) ∧
        (arrange σ row ∈ E' ↔ List.ofFn row ∈ E) ∧ (arrange σ row ∈ G' ↔ List.ofFn row ∈ G) := by
  have hne : List.ofFn o ≠ [] := by rw [ne_eq, List.ofFn_eq_nil_iff]; exact hd
  have hne' : arrange σ o ≠ [] := by unfold arrange; rw [ne_eq, List.ofFn_eq_nil_iff]; exact hd
  obtain ⟨T, m1, t1, t2, t3, -⟩ := c01_total_order _ hne
  obtain ⟨T', m1', t1', t2', t3', -⟩ := c01_total_order _ hne'
  obtain ⟨H, m2, a1, a2, a3, -⟩ := c04_hyperbolic _ q hq hne
  obtain ⟨H', m2', a1', a2', a3', -⟩ := c04_hyperbolic _ q hq hne'
  obtain ⟨E, m3, e1, e2, e3, -⟩ := c03_euclidean _ hne
  obtain ⟨E', m3', e1', e2', e3', -⟩ := c03_euclidean _ hne'
  obtain ⟨G, g1, g2, -⟩ := c02_tensor_grid _ hne
  obtain ⟨G', g1', g2', -⟩ := c02_tensor_grid _ hne'
  have hσ := arrange_perm σ o
  obtain rfl := MaxOf.unique t2 ((maxOf_perm hσ).1 t2')
  obtain rfl := MaxOf.unique a2 ((maxOf_perm hσ).1 a2')
  obtain rfl := MaxOf.unique e2 ((maxOf_perm hσ).1 e2')
  refine ⟨T, T', H, H', E, E', G, G', t1, t1', a1, a1', e1, e1', g1, g1', fun row => ?_⟩
  have hr := arrange_perm σ row
  have hb : Below (arrange σ row) (arrange σ o) ↔ Below (List.ofFn row) (List.ofFn o) := by
    unfold arrange
    rw [below_ofFn, below_ofFn]
    exact ⟨fun h i => by simpa using h (σ.symm i), fun h i => h (σ i)⟩
  refine ⟨?_, ?_, ?_, ?_⟩
  · rw [t3, t3', hr.sum_eq, hr.length_eq, hσ.length_eq]
  · rw [a3, a3', hr.sum_eq, hr.length_eq, hσ.length_eq, (hr.map _).sum_eq]
  · rw [e3, e3', hb, (hr.map _).sum_eq]
  · rw [g2, g2', hb]

theorem growthTo_eq {g : Growth} {r t : ℕ} (h : GrowthTo g r t) : t = if g = .linear then r else if r = 0 then 0 else 2 ^ (r - 1) := by
  induction h with
  | linear r => simp
  | exp_zero => simp
  | exp_one => simp
  | exp_double r t hr _ ih =>
    obtain ⟨s, rfl⟩ : ∃ s, r = s + 1 := ⟨r - 1, by omega⟩
    simp only [reduceCtorEq, if_false, Nat.add_eq_zero_iff, one_ne_zero, and_false, Nat.add_sub_cancel] at ih ⊢
    rw [ih, pow_succ, mul_comm]

theorem growthTo_mono {g : Growth} {a b x y : ℕ} (h : a ≤ b) (hx : GrowthTo g a x) (hy : GrowthTo g b y) : x ≤ y := by
  rw [growthTo_eq hx, growthTo_eq hy]
  split_ifs with h1 h2 h3 h3
  · exact h
  · exact le_rfl
  · exact Nat.zero_le _
  · omega
  · exact Nat.pow_le_pow_right (by norm_num) (by omega)

/-- C167. Sparse grids are nested in the level. -/
theorem c167_levels (level d : ℕ) (hd : d ≠ 0) (g : Growth) (hg : g ≠ .other) :
    ∃ i a S i' a' S', sparseGridBasis level g d = .ok (i, a, S) ∧ sparseGridBasis (level + 1) g d = .ok (i', a', S') ∧ S ⊆ S' := by
  obtain ⟨L, i, a, S, h1, h2, -, h4, -, -, h7⟩ := c08_sparse_grid_basis level d hd g hg
  obtain ⟨L', i', a', S', h1', h2', -, h4', -, -, h7'⟩ := c08_sparse_grid_basis (level + 1) d hd g hg
  refine ⟨i, a, S, i', a', S', h1, h1', fun r hr => ?_⟩
  obtain ⟨o, ho, hb⟩ := (h7 r).1 hr
  obtain ⟨k, hk, rfl⟩ := List.getElem_of_mem ho
  have hkl : k < L.length := by rw [h4.length_eq]; exact hk
  have hg1 := (List.forall₂_iff_get.1 h4).2 k hkl hk
  simp only [List.get_eq_getElem] at hg1
  have hrow := (h2 _).1 (List.getElem_mem hkl)
  -- a row of the next level above it
  obtain ⟨row', hmem', hbel⟩ : ∃ row' ∈ L', Below L[k] row' := by
    by_cases hs : level + 1 ≤ L[k].sum
    · exact ⟨L[k], (h2' _).2 ⟨hrow.1, hs, by omega⟩, List.forall₂_same.2 fun _ _ => le_rfl⟩
    · cases hc : L[k] with
      | nil => rw [hc] at hrow; simp at hrow; omega
      | cons x xs =>
        rw [hc] at hrow hs
        refine ⟨(x + 1) :: xs, (h2' _).2 ⟨by simpa using hrow.1, ?_, ?_⟩, .cons (by omega) (List.forall₂_same.2 fun _ _ => le_rfl)⟩
        · simp at hrow ⊢; omega
        · simp at hrow hs ⊢; omega
  obtain ⟨k', hk', rfl⟩ := List.getElem_of_mem hmem'
  have hk'i : k' < i'.length := by rw [← h4'.length_eq]; exact hk'
  have hg2 := (List.forall₂_iff_get.1 h4').2 k' hk' hk'i
  simp only [List.get_eq_getElem] at hg2
  refine (h7' r).2 ⟨i'[k'], List.getElem_mem _, Below.trans hb ?_⟩
  have l1 := hg1.length_eq
  have l2 := hg2.length_eq
  have l3 := hbel.length_eq
  refine List.forall₂_iff_get.2 ⟨by omega, fun j j1 j2 => ?_⟩
  exact growthTo_mono ((List.forall₂_iff_get.1 hbel).2 j (by omega) (by omega)) ((List.forall₂_iff_get.1 hg1).2 j (by omega) j1)
    ((List.forall₂_iff_get.1 hg2).2 j (by omega) j2)

/-- Orders below others, and a rearrangement that changes the orders. -/
example : Below [2, 1] [3, 1] ∧ arrange (Equiv.swap 0 1) ![2, 1] = [1, 2] := by
  refine ⟨by simp [Below], ?_⟩
  simp [arrange]

end EQ.Basis
