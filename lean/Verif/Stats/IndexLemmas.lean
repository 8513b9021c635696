import Verif.Stats.DensityLemmas
import Verif.Poly.BoxFit

/-!
# Index sets of equal orders

Lemmas for C178 and C179.
-/

namespace EQ.Stats
open EQ.Param EQ.Basis EQ.Basis.Spec EQ.Sampling EQ.Poly EQ.Poly.Spec EQ.Stats.Spec

theorem single_order {a b : ℕ} (h : GradedLt [a] [b] ∨ Basis.Spec.LexLt [a] [b]) : a < b := by
  have hl : Basis.Spec.LexLt [a] [b] → a < b := by
    rintro ⟨pre, x, y, s, t, h1, h2, hxy⟩
    cases pre with
    | nil =>
      simp only [List.nil_append, List.cons.injEq] at h1 h2
      omega
    | cons p ps => simp at h1
  rcases h with (h | ⟨-, h⟩) | h
  · simpa using h
  · exact hl h
  · exact hl h

/-- One dimension: an ordered list of the rows up to `n`. -/
theorem one_dimension (els : List (List ℕ)) (n : ℕ) (hp : els.Pairwise fun a b => GradedLt a b ∨ Basis.Spec.LexLt a b)
    (hmem : ∀ row, row ∈ els ↔ ∃ k ≤ n, row = [k]) : els = (List.range (n + 1)).map fun i => [i] := by
  have e : els = (els.map fun r => r.headD 0).map fun i => [i] := by
    rw [List.map_map]
    conv_lhs => rw [← List.map_id els]
    apply List.map_congr_left
    intro r hr
    obtain ⟨k, -, rfl⟩ := (hmem r).1 hr
    rfl
  rw [e]
  congr 1
  have hs : (els.map fun r => r.headD 0).Pairwise (· < ·) := by
    rw [List.pairwise_map]
    refine hp.imp_of_mem fun ha hb h => ?_
    obtain ⟨k, -, rfl⟩ := (hmem _).1 ha
    obtain ⟨k', -, rfl⟩ := (hmem _).1 hb
    exact single_order h
  apply List.Perm.eq_of_pairwise' (r := (· < ·)) hs List.pairwise_lt_range
  rw [List.perm_ext_iff_of_nodup (hs.imp fun h => h.ne) List.nodup_range]
  intro k
  rw [List.mem_map, List.mem_range]
  constructor
  · rintro ⟨r, hr, rfl⟩
    obtain ⟨k, hk, rfl⟩ := (hmem r).1 hr
    simp; omega
  · intro hk
    exact ⟨[k], (hmem _).2 ⟨k, by omega, rfl⟩, rfl⟩

/-- The index sets with the order `n` in all of the `d` directions. -/
theorem els_facts (r : Request) (hq : 0 < r.q) (hkind : lower r.name ∈ ["tensor-grid".toList, "tensor".toList, "euclidean-degree".toList, "total-order".toList, "hyperbolic-basis".toList])
    (d n : ℕ) (hd : d ≠ 0) (ho : r.orders = List.replicate d n) :
    ∃ els, r.setOrders = .ok els ∧ els.head? = some (List.replicate d 0) ∧ els.Nodup ∧ (∀ row ∈ els, row.length = d ∧ List.Forall₂ (· ≤ ·) row r.orders) ∧
      (d = 1 → els = (List.range (n + 1)).map fun i => [i]) ∧
      ∀ row : List ℕ, row.length = d → row.sum ≤ n → (row.map fun a : ℕ => (a : ℝ) ^ r.q).sum ≤ (n : ℝ) ^ r.q → row ∈ els := by
  have hne : r.orders ≠ [] := by rw [ho]; simpa using hd
  have hol : r.orders.length = d := by rw [ho]; simp
  have hmx : ∀ m, MaxOf m r.orders → m = n := by
    intro m hm
    have := hm.1; rw [ho] at this; exact (List.mem_replicate.1 this).2
  have hb : ∀ row : List ℕ, row.length = d → row.sum ≤ n → List.Forall₂ (· ≤ ·) row r.orders := by
    intro row hl hs
    rw [ho, forall2_replicate]
    refine ⟨hl, fun x hx => ?_⟩
    have := List.single_le_sum (l := row) (by simp) x hx
    omega
  have hsq : ∀ row : List ℕ, (row.map fun a => a ^ 2).sum ≤ row.sum ^ 2 := by
    intro row
    induction row with
    | nil => simp
    | cons a row ih => simp only [List.map_cons, List.sum_cons]; nlinarith [Nat.zero_le (a * row.sum)]
  have main : ∃ els, r.setOrders = .ok els ∧ els.head? = some (List.replicate d 0) ∧ els.Nodup ∧ (∀ row ∈ els, row.length = d ∧ List.Forall₂ (· ≤ ·) row r.orders) ∧
      (els.Pairwise fun a b => GradedLt a b ∨ Basis.Spec.LexLt a b) ∧
      ∀ row : List ℕ, row.length = d → row.sum ≤ n → (row.map fun a : ℕ => (a : ℝ) ^ r.q).sum ≤ (n : ℝ) ^ r.q → row ∈ els := by
    have tensor : ∃ L, tensorGridBasis r.orders = .ok L ∧ L.head? = some (List.replicate d 0) ∧ L.Nodup ∧ (∀ row ∈ L, row.length = d ∧ List.Forall₂ (· ≤ ·) row r.orders) ∧
      (L.Pairwise fun a b => GradedLt a b ∨ Basis.Spec.LexLt a b) ∧
      ∀ row : List ℕ, row.length = d → row.sum ≤ n → (row.map fun a : ℕ => (a : ℝ) ^ r.q).sum ≤ (n : ℝ) ^ r.q → row ∈ L := by
      obtain ⟨L, e, hmem, hnd, -, hpw, hh⟩ := c02_tensor_grid _ hne
      refine ⟨L, e, by rw [hh, hol]; rfl, hnd, fun row hr => ⟨by rw [((hmem row).1 hr).length_eq, hol], (hmem row).1 hr⟩, hpw.imp fun h => .inr h,
        fun row hl hs _ => (hmem row).2 (hb row hl hs)⟩
    simp only [List.mem_cons, List.not_mem_nil, or_false] at hkind
    rcases hkind with h | h | h | h | h
    · have e : r.setOrders = tensorGridBasis r.orders := by
        unfold Request.setOrders; simp only [h]; rw [if_neg (by decide), if_neg (by decide), if_neg (by decide), if_pos (.inl trivial)]
      rw [e]; exact tensor
    · have e : r.setOrders = tensorGridBasis r.orders := by
        unfold Request.setOrders; simp only [h]; rw [if_neg (by decide), if_neg (by decide), if_neg (by decide), if_pos (.inr trivial)]
      rw [e]; exact tensor
    · have e : r.setOrders = euclideanDegreeBasis r.orders := by
        unfold Request.setOrders; simp only [h]
        rw [if_neg (by decide), if_neg (by decide), if_neg (by decide), if_neg (by decide), if_neg (by decide), if_pos trivial]
      rw [e]
      obtain ⟨L, m, e, hm, hmem, hnd, hpw, hh⟩ := c03_euclidean _ hne
      obtain rfl := hmx m hm
      refine ⟨L, e, by rw [hh, hol]; rfl, hnd, fun row hr => ⟨by rw [((hmem row).1 hr).1.length_eq, hol], ((hmem row).1 hr).1⟩, hpw.imp fun h => .inr h,
        fun row hl hs _ => (hmem row).2 ⟨hb row hl hs, (hsq row).trans (Nat.pow_le_pow_left hs 2)⟩⟩
    · have e : r.setOrders = totalOrderBasis r.orders := by unfold Request.setOrders; simp only [h, if_true]
      rw [e]
      obtain ⟨L, m, e, hm, hmem, hnd, -, hpw, hh⟩ := c01_total_order _ hne
      obtain rfl := hmx m hm
      refine ⟨L, e, by rw [hh, hol]; rfl, hnd, fun row hr => ?_, hpw.imp fun h => .inl h, fun row hl hs _ => (hmem row).2 ⟨hl.trans hol.symm, hs⟩⟩
      have := (hmem row).1 hr
      exact ⟨this.1.trans hol, hb row (this.1.trans hol) this.2⟩
    · have e : r.setOrders = hyperbolicBasis r.orders r.q := by
        unfold Request.setOrders; simp only [h]; rw [if_neg (by decide), if_neg (by decide), if_neg (by decide), if_neg (by decide), if_pos trivial]
      rw [e]
      obtain ⟨L, m, e, hm, hmem, hnd, hpw, hh⟩ := c04_hyperbolic _ r.q hq hne
      obtain rfl := hmx m hm
      refine ⟨L, e, by rw [hh, hol]; rfl, hnd, fun row hr => ?_, hpw.imp fun h => .inl h, fun row hl hs hs' => (hmem row).2 ⟨hl.trans hol.symm, hs, hs'⟩⟩
      have := (hmem row).1 hr
      exact ⟨this.1.trans hol, hb row (this.1.trans hol) this.2.1⟩
  obtain ⟨els, h1, h2, h3, h4, h5, h6⟩ := main
  refine ⟨els, h1, h2, h3, h4, fun h => ?_, h6⟩
  subst h
  apply one_dimension els n h5
  intro row
  constructor
  · intro hr
    obtain ⟨hl, hf⟩ := h4 row hr
    obtain ⟨k, rfl⟩ := List.length_eq_one_iff.1 hl
    rw [ho] at hf
    exact ⟨k, by simpa using hf, rfl⟩
  · rintro ⟨k, hk, rfl⟩
    refine h6 [k] rfl (by simpa using hk) ?_
    simp only [List.map_cons, List.map_nil, List.sum_cons, List.sum_nil, add_zero]
    exact Real.rpow_le_rpow (by positivity) (by exact_mod_cast hk) hq.le

/-- Every row belongs to the index sets of all orders from some order on. -/
theorem row_eventually (q : ℝ) (hq : 0 < q) (row : List ℕ) :
    ∃ N, ∀ n ≥ N, row.sum ≤ n ∧ (row.map fun a : ℕ => (a : ℝ) ^ q).sum ≤ (n : ℝ) ^ q := by
  have ht : Filter.Tendsto (fun n : ℕ => (n : ℝ) ^ q) Filter.atTop Filter.atTop := (tendsto_rpow_atTop hq).comp tendsto_natCast_atTop_atTop
  obtain ⟨N, hN⟩ := Filter.eventually_atTop.1 (ht.eventually_ge_atTop (row.map fun a : ℕ => (a : ℝ) ^ q).sum)
  exact ⟨max N row.sum, fun n hn => ⟨(le_max_right _ _).trans hn, hN n ((le_max_left _ _).trans hn)⟩⟩

/-- Finitely many rows. -/
theorem rows_eventually (q : ℝ) (hq : 0 < q) {ι : Type} (s : Finset ι) (row : ι → List ℕ) :
    ∃ N, ∀ n ≥ N, ∀ i ∈ s, (row i).sum ≤ n ∧ ((row i).map fun a : ℕ => (a : ℝ) ^ q).sum ≤ (n : ℝ) ^ q := by
  choose N hN using fun i => row_eventually q hq (row i)
  exact ⟨s.sup N, fun n hn i hi => hN i n ((Finset.le_sup hi).trans hn)⟩

end EQ.Stats
