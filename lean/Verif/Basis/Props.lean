import Verif.Basis.SortLemmas
import Verif.Basis.SparseLemmas
import Verif.Basis.HyperLemmas
import Mathlib.Tactic.FinCases

/-!
# Property theorems for index sets (C01–C09 and the additions C74, C75)
-/

namespace EQ.Basis
open Spec

/-! ## C01 -/

/-- C01. The total-order index set: exactly the multi-indices of total degree at most the
largest order, each once, in graded lexicographic order, `C(m+d, d)` of them, zero first. -/
theorem c01_total_order (orders : List ℕ) (hne : orders ≠ []) :
    ∃ L m, totalOrderBasis orders = .ok L ∧ MaxOf m orders ∧
      (∀ row : List ℕ, row ∈ L ↔ row.length = orders.length ∧ row.sum ≤ m) ∧
      L.Nodup ∧
      L.length = (m + orders.length).choose orders.length ∧
      L.Pairwise GradedLt ∧
      L.head? = some (zeroRow orders.length) := by
  obtain ⟨m, hm, hmax⟩ := npMax_ok hne
  have hd : orders.length ≠ 0 := by simpa using hne
  refine ⟨_, m, totalOrderBasis_eq hm, hmax, mem_totalOrderList _ _ hd, ?_,
    length_totalOrderList _ _ hd, graded_totalOrderList _ _ hd, rfl⟩
  exact pairwise_nodup_of gradedLt_irrefl (graded_totalOrderList _ _ hd)

/-- C01, error branch: no orders at all is rejected. -/
theorem c01_total_order_empty : totalOrderBasis [] = .error .valueError := rfl

example : totalOrderBasis [2, 1] =
    .ok [[0, 0], [0, 1], [1, 0], [0, 2], [1, 1], [2, 0]] := by rfl

/-! ## C02 -/

/-- C02. The tensor-grid index set: exactly the box below `orders`, each index once, in
lexicographic order, `∏ (o_i + 1)` of them, zero first. -/
theorem c02_tensor_grid (orders : List ℕ) (hne : orders ≠ []) :
    ∃ L, tensorGridBasis orders = .ok L ∧
      (∀ row : List ℕ, row ∈ L ↔ Below row orders) ∧
      L.Nodup ∧
      L.length = (orders.map (· + 1)).prod ∧
      L.Pairwise LexLt ∧
      L.head? = some (zeroRow orders.length) := by
  cases orders with
  | nil => exact absurd rfl hne
  | cons o os =>
    refine ⟨_, rfl, mem_foldl_tensorStep _, ?_, length_foldl_tensorStep _,
      lex_foldl_tensorStep _, ?_⟩
    · exact pairwise_nodup_of lexLt_irrefl_of (lex_foldl_tensorStep _)
    · obtain ⟨tl, h⟩ := head_foldl_tensorStep (o :: os)
      rw [h]; rfl

/-- C02, error branch. -/
theorem c02_tensor_grid_empty : tensorGridBasis [] = .error .typeError := rfl

example : tensorGridBasis [1, 2] =
    .ok [[0, 0], [0, 1], [0, 2], [1, 0], [1, 1], [1, 2]] := by rfl

/-! ## C03 -/

theorem euclid_eq {orders : List ℕ} (hne : orders ≠ []) :
    ∃ M, MaxOf M (orders.map fun o => o ^ 2) ∧ euclideanDegreeBasis orders =
      .ok ((orders.foldl tensorStep [[]]).filter
        fun row => (row.map fun a => a ^ 2).sum ≤ M) := by
  have h1 : orders.map (fun o => o ^ 2) ≠ [] := by simpa using hne
  obtain ⟨M, hM, hmax⟩ := npMax_ok h1
  refine ⟨M, hmax, ?_⟩
  cases orders with
  | nil => exact absurd rfl hne
  | cons o os => simp only [euclideanDegreeBasis, tensorGridBasis, hM]; rfl

theorem maxOf_sq {orders : List ℕ} {m M : ℕ} (hm : MaxOf m orders)
    (hM : MaxOf M (orders.map fun o => o ^ 2)) : M = m ^ 2 := by
  apply le_antisymm
  · obtain ⟨x, hx, rfl⟩ := List.mem_map.1 hM.1
    exact Nat.pow_le_pow_left (hm.2 x hx) 2
  · exact hM.2 _ (List.mem_map.2 ⟨m, hm.1, rfl⟩)

/-- C03. The Euclidean-degree index set: exactly the multi-indices in the box with
`Σ n_i² ≤ max(orders)²`, each once, in lexicographic order, zero first. -/
theorem c03_euclidean (orders : List ℕ) (hne : orders ≠ []) :
    ∃ L m, euclideanDegreeBasis orders = .ok L ∧ MaxOf m orders ∧
      (∀ row : List ℕ, row ∈ L ↔ Below row orders ∧ (row.map fun a => a ^ 2).sum ≤ m ^ 2) ∧
      L.Nodup ∧ L.Pairwise LexLt ∧ L.head? = some (zeroRow orders.length) := by
  obtain ⟨M, hM, hL⟩ := euclid_eq hne
  obtain ⟨m, _, hmax⟩ := npMax_ok hne
  have hMm := maxOf_sq hmax hM
  subst hMm
  refine ⟨_, m, hL, hmax, ?_, ?_, ?_, ?_⟩
  · intro row
    simp only [List.mem_filter, mem_foldl_tensorStep, decide_eq_true_eq]
    rfl
  · exact (pairwise_nodup_of lexLt_irrefl_of (lex_foldl_tensorStep _)).filter _
  · exact (lex_foldl_tensorStep _).filter _
  · obtain ⟨tl, h⟩ := head_foldl_tensorStep orders
    rw [h, List.filter_cons]
    simp [zeroRow]

theorem sum_sq_le (row : List ℕ) : (row.map fun a => a ^ 2).sum ≤ row.sum ^ 2 := by
  induction row with
  | nil => simp
  | cons a l ih =>
    simp only [List.map_cons, List.sum_cons]
    nlinarith [Nat.zero_le (a * l.sum)]

/-- C03. With equal orders in all directions the Euclidean set contains the total-order set. -/
theorem c03_contains_total_order (d h : ℕ) (hd : d ≠ 0) (L T : List (List ℕ))
    (hL : euclideanDegreeBasis (List.replicate d h) = .ok L)
    (hT : totalOrderBasis (List.replicate d h) = .ok T) : ∀ row ∈ T, row ∈ L := by
  have hne : List.replicate d h ≠ [] := by simpa using hd
  obtain ⟨L', m, h1, h2, h3, _⟩ := c03_euclidean _ hne
  obtain ⟨T', m', h4, h5, h6, _⟩ := c01_total_order _ hne
  rw [hL] at h1; rw [hT] at h4
  injection h1 with h1; injection h4 with h4
  subst h1 h4
  have hm : m = h := by
    have := h2.1; simp at this; exact this.2
  have hm' : m' = h := by
    have := h5.1; simp at this; exact this.2
  intro row hrow
  rw [h6] at hrow
  rw [h3]
  refine ⟨?_, ?_⟩
  · rw [Below, forall2_replicate]
    refine ⟨by simpa using hrow.1, fun x hx => ?_⟩
    have := List.single_le_sum (l := row) (by simp) x hx
    omega
  · calc _ ≤ row.sum ^ 2 := sum_sq_le row
      _ ≤ m ^ 2 := Nat.pow_le_pow_left (by omega) 2

example : euclideanDegreeBasis [2, 2] =
    .ok [[0, 0], [0, 1], [0, 2], [1, 0], [1, 1], [2, 0]] := by rfl

/-! ## C04 -/

/-- C04. The hyperbolic index set is exactly the total-order rows with
`Σ n_i^q ≤ max(orders)^q` (the `q`-quasi-norm condition without the outer root), in graded
lexicographic order, zero first. Holds for every `q > 0`. -/
theorem c04_hyperbolic (orders : List ℕ) (q : ℝ) (hq : 0 < q) (hne : orders ≠ []) :
    ∃ L m, hyperbolicBasis orders q = .ok L ∧ MaxOf m orders ∧
      (∀ row : List ℕ, row ∈ L ↔
        row.length = orders.length ∧ row.sum ≤ m ∧
          (row.map fun n : ℕ => (n : ℝ) ^ q).sum ≤ (m : ℝ) ^ q) ∧
      L.Nodup ∧ L.Pairwise GradedLt ∧ L.head? = some (zeroRow orders.length) := by
  obtain ⟨m, hm, hmax⟩ := npMax_ok hne
  have hd : orders.length ≠ 0 := by simpa using hne
  refine ⟨_, m, hyperbolicBasis_eq hm, hmax, ?_, ?_, ?_, ?_⟩
  · intro row
    simp only [List.mem_filter, decide_eq_true_eq]
    rw [mem_totalOrderList _ _ hd, and_assoc]
    have : qnorm q row ≤ (m : ℝ) ↔ (row.map fun n : ℕ => (n : ℝ) ^ q).sum ≤ (m : ℝ) ^ q := by
      rw [show (row.map fun n : ℕ => (n : ℝ) ^ q).sum = qnorm q row ^ q from (qnorm_rpow hq row).symm]
      exact (Real.rpow_le_rpow_iff (qnorm_nonneg q row) (Nat.cast_nonneg m) hq).symm
    rw [this]
  · exact (pairwise_nodup_of gradedLt_irrefl (graded_totalOrderList _ _ hd)).filter _
  · exact (graded_totalOrderList _ _ hd).filter _
  · rw [List.filter_cons, if_pos]
    · rfl
    · simp [qnorm_zero hq]

/-- C04. For `q = 1`, indeed for every `q ≥ 1`, it is the total-order list itself. -/
theorem c04_hyperbolic_is_total_order (orders : List ℕ) (q : ℝ) (hq : 1 ≤ q) :
    hyperbolicBasis orders q = totalOrderBasis orders := by
  cases orders with
  | nil => rfl
  | cons o os =>
    have hne : o :: os ≠ [] := by simp
    obtain ⟨m, hm, hmax⟩ := npMax_ok hne
    rw [hyperbolicBasis_eq hm, totalOrderBasis_eq hm]
    congr 1
    rw [List.filter_eq_self]
    intro row hrow
    rw [mem_totalOrderList _ _ (by simp)] at hrow
    simp only [decide_eq_true_eq]
    calc qnorm q row ≤ qnorm 1 row := qnorm_antitone one_pos hq row
      _ = row.sum := qnorm_one row
      _ ≤ m := by exact_mod_cast hrow.2

/-- C04. The set shrinks (as a sublist, so the relative order is kept) when `q` decreases. -/
theorem c04_hyperbolic_mono (orders : List ℕ) (p q : ℝ) (hp : 0 < p) (hpq : p ≤ q)
    (hne : orders ≠ []) :
    ∃ Lp Lq, hyperbolicBasis orders p = .ok Lp ∧ hyperbolicBasis orders q = .ok Lq ∧
      Lp.Sublist Lq := by
  obtain ⟨m, hm, _⟩ := npMax_ok hne
  refine ⟨_, _, hyperbolicBasis_eq hm, hyperbolicBasis_eq hm, ?_⟩
  apply List.monotone_filter_right
  intro row
  simp only [decide_eq_true_eq]
  intro h
  exact le_trans (qnorm_antitone hp hpq row) h

/-- C04. Every pure power up to the largest order is kept, whatever `q > 0`. -/
theorem c04_pure_powers (orders : List ℕ) (q : ℝ) (hq : 0 < q) (L : List (List ℕ)) (m : ℕ)
    (hL : hyperbolicBasis orders q = .ok L) (hmax : MaxOf m orders) (i n : ℕ)
    (hi : i < orders.length) (hn : n ≤ m) : purePower orders.length i n ∈ L := by
  have hne : orders ≠ [] := by rintro rfl; simp at hi
  obtain ⟨m', hm, hmax'⟩ := npMax_ok hne
  obtain rfl := MaxOf.unique hmax hmax'
  rw [hyperbolicBasis_eq hm] at hL
  injection hL with hL
  subst hL
  have hd : orders.length ≠ 0 := by omega
  simp only [List.mem_filter, decide_eq_true_eq]
  rw [mem_totalOrderList _ _ hd]
  have hsum : (purePower orders.length i n).sum = n := by
    have h1 := qnorm_one (purePower orders.length i n)
    rw [qnorm_purePower one_pos _ _ _ hi] at h1
    exact_mod_cast h1.symm
  refine ⟨⟨by simp [purePower], by omega⟩, ?_⟩
  rw [qnorm_purePower hq _ _ _ hi]
  exact_mod_cast hn

example : ∃ q : ℝ, 0 < q ∧ ([2, 2] : List ℕ) ≠ [] ∧ MaxOf 2 [2, 2] ∧
    purePower 2 1 2 = [0, 2] := ⟨1 / 2, by norm_num, by simp, by simp [MaxOf], rfl⟩

/-! ## C05 -/

theorem Below.length_eq {a b : List ℕ} (h : Below a b) : a.length = b.length :=
  List.Forall₂.length_eq h

theorem Below.trans {a b c : List ℕ} (h1 : Below a b) (h2 : Below b c) : Below a c := by
  induction h1 generalizing c with
  | nil => cases h2; exact .nil
  | cons hab _ ih =>
    cases h2 with
    | cons hbc hrest => exact .cons (le_trans hab hbc) (ih hrest)

theorem below_sumsq_le {a b : List ℕ} (h : Below a b) :
    (a.map fun x => x ^ 2).sum ≤ (b.map fun x => x ^ 2).sum := by
  induction h with
  | nil => simp
  | cons hab _ ih =>
    simp only [List.map_cons, List.sum_cons]
    have := Nat.pow_le_pow_left hab 2
    omega

/-- C05, total order. -/
theorem c05_total_order_downclosed (orders : List ℕ) (L : List (List ℕ))
    (h : totalOrderBasis orders = .ok L) : DownClosed L := by
  have hne : orders ≠ [] := by rintro rfl; cases h
  obtain ⟨L', m, h1, _, h3, _⟩ := c01_total_order orders hne
  rw [h] at h1; injection h1 with h1; subst h1
  intro a b hb hab
  rw [h3] at hb ⊢
  have := below_sum_le hab
  have := hab.length_eq
  omega

/-- C05, tensor grid. -/
theorem c05_tensor_grid_downclosed (orders : List ℕ) (L : List (List ℕ))
    (h : tensorGridBasis orders = .ok L) : DownClosed L := by
  have hne : orders ≠ [] := by rintro rfl; cases h
  obtain ⟨L', h1, h3, _⟩ := c02_tensor_grid orders hne
  rw [h] at h1; injection h1 with h1; subst h1
  intro a b hb hab
  rw [h3] at hb ⊢
  exact Below.trans hab hb

/-- C05, Euclidean degree. -/
theorem c05_euclidean_downclosed (orders : List ℕ) (L : List (List ℕ))
    (h : euclideanDegreeBasis orders = .ok L) : DownClosed L := by
  have hne : orders ≠ [] := by rintro rfl; cases h
  obtain ⟨L', m, h1, _, h3, _⟩ := c03_euclidean orders hne
  rw [h] at h1; injection h1 with h1; subst h1
  intro a b hb hab
  rw [h3] at hb ⊢
  exact ⟨Below.trans hab hb.1, le_trans (below_sumsq_le hab) hb.2⟩

/-- C05, hyperbolic, every `q > 0`. -/
theorem c05_hyperbolic_downclosed (orders : List ℕ) (q : ℝ) (hq : 0 < q) (L : List (List ℕ))
    (h : hyperbolicBasis orders q = .ok L) : DownClosed L := by
  have hne : orders ≠ [] := by rintro rfl; cases h
  obtain ⟨m, hm, _⟩ := npMax_ok hne
  have hd : orders.length ≠ 0 := by simpa using hne
  rw [hyperbolicBasis_eq hm] at h; injection h with h; subst h
  intro a b hb hab
  simp only [List.mem_filter, decide_eq_true_eq, mem_totalOrderList _ _ hd] at hb ⊢
  have h1 := below_sum_le hab
  have h2 := hab.length_eq
  exact ⟨⟨by omega, by omega⟩, le_trans (qnorm_mono hq hab) hb.2⟩

example : Below [1, 0] [1, 1] ∧ ([1, 1] : List ℕ) ∈ [[0, 0], [0, 1], [1, 0], [0, 2], [1, 1], [2, 0]] :=
  ⟨by simp [Below], by simp⟩

/-! ## C06 -/

/-- A concrete `argsort` meeting the contract (stable insertion sort of positions by key); it
shows that the hypothesis of the next theorems is satisfiable. -/
def stableArgsort (keys : List ℕ) : List ℕ :=
  (List.range keys.length).insertionSort fun i j => keys.getD i 0 ≤ keys.getD j 0

theorem stableArgsort_contract : ArgsortContract stableArgsort where
  perm keys := List.perm_insertionSort _ _
  sorted keys := by
    rw [List.pairwise_map]
    have : Std.Total (fun i j : ℕ => keys.getD i 0 ≤ keys.getD j 0) := ⟨fun a b => le_total _ _⟩
    have : IsTrans ℕ (fun i j : ℕ => keys.getD i 0 ≤ keys.getD j 0) :=
      ⟨fun a b c => le_trans⟩
    exact List.pairwise_insertionSort _ _

/-- C06. `sort` permutes the rows, orders them by the decimal key of their sorted entries, and
puts the zero multi-index first if it is present — for every admissible tie-breaking. -/
theorem c06_sort (argsort : List ℕ → List ℕ) (hc : ArgsortContract argsort) (d : ℕ)
    (els : List (List ℕ)) (hlen : ∀ r ∈ els, r.length = d) :
    (sortElements argsort els).Perm els ∧
      (sortElements argsort els).Pairwise (fun a b => ∀ sa sb, IsSortedRow a sa →
        IsSortedRow b sb → decimalKey sa ≤ decimalKey sb) ∧
      (zeroRow d ∈ els → (sortElements argsort els).head? = some (zeroRow d)) := by
  have hp := sortElements_perm hc els
  have hs := sortElements_sorted hc els
  refine ⟨hp, ?_, ?_⟩
  · refine hs.imp ?_
    intro a b hab sa sb ha hb
    rwa [sortKey_eq ha, sortKey_eq hb] at hab
  · intro hz
    have hz' := hp.mem_iff.2 hz
    cases hL : sortElements argsort els with
    | nil => rw [hL] at hz'; simp at hz'
    | cons r rs =>
      rw [hL] at hz' hs
      have hkz : sortKey (zeroRow d) = 0 := by
        rw [sortKey_eq_zero]; simp [zeroRow]
      have hkr : sortKey r = 0 := by
        rcases List.mem_cons.1 hz' with h | h
        · rw [← h]; exact hkz
        · have := (List.pairwise_cons.1 hs).1 _ h
          omega
      rw [sortKey_eq_zero] at hkr
      have : r.length = d := hlen r (hp.mem_iff.1 (by rw [hL]; simp))
      rw [this] at hkr
      simp [hkr]

example : ∃ argsort, ArgsortContract argsort ∧
    (∀ r ∈ ([[1, 1], [0, 0], [2, 0]] : List (List ℕ)), r.length = 2) ∧
    zeroRow 2 ∈ ([[1, 1], [0, 0], [2, 0]] : List (List ℕ)) :=
  ⟨stableArgsort, stableArgsort_contract, by simp, by simp [zeroRow]⟩

/-! ## C07 -/

/-- C07, one call with an admissible amount: exactly `k` rows go, the kept and removed rows
together are the original ones, and no removed row has a smaller key than a kept one.
(The full property also speaks about repeated calls; see `c07_repeated_prune_violated`.) -/
theorem c07_prune_partial (argsort : List ℕ → List ℕ) (hc : ArgsortContract argsort)
    (els : List (List ℕ)) (k : ℕ) (hk : k ≤ els.length) :
    ∃ kept removed, (State.ofElements els).prune argsort k =
        ({ elements := kept, cardinality := els.length }, true) ∧
      (kept ++ removed).Perm els ∧ removed.length = k ∧
      (∀ a ∈ kept, ∀ b ∈ removed, ∀ sa sb, IsSortedRow a sa → IsSortedRow b sb →
        decimalKey sa ≤ decimalKey sb) := by
  refine ⟨(sortElements argsort els).take (els.length - k),
    (sortElements argsort els).drop (els.length - k), ?_, ?_, ?_, ?_⟩
  · exact if_neg (show ¬ els.length < k by omega)
  · rw [List.take_append_drop]; exact sortElements_perm hc els
  · rw [List.length_drop, sortElements_length hc]; omega
  · intro a ha b hb sa sb hsa hsb
    have hs := sortElements_sorted hc els
    rw [← List.take_append_drop (els.length - k) (sortElements argsort els),
      List.pairwise_append] at hs
    have := hs.2.2 a ha b hb
    rwa [sortKey_eq hsa, sortKey_eq hsb] at this

/-- C07, error branch: more rows than present is rejected and only the order may change. -/
theorem c07_prune_too_many (argsort : List ℕ → List ℕ) (hc : ArgsortContract argsort)
    (els : List (List ℕ)) (k : ℕ) (hk : els.length < k) :
    ((State.ofElements els).prune argsort k).2 = false ∧
      ((State.ofElements els).prune argsort k).1.elements.Perm els := by
  have : (State.ofElements els).prune argsort k =
      ({ elements := sortElements argsort els, cardinality := els.length }, false) := if_pos hk
  rw [this]
  exact ⟨rfl, sortElements_perm hc els⟩

/-- The rows left after a sequence of accepted prunes. -/
def pruneAll (argsort : List ℕ → List ℕ) (s : State) (ks : List ℕ) : State :=
  ks.foldl (fun s k => (s.prune argsort k).1) s

theorem prune_card (argsort : List ℕ → List ℕ) (s : State) (k : ℕ) :
    (s.prune argsort k).1.cardinality = s.cardinality := by
  unfold State.prune; dsimp only; split <;> rfl

/-- C07, what repeated pruning really does: after accepted calls `ks` on a fresh basis the
number of rows is the original number minus the *largest* request, not minus their sum. -/
theorem c07_repeated_prune_law (argsort : List ℕ → List ℕ) (hc : ArgsortContract argsort)
    (els : List (List ℕ)) (ks : List ℕ) (hks : ∀ k ∈ ks, k ≤ els.length) :
    (pruneAll argsort (State.ofElements els) ks).getCardinality
      = els.length - ks.foldr max 0 := by
  have gen : ∀ (ks : List ℕ) (s : State), (∀ k ∈ ks, k ≤ s.cardinality) →
      (pruneAll argsort s ks).elements.length
        = min s.elements.length (s.cardinality - ks.foldr max 0) ∨
      (pruneAll argsort s ks).elements.length = s.elements.length ∧ ks = [] := by
    intro ks
    induction ks with
    | nil => intro s _; right; exact ⟨rfl, rfl⟩
    | cons k ks ih =>
      intro s hs
      left
      have hk : k ≤ s.cardinality := hs k (by simp)
      have hstep : (s.prune argsort k).1.elements.length
          = min (s.cardinality - k) s.elements.length := by
        simp only [State.prune]
        rw [if_neg (by omega)]
        simp [sortElements_length hc]
      have := ih (s.prune argsort k).1 (by
        intro k' hk'
        rw [prune_card]; exact hs k' (by simp [hk']))
      rw [prune_card, hstep] at this
      simp only [pruneAll, List.foldl_cons, List.foldr_cons] at *
      rcases this with h | ⟨h, h'⟩
      · rw [h]; omega
      · subst h'
        rw [h]; simp; omega
  rcases gen ks (State.ofElements els) hks with h | ⟨h, h'⟩
  · simp only [State.getCardinality]; rw [h]; simp only [State.ofElements]; omega
  · subst h'
    simp only [State.getCardinality]; rw [h]; simp [State.ofElements]

/-- C07 is violated for histories: whenever two prunes of positive size fit into the basis,
their combined effect is not the removal of `a + b` rows (the stored cardinality is stale). -/
theorem c07_repeated_prune_violated (argsort : List ℕ → List ℕ) (hc : ArgsortContract argsort)
    (els : List (List ℕ)) (a b : ℕ) (ha : 0 < a) (hb : 0 < b) (hab : a + b ≤ els.length) :
    (pruneAll argsort (State.ofElements els) [a, b]).getCardinality ≠ els.length - (a + b) := by
  rw [c07_repeated_prune_law argsort hc els [a, b] (by intro k hk; simp at hk; omega)]
  simp; omega

example : ∃ argsort, ArgsortContract argsort ∧ 0 < 1 ∧
    1 + 1 ≤ ([[0, 0], [0, 1], [1, 0]] : List (List ℕ)).length :=
  ⟨stableArgsort, stableArgsort_contract, by norm_num, by norm_num⟩

/-! ## C74, C75: what sort and prune do to degree and to downward closure -/

/-- C74 is violated: `sort` does not list lower total degrees first (its documented purpose).
Whatever the tie-breaking, `(0,3)` of degree 3 comes after `(2,2)` of degree 4. -/
theorem c74_sort_by_total_degree_violated (argsort : List ℕ → List ℕ)
    (hc : ArgsortContract argsort) :
    ¬ (sortElements argsort [[0, 3], [2, 2]]).Pairwise (fun a b => a.sum ≤ b.sum) := by
  intro hpw
  have hp := sortElements_perm hc [[0, 3], [2, 2]]
  have hs := sortElements_sorted hc [[0, 3], [2, 2]]
  have k1 : sortKey [0, 3] = 30 := by
    rw [sortKey_eq (s := [0, 3]) ⟨List.Perm.refl _, by simp⟩]; rfl
  have k2 : sortKey [2, 2] = 22 := by
    rw [sortKey_eq (s := [2, 2]) ⟨List.Perm.refl _, by simp⟩]; rfl
  generalize sortElements argsort [[0, 3], [2, 2]] = L at *
  have hl := hp.length_eq
  match L, hl with
  | [x, y], _ =>
    simp only [List.pairwise_cons, List.mem_singleton, forall_eq] at hpw hs
    have hx : x ∈ [[0, 3], [2, 2]] := hp.mem_iff.1 (by simp)
    have hy : y ∈ [[0, 3], [2, 2]] := hp.mem_iff.1 (by simp)
    have hxy : x ≠ y := by
      have := hp.nodup_iff.2 (by simp)
      simpa using this
    simp only [List.mem_cons, List.not_mem_nil, or_false] at hx hy
    rcases hx with rfl | rfl <;> rcases hy with rfl | rfl
    · exact hxy rfl
    · rw [k1, k2] at hs; simp at hs
    · simp at hpw
    · exact hxy rfl

/-- C74, the true part: one total degree is listed consistently with the component-wise order:
a row strictly below another is always listed strictly earlier. -/
theorem c74_sort_respects_componentwise_partial (argsort : List ℕ → List ℕ)
    (hc : ArgsortContract argsort) (els : List (List ℕ)) :
    (sortElements argsort els).Pairwise (fun a b => ¬ (Below b a ∧ b ≠ a)) := by
  refine (sortElements_sorted hc els).imp ?_
  rintro a b hab ⟨h1, h2⟩
  have := sortKey_lt_of_below h1 h2
  omega

/-- C75. Pruning a downward closed index set leaves a downward closed index set, for every
tie-breaking, every stored cardinality and every amount. -/
theorem c75_prune_downclosed (argsort : List ℕ → List ℕ) (hc : ArgsortContract argsort)
    (s : State) (hd : DownClosed s.elements) (k : ℕ) :
    DownClosed (s.prune argsort k).1.elements := by
  have hp := sortElements_perm hc s.elements
  unfold State.prune
  dsimp only
  split
  · intro a b hb hab
    dsimp only at hb ⊢
    exact hp.mem_iff.2 (hd a b (hp.mem_iff.1 hb) hab)
  · intro a b hb hab
    dsimp only at hb ⊢
    by_cases hne : a = b
    · subst hne; exact hb
    · have ha := hp.mem_iff.2 (hd a b (hp.mem_iff.1 (List.mem_of_mem_take hb)) hab)
      have hs := c74_sort_respects_componentwise_partial argsort hc s.elements
      rw [← List.take_append_drop (s.cardinality - k) (sortElements argsort s.elements)] at ha hs
      rcases List.mem_append.1 ha with h | h
      · exact h
      · exact absurd ⟨hab, hne⟩ ((List.pairwise_append.1 hs).2.2 b hb a h)

example : DownClosed [[0, 0], [0, 1], [1, 0]] := by
  have := c05_total_order_downclosed [1, 1] _ rfl
  exact this

/-! ## C08 -/

/-- C08. The sparse-grid combination: the level rows are exactly the multi-indices with sum in
`[level, level + d - 1]`, each once; the coefficients returned alongside are
`(-1)^(level+d-1-Σ) C(d-1, level+d-1-Σ)` and they sum to one. -/
theorem c08_sparse_coefficients (level d : ℕ) (hd : d ≠ 0) :
    ∃ L, sparseLevels level d = .ok L ∧ L.Nodup ∧
      (∀ row : List ℕ, row ∈ L ↔
        row.length = d ∧ level ≤ row.sum ∧ row.sum ≤ level + d - 1) ∧
      (∀ row ∈ L, sparseCoeff level d row =
        (-1) ^ (level + d - 1 - row.sum) * ((d - 1).choose (level + d - 1 - row.sum) : ℚ)) ∧
      (L.map (sparseCoeff level d)).sum = 1 := by
  obtain ⟨n, rfl⟩ := Nat.exists_eq_succ_of_ne_zero hd
  have h := sparseLevels_eq level n
  refine ⟨_, h, nodup_sparseLevels level n _ h, ?_, ?_, sparse_sum_one level n _ h⟩
  · intro row
    rw [mem_sparseLevels level n _ h]
    constructor <;> (rintro ⟨h1, h2, h3⟩; exact ⟨h1, h2, by omega⟩)
  · intro row hrow
    rw [mem_sparseLevels level n _ h] at hrow
    rw [Nat.succ_eq_add_one, sparseCoeff_eq _ _ _ hrow.2.1]
    simp only [Nat.add_sub_cancel]
    rw [show level + (n + 1) - 1 = level + n by omega]

/-- What the two growth rules are meant to give: one more level is one more order (`linear`),
or a doubling that starts `0, 1, 2, 4, ...` (`exponential`). -/
inductive GrowthTo : Growth → ℕ → ℕ → Prop
  | linear (r : ℕ) : GrowthTo .linear r r
  | exp_zero : GrowthTo .exponential 0 0
  | exp_one : GrowthTo .exponential 1 1
  | exp_double (r t : ℕ) : 1 ≤ r → GrowthTo .exponential r t → GrowthTo .exponential (r + 1) (2 * t)

theorem growth_ok {g : Growth} (hg : g ≠ .other) (r : ℕ) :
    ∃ t, growth g r = .ok t ∧ GrowthTo g r t := by
  cases g with
  | other => exact absurd rfl hg
  | linear => 
    refine ⟨r, ?_, .linear r⟩
    unfold growth; split
    · next h => rw [h]
    · rfl
  | exponential =>
    match r with
    | 0 => exact ⟨0, rfl, .exp_zero⟩
    | n + 1 =>
      induction n with
      | zero => exact ⟨1, rfl, .exp_one⟩
      | succ n ih =>
        obtain ⟨t, ht, hgt⟩ := ih
        refine ⟨2 * t, ?_, .exp_double (n + 1) t (by omega) hgt⟩
        have h2 : t = 2 ^ n := by
          cases n with
          | zero => injection ht with ht; exact ht.symm
          | succ k => injection ht with ht; exact ht.symm
        show Except.ok (2 ^ (n + 1)) = _
        rw [h2, Nat.pow_succ, mul_comm]

theorem mapM_growth_ok {g : Growth} (hg : g ≠ .other) (row : List ℕ) :
    ∃ r, row.mapM (growth g) = .ok r ∧ List.Forall₂ (GrowthTo g) row r := by
  induction row with
  | nil => exact ⟨[], rfl, .nil⟩
  | cons a as ih =>
    obtain ⟨r, hr, hl⟩ := ih
    obtain ⟨v, hv, hv'⟩ := growth_ok hg a
    refine ⟨v :: r, ?_, .cons hv' hl⟩
    rw [List.mapM_cons, hv, hr]
    rfl

theorem mapM_rows_ok {g : Growth} (hg : g ≠ .other) (rows : List (List ℕ)) :
    ∃ rs, rows.mapM (fun row => row.mapM (growth g)) = .ok rs ∧
      List.Forall₂ (fun a b => List.Forall₂ (GrowthTo g) a b) rows rs := by
  induction rows with
  | nil => exact ⟨[], rfl, .nil⟩
  | cons a as ih =>
    obtain ⟨rs, hrs, hl⟩ := ih
    obtain ⟨r, hr, hl'⟩ := mapM_growth_ok hg a
    refine ⟨r :: rs, ?_, .cons hl' hl⟩
    rw [List.mapM_cons, hr, hrs]
    rfl

theorem mapM_tensor_ok (rows : List (List ℕ)) (h : ∀ r ∈ rows, r ≠ []) :
    ∃ ts, rows.mapM tensorGridBasis = .ok ts ∧
      ∀ r : List ℕ, r ∈ ts.flatten ↔ ∃ o ∈ rows, Below r o := by
  induction rows with
  | nil => exact ⟨[], rfl, by simp⟩
  | cons a as ih =>
    obtain ⟨ts, hts, hm⟩ := ih (fun r hr => h r (by simp [hr]))
    obtain ⟨t, ht, hmem, _⟩ := c02_tensor_grid a (h a (by simp))
    refine ⟨t :: ts, ?_, ?_⟩
    · rw [List.mapM_cons, ht, hts]
      rfl
    · intro r
      rw [List.flatten_cons, List.mem_append, hm, hmem]
      simp

/-- C08 for the public call: with a supported growth rule, `sparse_grid_basis` succeeds; the
tensor orders are the level rows (membership as in `c08_sparse_coefficients`) with the growth
rule applied entry by entry, the weights returned alongside are the combination coefficients
and sum to one, and the index set is exactly the union of the boxes below the tensor orders. -/
theorem c08_sparse_grid_basis (level d : ℕ) (hd : d ≠ 0) (g : Growth) (hg : g ≠ .other) :
    ∃ L idx a S, sparseGridBasis level g d = .ok (idx, a, S) ∧
      (∀ row : List ℕ, row ∈ L ↔
        row.length = d ∧ level ≤ row.sum ∧ row.sum ≤ level + d - 1) ∧ L.Nodup ∧
      List.Forall₂ (fun row o => List.Forall₂ (GrowthTo g) row o) L idx ∧
      a = L.map (fun row => (-1) ^ (level + d - 1 - row.sum) *
        ((d - 1).choose (level + d - 1 - row.sum) : ℚ)) ∧
      a.sum = 1 ∧
      (∀ r : List ℕ, r ∈ S ↔ ∃ o ∈ idx, Below r o) := by
  obtain ⟨L, hL, hnd, hmem, hco, hsum⟩ := c08_sparse_coefficients level d hd
  obtain ⟨rs, hrs, hrel⟩ := mapM_rows_ok hg L
  have hne : ∀ r ∈ rs, r ≠ [] := by
    intro r hr h0
    obtain ⟨i, hi, rfl⟩ := List.getElem_of_mem hr
    have hlen := hrel.length_eq
    have hi' : i < L.length := by omega
    have h1 := (List.forall₂_iff_get.1 hrel).2 i hi' hi
    have h2 := h1.length_eq
    have h3 := (hmem _).1 (List.getElem_mem hi')
    simp only [List.get_eq_getElem] at h2
    rw [h0] at h2
    simp at h2
    rw [h2] at h3
    simp at h3
    omega
  obtain ⟨ts, hts, htm⟩ := mapM_tensor_ok rs hne
  refine ⟨L, rs, L.map (sparseCoeff level d), ts.flatten, ?_, hmem, hnd, hrel, ?_, hsum, htm⟩
  · simp only [sparseGridBasis, hL]
    show Except.bind (List.mapM (fun row => List.mapM (growth g) row) L) _ = _
    rw [hrs]
    show Except.bind (List.mapM tensorGridBasis rs) _ = _
    rw [hts]
    rfl
  · exact List.map_congr_left hco

theorem mapM_error {α β : Type} (f : α → Except Err β) (e : Err) (l : List α)
    (hall : ∀ x ∈ l, (∃ v, f x = .ok v) ∨ f x = .error e) (hex : ∃ x ∈ l, f x = .error e) :
    l.mapM f = .error e := by
  induction l with
  | nil => obtain ⟨x, hx, _⟩ := hex; simp at hx
  | cons a as ih =>
    rw [List.mapM_cons]
    rcases hall a (by simp) with ⟨v, hv⟩ | h
    · rw [hv]
      have : as.mapM f = .error e := by
        apply ih (fun x hx => hall x (by simp [hx]))
        obtain ⟨x, hx, hxe⟩ := hex
        rcases List.mem_cons.1 hx with rfl | hx
        · rw [hv] at hxe; cases hxe
        · exact ⟨x, hx, hxe⟩
      rw [this]; rfl
    · rw [h]; rfl

theorem growth_other (r : ℕ) : (r = 1 ∧ growth .other r = .ok 1) ∨
    (r ≠ 1 ∧ growth .other r = .error .interrupt) := by
  by_cases h : r = 1
  · left; exact ⟨h, if_pos h⟩
  · right; exact ⟨h, if_neg h⟩

theorem mapM_ones (row : List ℕ) :
    (∃ v, row.mapM (growth .other) = .ok v) ∨ row.mapM (growth .other) = .error .interrupt := by
  induction row with
  | nil => left; exact ⟨[], rfl⟩
  | cons a as ih =>
    rw [List.mapM_cons]
    rcases growth_other a with ⟨_, h⟩ | ⟨_, h⟩ <;> rw [h]
    · rcases ih with ⟨v, hv⟩ | hv <;> rw [hv]
      · left; exact ⟨_, rfl⟩
      · right; rfl
    · right; rfl

/-- C08, error branch: an unknown growth rule is rejected, for every level and dimension except
`level = 1, d = 1` (whose only level entry is one). -/
theorem c08_unknown_growth (level d : ℕ) (hd : d ≠ 0) (h11 : ¬ (level = 1 ∧ d = 1)) :
    sparseGridBasis level .other d = .error .interrupt := by
  obtain ⟨L, hL, _, hmem, _, _⟩ := c08_sparse_coefficients level d hd
  have : L.mapM (fun row => row.mapM (growth .other)) = .error .interrupt := by
    apply mapM_error _ _ _ (fun x _ => mapM_ones x)
    refine ⟨level :: List.replicate (d - 1) 0, ?_, ?_⟩
    · rw [hmem]; simp; omega
    · apply mapM_error
      · intro x _
        rcases growth_other x with ⟨_, h⟩ | ⟨_, h⟩
        · exact .inl ⟨_, h⟩
        · exact .inr h
      · by_cases hl : level = 1
        · refine ⟨0, ?_, rfl⟩
          have : d - 1 ≠ 0 := by omega
          simp [this]
        · refine ⟨level, by simp, ?_⟩
          rcases growth_other level with ⟨h, _⟩ | ⟨_, h⟩
          · exact absurd h hl
          · exact h
  simp only [sparseGridBasis, hL]
  show Except.bind (List.mapM (fun row => List.mapM (growth .other) row) L) _ = _
  rw [this]
  rfl

example : GrowthTo .exponential 3 4 := .exp_double 2 2 (by norm_num) (.exp_double 1 1 le_rfl .exp_one)

/-- The specification's literal reading on a small case (a test, not the claim). -/
example : (sparseLevels 2 2) = .ok [[0, 2], [0, 3], [1, 1], [1, 2], [2, 0], [2, 1], [3, 0]] := by
  rfl

/-! ## C09 -/

/-- The basis names that `get_basis` knows. -/
def exactNames : List (List Char) :=
  ["total-order".toList, "tensor-grid".toList, "hyperbolic-basis".toList,
    "euclidean-degree".toList, "sparse-grid".toList]

/-- C09, true part: for the five exact lower-case names both functions give the same result
(value or error). Missing: names that differ by case and the names `univariate`/`tensor`. -/
theorem c09_get_basis_partial (r : Request) (h : r.name ∈ exactNames) :
    r.getBasis = r.setOrders := by
  have hl : lower r.name = r.name := by
    simp only [exactNames, List.mem_cons, List.not_mem_nil, or_false] at h
    rcases h with h | h | h | h | h <;> rw [h] <;> decide
  simp only [exactNames, List.mem_cons, List.not_mem_nil, or_false] at h
  unfold Request.getBasis Request.setOrders
  simp only [hl]
  rcases h with h | h | h | h | h <;> rw [h] <;> simp

/-- C09 is violated: the constructor accepts `tensor` and `Total-Order`, `get_basis` raises. -/
theorem c09_get_basis_violated :
    (∃ r : Request, (∃ L, r.setOrders = .ok L) ∧ r.getBasis = .error .valueError ∧
      r.name = "tensor".toList) ∧
    (∃ r : Request, (∃ L, r.setOrders = .ok L) ∧ r.getBasis = .error .valueError ∧
      r.name = "Total-Order".toList) := by
  refine ⟨⟨⟨"tensor".toList, [1], 0, .linear, 1⟩, ⟨[[0], [1]], ?_⟩, ?_, rfl⟩,
    ⟨⟨"Total-Order".toList, [1], 0, .linear, 1⟩, ⟨[[0], [1]], ?_⟩, ?_, rfl⟩⟩
  · have : lower "tensor".toList = "tensor".toList := by decide
    simp only [Request.setOrders, this]
    simp
    rfl
  · simp [Request.getBasis]
  · have : lower "Total-Order".toList = "total-order".toList := by decide
    simp only [Request.setOrders, this]
    simp
    rfl
  · simp [Request.getBasis]

example : "tensor-grid".toList ∈ exactNames := by simp [exactNames]

end EQ.Basis
