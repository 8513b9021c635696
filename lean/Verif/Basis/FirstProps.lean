import Verif.Basis.Props

/-!
# The constant comes first (C81)
-/

namespace EQ.Basis
open Spec

theorem sparse_head (level d : ℕ) (hd : d ≠ 0) (g : Growth) (S : List (List ℕ)) (a : List ℚ)
    (els : List (List ℕ)) (h : sparseGridBasis level g d = .ok (S, a, els)) :
    els.head? = some (zeroRow d) ∧ ∀ row ∈ els, row.length = d := by
  obtain ⟨L, hL, _, hmem, _, hsum⟩ := c08_sparse_coefficients level d hd
  unfold sparseGridBasis at h
  rw [hL] at h
  simp only [bind, Except.bind] at h
  cases hS : L.mapM (fun row => row.mapM (growth g)) with
  | error e => rw [hS] at h; simp at h
  | ok Sx =>
    rw [hS] at h
    simp only at h
    cases hT : Sx.mapM tensorGridBasis with
    | error e => rw [hT] at h; simp at h
    | ok ts =>
      rw [hT] at h
      simp only [pure, Except.pure, Except.ok.injEq, Prod.mk.injEq] at h
      obtain ⟨-, -, rfl⟩ := h
      have hlen : ∀ (L : List (List ℕ)) (Sx : List (List ℕ)), (∀ row ∈ L, row.length = d) →
          L.mapM (fun row => row.mapM (growth g)) = .ok Sx → Sx.length = L.length ∧
          ∀ r ∈ Sx, r.length = d := by
        intro L
        induction L with
        | nil => intro Sx _ h; cases h; simp
        | cons r L ih =>
          intro Sx hl h
          rw [List.mapM_cons] at h
          simp only [bind, Except.bind] at h
          cases h1 : r.mapM (growth g) with
          | error e => rw [h1] at h; simp at h
          | ok r' =>
            rw [h1] at h
            simp only at h
            cases h2 : L.mapM (fun row => row.mapM (growth g)) with
            | error e => rw [h2] at h; simp at h
            | ok L' =>
              rw [h2] at h
              simp only [pure, Except.pure, Except.ok.injEq] at h
              subst h
              obtain ⟨i1, i2⟩ := ih L' (fun row hr => hl row (by simp [hr])) h2
              have h3 : ∀ (r r' : List ℕ), r.mapM (growth g) = .ok r' → r'.length = r.length := by
                intro r
                induction r with
                | nil => intro r' h; cases h; rfl
                | cons x r ihr =>
                  intro r' h
                  rw [List.mapM_cons] at h
                  simp only [bind, Except.bind] at h
                  cases g1 : growth g x with
                  | error e => rw [g1] at h; simp at h
                  | ok y =>
                    rw [g1] at h
                    simp only at h
                    cases g2 : r.mapM (growth g) with
                    | error e => rw [g2] at h; simp at h
                    | ok ys =>
                      rw [g2] at h
                      simp only [pure, Except.pure, Except.ok.injEq] at h
                      subst h
                      simp [ihr ys g2]
              refine ⟨by simp [i1], ?_⟩
              intro q hq
              rcases List.mem_cons.1 hq with rfl | hq
              · rw [h3 r q h1]; exact hl r (by simp)
              · exact i2 q hq
      obtain ⟨l1, l2⟩ := hlen L Sx (fun row hr => ((hmem row).1 hr).1) hS
      have hne : Sx ≠ [] := by
        rintro rfl
        simp only [List.length_nil] at l1
        rw [List.length_eq_zero_iff.1 l1.symm] at hsum
        simp at hsum
      have htm : ∀ (Sx ts : List (List ℕ) ) (ts : List (List (List ℕ))), Sx.mapM tensorGridBasis = .ok ts →
          (∀ r ∈ Sx, r.length = d) → (∀ row ∈ ts.flatten, row.length = d) ∧
          (Sx ≠ [] → ts.flatten.head? = some (zeroRow d)) := by
        intro Sx _
        induction Sx with
        | nil => intro ts h _; cases h; simp
        | cons r Sx ih =>
          intro ts h hl
          rw [List.mapM_cons] at h
          simp only [bind, Except.bind] at h
          have hr := hl r (by simp)
          have hrne : r ≠ [] := by rintro rfl; simp at hr; exact hd hr.symm
          obtain ⟨t, ht, tmem, _, _, _, thead⟩ := c02_tensor_grid r hrne
          rw [ht] at h
          simp only at h
          cases h2 : Sx.mapM tensorGridBasis with
          | error e => rw [h2] at h; simp at h
          | ok ts' =>
            rw [h2] at h
            simp only [pure, Except.pure, Except.ok.injEq] at h
            subst h
            obtain ⟨i1, _⟩ := ih ts' h2 (fun q hq => hl q (by simp [hq]))
            constructor
            · intro row hrow
              rw [List.flatten_cons, List.mem_append] at hrow
              rcases hrow with hrow | hrow
              · rw [((tmem row).1 hrow).length_eq, hr]
              · exact i1 row hrow
            · intro _
              rw [List.flatten_cons, List.head?_append, thead, hr]
              rfl
      exact ⟨(htm Sx [] ts hT l2).2 hne, (htm Sx [] ts hT l2).1⟩

/-- C81. Whatever the basis type (the hyperbolic exponent being positive), the multi-indices of a
basis with at least one dimension all have the same length and the constant one comes first; this
stays so under any sequence of `sort` and `prune` calls that leaves at least one row. -/
theorem c81_constant_first (r : Request) (hq : 0 < r.q) (hne : r.orders ≠ [])
    (L : List (List ℕ)) (h : r.setOrders = .ok L) :
    ∃ d, L.head? = some (zeroRow d) ∧ (∀ row ∈ L, row.length = d) ∧
      ∀ argsort, ArgsortContract argsort →
        (sortElements argsort L).head? = some (zeroRow d) ∧
        ∀ ks, (pruneAll argsort (State.ofElements L) ks).elements ≠ [] →
          (pruneAll argsort (State.ofElements L) ks).elements.head? = some (zeroRow d) := by
  have hdne : r.orders.length ≠ 0 := by simpa using hne
  have main : ∃ d, L.head? = some (zeroRow d) ∧ ∀ row ∈ L, row.length = d := by
    unfold Request.setOrders at h
    simp only at h
    split_ifs at h with h1 h2 h3 h4 h5 h6
    · obtain ⟨L', m, e, _, hm, _, _, _, hh⟩ := c01_total_order _ hne
      rw [h, Except.ok.injEq] at e; subst e
      exact ⟨_, hh, fun row hr => ((hm row).1 hr).1⟩
    · cases ho : r.orders with
      | nil => exact absurd ho hne
      | cons o os =>
        rw [ho] at h
        simp only [univariateBasis, Except.ok.injEq] at h
        subst h
        exact ⟨1, by simp [List.range_succ_eq_map, zeroRow], by simp⟩
    · cases hs : sparseGridBasis r.level r.growthRule r.orders.length with
      | error e => rw [hs] at h; simp [bind, Except.bind] at h
      | ok x =>
        obtain ⟨S, a, els⟩ := x
        rw [hs] at h
        simp only [bind, Except.bind, pure, Except.pure, Except.ok.injEq] at h
        subst h
        exact ⟨_, sparse_head _ _ hdne _ S a els hs⟩
    · obtain ⟨L', e, hm, _, _, _, hh⟩ := c02_tensor_grid _ hne
      rw [h, Except.ok.injEq] at e; subst e
      exact ⟨_, hh, fun row hr => ((hm row).1 hr).length_eq⟩
    · obtain ⟨L', m, e, _, hm, _, _, hh⟩ := c04_hyperbolic _ r.q hq hne
      rw [h, Except.ok.injEq] at e; subst e
      exact ⟨_, hh, fun row hr => ((hm row).1 hr).1⟩
    · obtain ⟨L', m, e, _, hm, _, _, hh⟩ := c03_euclidean _ hne
      rw [h, Except.ok.injEq] at e; subst e
      exact ⟨_, hh, fun row hr => ((hm row).1 hr).1.length_eq⟩
  obtain ⟨d, hh, hlen⟩ := main
  refine ⟨d, hh, hlen, fun argsort hc => ⟨?_, fun ks hks => ?_⟩⟩
  · exact (c06_sort argsort hc d L hlen).2.2 (List.mem_of_mem_head? hh)
  · have inv : ∀ (ks : List ℕ) (s : State), (∀ row ∈ s.elements, row.length = d) →
        (s.elements = [] ∨ s.elements.head? = some (zeroRow d)) →
        ((pruneAll argsort s ks).elements = [] ∨
          (pruneAll argsort s ks).elements.head? = some (zeroRow d)) := by
      intro ks
      induction ks with
      | nil => intro s _ h; exact h
      | cons k ks ih =>
        intro s hl hs
        have hp := sortElements_perm hc s.elements
        have hsort : sortElements argsort s.elements = [] ∨
            (sortElements argsort s.elements).head? = some (zeroRow d) := by
          rcases hs with hs | hs
          · left; rw [hs] at hp ⊢; exact List.perm_nil.1 hp
          · right; exact (c06_sort argsort hc d _ hl).2.2 (List.mem_of_mem_head? hs)
        apply ih (s.prune argsort k).1
        · intro row hrow
          apply hl
          unfold State.prune at hrow
          simp only at hrow
          split at hrow
          · exact hp.subset hrow
          · exact hp.subset (List.mem_of_mem_take hrow)
        · unfold State.prune
          simp only
          split
          · exact hsort
          · rcases hsort with h0 | h0
            · left; simp [h0]
            · by_cases hz : s.cardinality - k = 0
              · left; simp [hz]
              · right
                obtain ⟨t, ht⟩ : ∃ t, sortElements argsort s.elements = zeroRow d :: t := by
                  cases hx : sortElements argsort s.elements with
                  | nil => rw [hx] at h0; simp at h0
                  | cons y t => rw [hx] at h0; simp at h0; exact ⟨t, by rw [h0]⟩
                obtain ⟨n, hn⟩ := Nat.exists_eq_succ_of_ne_zero hz
                simp [ht, hn]
    exact (inv ks (State.ofElements L) hlen (.inr hh)).resolve_left hks

example : (⟨"Total-Order".toList, [2, 1], 0, .linear, 1⟩ : Request).setOrders =
    .ok [[0, 0], [0, 1], [1, 0], [0, 2], [1, 1], [2, 0]] := by
  unfold Request.setOrders
  rw [if_pos (by decide)]
  rfl

end EQ.Basis
