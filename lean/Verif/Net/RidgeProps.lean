import Verif.Net.TrainProps

/-!
# The numbering of the ridges of a network (C227)
-/

namespace EQ.Polynet

open EQ.Basis

variable {P : ℕ}

namespace Spec

/-- `n'` is the network `n` of one layer, its ridges numbered by `σ`. -/
structure Renumbered (σ : Equiv.Perm ℕ) (n n' : Net P) : Prop where
  dims : n'.dims = n.dims
  layers : n.layers = 1 ∧ n'.layers = 1
  ridges : n'.ridges 0 = n.ridges 0
  W : ∀ i, n'.W 0 (σ i) = n.W 0 i
  alpha : ∀ i, n'.alpha 0 (σ i) = n.alpha 0 i

/-- Ridges `a` and `b` of layer `k` exchanged: the rows of the weights and of the coefficients of the layer and the columns of the
weights of the next one. -/
def exchange (k a b : ℕ) (n : Net P) : Net P :=
  { n with
    W := fun l i j => if l = k then n.W l (Equiv.swap a b i) j else if l = k + 1 then n.W l i (Equiv.swap a b j) else n.W l i j
    alpha := fun l i => if l = k then n.alpha l (Equiv.swap a b i) else n.alpha l i }

end Spec

open Spec

/-- Two states of training that differ only by the numbering of the ridges. -/
structure SameRidges (σ : Equiv.Perm ℕ) (s s' : State P) : Prop where
  net : Renumbered σ s.net s'.net
  Z : ∀ p i, s'.Zst p 0 (σ i) = s.Zst p 0 i
  change : ∀ i, s'.change 0 (σ i) = s.change 0 i
  rate : s'.rate = s.rate
  prev : s'.prevLoss = s.prevLoss

section
variable {σ : Equiv.Perm ℕ} {n n' : Net P} (h : Renumbered σ n n') (hσ : ∀ i, σ i < n.ridges 0 ↔ i < n.ridges 0)
include h

theorem Z_renumbered (phi : Fin P → ℝ → ℝ) (x : ℕ → ℝ) (i : ℕ) : n'.Z phi x 0 (σ i) = n.Z phi x 0 i := by
  simp only [Net.Z, h.dims, h.W]

include hσ

theorem out_renumbered (phi : Fin P → ℝ → ℝ) (x : ℕ → ℝ) : n'.out phi x = n.out phi x := by
  unfold Net.out
  rw [h.layers.1, h.layers.2]
  simp only [Nat.sub_self, h.ridges]
  symm
  refine Finset.sum_equiv σ (fun i => by simp [hσ]) fun i _ => ?_
  rw [h.alpha, Z_renumbered h]

theorem loss_renumbered (phi : Fin P → ℝ → ℝ) (D : Data) : n'.loss phi D = n.loss phi D :=
  Finset.sum_congr rfl fun p _ => by rw [out_renumbered h hσ]

end

section
variable {σ : Equiv.Perm ℕ} {s s' : State P} (hs : SameRidges σ s s') (hσ : ∀ i, σ i < s.net.ridges 0 ↔ i < s.net.ridges 0)
include hs hσ

theorem delta_renumbered (phi dphi : Fin P → ℝ → ℝ) (D : Data) (p i : ℕ) :
    s'.delta phi dphi D p 0 (σ i) = s.delta phi dphi D p 0 i := by
  simp only [State.delta, State.act, hs.net.layers.1, hs.net.layers.2, Nat.sub_self, hs.Z, hs.net.alpha, out_renumbered hs.net hσ]

theorem gradW_renumbered (phi dphi : Fin P → ℝ → ℝ) (D : Data) (i j : ℕ) :
    s'.gradW phi dphi D 0 (σ i) j = s.gradW phi dphi D 0 i j := by
  simp only [State.gradW, hs.net.layers.1, hs.net.layers.2, Nat.sub_self, delta_renumbered hs hσ, if_true]

theorem gradAlpha_renumbered (phi dphi : Fin P → ℝ → ℝ) (D : Data) (i : ℕ) (c : Fin P) :
    s'.gradAlpha phi dphi D 0 (σ i) c = s.gradAlpha phi dphi D 0 i c := by
  simp only [State.gradAlpha, hs.net.layers.1, hs.net.layers.2, Nat.sub_self, if_true, Z_renumbered hs.net, out_renumbered hs.net hσ]

theorem rateAt_renumbered (opt : Opt) (phi : Fin P → ℝ → ℝ) (D : Data) (k : ℕ) : s'.rateAt opt phi D k = s.rateAt opt phi D k := by
  unfold State.rateAt
  rw [hs.prev, hs.rate, loss_renumbered hs.net hσ]

theorem newW_renumbered (opt : Opt) (momentum : ℝ) (phi dphi : Fin P → ℝ → ℝ) (D : Data) (i : ℕ) :
    s'.newW opt momentum phi dphi D 0 (σ i) = s.newW opt momentum phi dphi D 0 i := by
  funext j
  unfold State.newW
  rw [hs.net.W, hs.rate, gradW_renumbered hs hσ, hs.change, rateAt_renumbered hs hσ]

theorem step_renumbered (opt : Opt) (momentum : ℝ) (phi dphi : Fin P → ℝ → ℝ) (D : Data) :
    SameRidges σ (s.step opt momentum phi dphi D) (s'.step opt momentum phi dphi D) where
  net := {
    dims := hs.net.dims
    layers := hs.net.layers
    ridges := hs.net.ridges
    W := newW_renumbered hs hσ opt momentum phi dphi D
    alpha := fun i => by
      funext c
      simp only [State.step, hs.net.alpha, rateAt_renumbered hs hσ, gradAlpha_renumbered hs hσ] }
  Z p i := Z_renumbered hs.net phi (D.x p) i
  change i := by
    funext j
    simp only [State.step, newW_renumbered hs hσ, hs.net.W]
  rate := by
    simp only [State.step, rateAt_renumbered hs hσ, hs.net.layers.1, hs.net.layers.2]
  prev := by
    simp only [State.step, loss_renumbered hs.net hσ]

end

theorem fit_renumbered {σ : Equiv.Perm ℕ} (opt : Opt) (momentum : ℝ) (phi dphi : Fin P → ℝ → ℝ) (D : Data) (verbose : Bool) :
    ∀ (t : ℕ) (s s' : State P), SameRidges σ s s' → (∀ i, σ i < s.net.ridges 0 ↔ i < s.net.ridges 0) →
      SameRidges σ (s.fit opt momentum phi dphi D verbose t) (s'.fit opt momentum phi dphi D verbose t) := by
  intro t
  induction t with
  | zero => intro s s' hs _; exact hs
  | succ t ih =>
    intro s s' hs hσ
    have h1 := step_renumbered hs hσ opt momentum phi dphi D
    have hl : (s'.step opt momentum phi dphi D).net.loss phi D = (s.step opt momentum phi dphi D).net.loss phi D :=
      loss_renumbered h1.net hσ phi D
    simp only [State.fit, hl]
    split_ifs
    · exact h1
    · exact ih _ _ h1 hσ

/-- **C227**, for networks of one layer: if the ridges start with another numbering, `fit` returns the same network with that
numbering, the same learning rate, loss and predictions, for every strategy and number of iterations. -/
theorem c227_numbering_partial (σ : Equiv.Perm ℕ) {n n' : Net P} (h : Renumbered σ n n') (hσ : ∀ i, σ i < n.ridges 0 ↔ i < n.ridges 0)
    (phi dphi : Fin P → ℝ → ℝ) (D : Data) (rate : ℝ) (opt : Opt) (momentum : ℝ) (verbose : Bool) (t : ℕ) :
    let T := (State.start n phi D rate).fit opt momentum phi dphi D verbose t
    let T' := (State.start n' phi D rate).fit opt momentum phi dphi D verbose t
    Renumbered σ T.net T'.net ∧ T'.rate = T.rate ∧ T'.net.loss phi D = T.net.loss phi D ∧
      ∀ x, T'.net.evaluateFit phi x = T.net.evaluateFit phi x := by
  have h0 : SameRidges σ (State.start n phi D rate) (State.start n' phi D rate) :=
    ⟨h, fun p i => Z_renumbered h phi (D.x p) i, h.W, rfl, rfl⟩
  have hT := fit_renumbered opt momentum phi dphi D verbose t _ _ h0 hσ
  intro T T'
  have hr : ∀ (t : ℕ) (s : State P), (s.fit opt momentum phi dphi D verbose t).net.ridges = s.net.ridges := by
    intro t
    induction t with
    | zero => intro s; rfl
    | succ t ih =>
      intro s
      simp only [State.fit]
      split_ifs
      · rfl
      · exact (ih _).trans rfl
  have hσT : ∀ i, σ i < T.net.ridges 0 ↔ i < T.net.ridges 0 := by
    intro i
    have e : T.net.ridges = n.ridges := hr t _
    rw [e]
    exact hσ i
  refine ⟨hT.net, hT.rate, loss_renumbered hT.net hσT phi D, fun x => ?_⟩
  unfold Net.evaluateFit
  rw [if_neg (by rintro ⟨k, hk, -⟩; rw [hT.net.layers.2] at hk; omega),
    if_neg (by rintro ⟨k, hk, -⟩; rw [hT.net.layers.1] at hk; omega), out_renumbered hT.net hσT]

/-- **C227**, consequence: ridges of a network of one layer that start equal stay equal; training cannot tell them apart. -/
theorem c227_equal_ridges (n : Net P) (h1 : n.layers = 1) {a b : ℕ} (ha : a < n.ridges 0) (hb : b < n.ridges 0)
    (hW : n.W 0 a = n.W 0 b) (hA : n.alpha 0 a = n.alpha 0 b) (phi dphi : Fin P → ℝ → ℝ) (D : Data) (rate : ℝ) (opt : Opt)
    (momentum : ℝ) (verbose : Bool) (t : ℕ) :
    let T := (State.start n phi D rate).fit opt momentum phi dphi D verbose t
    T.net.W 0 a = T.net.W 0 b ∧ T.net.alpha 0 a = T.net.alpha 0 b := by
  have e : ∀ {β : Type} (f : ℕ → β), f a = f b → ∀ i, f (Equiv.swap a b i) = f i := by
    intro β f hf i
    by_cases hia : i = a
    · rw [hia, Equiv.swap_apply_left, hf]
    · by_cases hib : i = b
      · rw [hib, Equiv.swap_apply_right, hf]
      · rw [Equiv.swap_apply_of_ne_of_ne hia hib]
  have hσ : ∀ i, Equiv.swap a b i < n.ridges 0 ↔ i < n.ridges 0 := by
    intro i
    by_cases hia : i = a
    · rw [hia, Equiv.swap_apply_left]; exact iff_of_true hb ha
    · by_cases hib : i = b
      · rw [hib, Equiv.swap_apply_right]; exact iff_of_true ha hb
      · rw [Equiv.swap_apply_of_ne_of_ne hia hib]
  have h : Renumbered (Equiv.swap a b) n n := ⟨rfl, ⟨h1, h1⟩, rfl, e _ hW, e _ hA⟩
  obtain ⟨hT, -⟩ := c227_numbering_partial (Equiv.swap a b) h hσ phi dphi D rate opt momentum verbose t
  intro T
  have i1 := hT.W b
  have i2 := hT.alpha b
  rw [Equiv.swap_apply_right] at i1 i2
  exact ⟨i1, i2⟩

/-- Two hidden ridges `x` and `2 x`, of which the output reads the first; the polynomials that `evaluate_fit` applies to them are
those of the second layer. -/
noncomputable def twoRidges : Net 2 where
  dims := 1
  layers := 2
  ridges := fun _ => 2
  W := fun k i j => if k = 0 then i + 1 else if i = 0 ∧ j = 0 then 1 else 0
  alpha := fun _ i => if i = 0 then ![0, 1] else ![0, 0]

/-- **C227** fails for networks of two layers: exchanging the two hidden ridges with all that belongs to them changes the prediction,
since the polynomials applied to them are those of the next layer, which stay where they are. -/
theorem c227_numbering_violated : ∃ (n : Net 2) (phi : Fin 2 → ℝ → ℝ) (x : ℕ → ℝ), n.ridges 0 = 2 ∧
    n.evaluateFit phi x = .ok 1 ∧ (exchange 0 0 1 n).evaluateFit phi x = .ok 0 := by
  refine ⟨twoRidges, fun c z => z ^ (c : ℕ), fun _ => 1, rfl, ?_, ?_⟩
  · unfold Net.evaluateFit
    rw [if_neg (by rintro ⟨k, -, hk⟩; exact lt_irrefl _ hk)]
    simp [Net.out, twoRidges, Net.Z, polyVal, Finset.sum_range_succ]
  · unfold Net.evaluateFit
    rw [if_neg (by rintro ⟨k, -, hk⟩; exact lt_irrefl _ hk)]
    simp [Net.out, exchange, twoRidges, Net.Z, polyVal, Finset.sum_range_succ]

/-- Two ridges exchanged. -/
example : ∃ n n' : Net 1, Renumbered (Equiv.swap 0 1) n n' ∧ n.W 0 0 ≠ n.W 0 1 ∧ ∀ i, Equiv.swap 0 1 i < n.ridges 0 ↔ i < n.ridges 0 := by
  refine ⟨⟨1, 1, fun _ => 2, fun _ i _ => i, fun _ i _ => i⟩, ⟨1, 1, fun _ => 2, fun _ i _ => (Equiv.swap 0 1 i : ℕ), fun _ i _ => (Equiv.swap 0 1 i : ℕ)⟩,
    ⟨rfl, ⟨rfl, rfl⟩, rfl, fun i => by simp, fun i => by simp⟩, fun h => by simpa using congrFun h 0, fun i => ?_⟩
  match i with
  | 0 => simp
  | 1 => simp
  | i + 2 => rw [Equiv.swap_apply_of_ne_of_ne (by omega) (by omega)]

/-- Equal ridges, as needed by `c227_equal_ridges`. -/
example : ∃ n : Net 1, n.layers = 1 ∧ 0 < n.ridges 0 ∧ 1 < n.ridges 0 ∧ n.W 0 0 = n.W 0 1 ∧ n.alpha 0 0 = n.alpha 0 1 :=
  ⟨⟨1, 1, fun _ => 2, fun _ _ _ => 1, fun _ _ _ => 1⟩, rfl, Nat.zero_lt_two, Nat.one_lt_two, rfl, rfl⟩

end EQ.Polynet
