import Verif.Net.Props

/-!
# The adaptive learning rate of polynomial networks (C216)
-/

namespace EQ.Polynet

open EQ.Basis

variable {P : ℕ}

/-- Specification: the loss of the network after `t` passes of training without messages. -/
noncomputable def lossAfter (n : Net P) (phi dphi : Fin P → ℝ → ℝ) (D : Data) (opt : Opt) (momentum r : ℝ) (t : ℕ) : ℝ :=
  ((State.start n phi D r).fit opt momentum phi dphi D false t).net.loss phi D

open Classical in
/-- Specification: the rule of the adaptive strategy. After a pass the rate is halved if the pass before has raised the loss from `a` to `b`, and raised by a tenth otherwise. -/
noncomputable def factor (a b : ℝ) : ℝ := if a < b then 1/2 else 11/10

theorem fit_first (opt : Opt) (momentum : ℝ) (phi dphi : Fin P → ℝ → ℝ) (D : Data) (t : ℕ) (s : State P) :
    s.fit opt momentum phi dphi D false (t + 1) = (s.step opt momentum phi dphi D).fit opt momentum phi dphi D false t := by
  rw [State.fit]
  exact if_neg (by simp)

theorem fit_succ (opt : Opt) (momentum : ℝ) (phi dphi : Fin P → ℝ → ℝ) (D : Data) : ∀ (t : ℕ) (s : State P),
    s.fit opt momentum phi dphi D false (t + 1) = (s.fit opt momentum phi dphi D false t).step opt momentum phi dphi D
  | 0, s => fit_first ..
  | t + 1, s => by rw [fit_first, fit_succ opt momentum phi dphi D t, ← fit_first]

theorem fit_layers (opt : Opt) (momentum : ℝ) (phi dphi : Fin P → ℝ → ℝ) (D : Data) (s : State P) : ∀ t,
    (s.fit opt momentum phi dphi D false t).net.layers = s.net.layers
  | 0 => rfl
  | t + 1 => by rw [fit_succ]; exact fit_layers opt momentum phi dphi D s t

/-- **C216**, what happens for any number of layers. Before pass `t + 2` the rate used for layer `k` is the rate after the pass before times `factor ^ (k + 1)`, and the rate after `t + 1`
passes is the first one times all the factors, each to the power of the number of layers. -/
theorem c216_layers (n : Net P) (h1 : 1 ≤ n.layers) (phi dphi : Fin P → ℝ → ℝ) (D : Data) (momentum r : ℝ) (t : ℕ) :
    ((State.start n phi D r).fit .adapt momentum phi dphi D false (t + 1)).rate =
      r * ∏ u ∈ Finset.range t, factor (lossAfter n phi dphi D .adapt momentum r u) (lossAfter n phi dphi D .adapt momentum r (u + 1)) ^ n.layers := by
  induction t with
  | zero => rw [fit_succ, Finset.prod_range_zero, mul_one]; rfl
  | succ t ih =>
    rw [fit_succ, Finset.prod_range_succ, ← mul_assoc, ← ih]
    have hl := fit_layers .adapt momentum phi dphi D (State.start n phi D r) (t + 1)
    have hp : ((State.start n phi D r).fit .adapt momentum phi dphi D false (t + 1)).prevLoss = some (lossAfter n phi dphi D .adapt momentum r t) := by
      rw [fit_succ]; rfl
    show State.rateAt _ .adapt phi D (_ - 1) = _
    unfold State.rateAt
    rw [hp, hl]
    show _ * factor _ _ ^ (n.layers - 1 + 1) = _
    rw [Nat.sub_add_cancel h1]
    rfl

/-- **C216 (partial).** For a network of one layer the adaptive strategy follows the rule: after `t + 1` passes the learning rate is the first one, halved for each pass
(but the last) that raised the loss and raised by a tenth for each that did not; and pass `t + 2` changes every weight and every coefficient by that rate, updated once more, times the
gradient of the pass. -/
theorem c216_rate_partial (n : Net P) (h1 : n.layers = 1) (phi dphi : Fin P → ℝ → ℝ) (D : Data) (momentum r : ℝ) (t : ℕ) :
    let ℓ := lossAfter n phi dphi D .adapt momentum r
    let s := fun t => (State.start n phi D r).fit .adapt momentum phi dphi D false t
    (s (t + 1)).rate = r * ∏ u ∈ Finset.range t, factor (ℓ u) (ℓ (u + 1)) ∧
    (∀ i j, (s (t + 1)).net.W 0 i j = (s t).net.W 0 i j - (s (t + 1)).rate * (s t).gradW phi dphi D 0 i j) ∧
    ∀ i c, (s (t + 1)).net.alpha 0 i c = (s t).net.alpha 0 i c - (s (t + 1)).rate * (s t).gradAlpha phi dphi D 0 i c := by
  intro ℓ s
  have hl := fit_layers .adapt momentum phi dphi D (State.start n phi D r) t
  have hs : s (t + 1) = (s t).step .adapt momentum phi dphi D := fit_succ ..
  have hr : (s (t + 1)).rate = (s t).rateAt .adapt phi D 0 := by
    rw [hs]
    show State.rateAt _ .adapt phi D (_ - 1) = _
    rw [show (s t).net.layers = 1 from hl.trans h1]
  refine ⟨?_, fun i j => ?_, fun i c => ?_⟩
  · have := c216_layers n (by omega) phi dphi D momentum r t
    simp only [h1, pow_one] at this
    exact this
  · rw [hr, hs]; rfl
  · rw [hr, hs]; rfl

/-- **C216**, the other strategies keep the learning rate. -/
theorem c216_fixed (n : Net P) (phi dphi : Fin P → ℝ → ℝ) (D : Data) (opt : Opt) (ho : opt ≠ .adapt) (momentum r : ℝ) (verbose : Bool) (t : ℕ) :
    ((State.start n phi D r).fit opt momentum phi dphi D verbose t).rate = r := by
  have key : ∀ (t : ℕ) (s : State P), s.rate = r → (s.fit opt momentum phi dphi D verbose t).rate = r := by
    intro t
    induction t with
    | zero => intro s h; exact h
    | succ t ih =>
      intro s h
      have h' : (s.step opt momentum phi dphi D).rate = r := by
        show s.rateAt opt phi D _ = r
        unfold State.rateAt
        split
        · exact absurd rfl ho
        · exact h
      rw [State.fit]
      split_ifs
      · exact h'
      · exact ih _ h'
  exact key t _ rfl

theorem factor_cases (a b : ℝ) : factor a b = 1/2 ∨ factor a b = 11/10 := by
  unfold factor; split_ifs <;> simp

/-- **C216, the code.** With two or more layers the rule is applied once for each layer of each pass. For every such network, all data and every first rate but zero: the rate after two
passes is not the one the rule gives, and within the second pass two successive layers are moved with different rates, `r * factor ^ (k + 1)` for layer `k`. -/
theorem c216_layers_violated (n : Net P) (h2 : 2 ≤ n.layers) (phi dphi : Fin P → ℝ → ℝ) (D : Data) (momentum r : ℝ) (hr : r ≠ 0) :
    let ℓ := lossAfter n phi dphi D .adapt momentum r
    let s := fun t => (State.start n phi D r).fit .adapt momentum phi dphi D false t
    (s 2).rate ≠ r * factor (ℓ 0) (ℓ 1) ∧
    (∀ k i j, (s 2).net.W k i j = (s 1).net.W k i j - r * factor (ℓ 0) (ℓ 1) ^ (k + 1) * (s 1).gradW phi dphi D k i j) ∧
    ∀ k, r * factor (ℓ 0) (ℓ 1) ^ (k + 1) ≠ r * factor (ℓ 0) (ℓ 1) ^ (k + 2) := by
  intro ℓ s
  have hf : ∀ a b, a ≠ b → factor (ℓ 0) (ℓ 1) ^ a ≠ factor (ℓ 0) (ℓ 1) ^ b := by
    intro a b hab he
    rcases factor_cases (ℓ 0) (ℓ 1) with h | h <;> rw [h] at he
    · exact hab (pow_right_injective₀ (by norm_num) (by norm_num) he)
    · exact hab (pow_right_injective₀ (by norm_num) (by norm_num) he)
  refine ⟨?_, fun k i j => ?_, fun k h => hf _ _ (by omega) (mul_left_cancel₀ hr h)⟩
  · have := c216_layers n (by omega) phi dphi D momentum r 1
    rw [Finset.prod_range_one] at this
    show (State.fit _ _ _ _ _ _ (1 + 1) _).rate ≠ _
    rw [this]
    intro h
    exact hf n.layers 1 (by omega) (by rw [pow_one]; exact mul_left_cancel₀ hr h)
  · have hs : s 2 = (s 1).step .adapt momentum phi dphi D := fit_succ ..
    have h1 : s 1 = (s 0).step .adapt momentum phi dphi D := fit_succ ..
    rw [hs]
    show (s 1).newW .adapt momentum phi dphi D k i j = _
    unfold State.newW State.rateAt
    have hp : (s 1).prevLoss = some (ℓ 0) := by rw [h1]; rfl
    have hrr : (s 1).rate = r := by rw [h1]; rfl
    simp only [hp, hrr]
    rfl

/-- Data reproduced by the network keep the loss at zero, so with one layer the rate grows by a tenth in each pass after the first. -/
example (t : ℕ) : ((State.start (oneNet 2 ![-2, Real.sqrt 3, 0]) legPhi oneData (1/100)).fit .adapt 0 legPhi legDphi oneData false (t + 1)).rate =
    1/100 * (11/10) ^ t := by
  rw [(c216_rate_partial (oneNet 2 ![-2, Real.sqrt 3, 0]) rfl legPhi legDphi oneData 0 (1/100) t).1]
  have h0 : ∀ u, lossAfter (oneNet 2 ![-2, Real.sqrt 3, 0]) legPhi legDphi oneData .adapt 0 (1/100) u =
      (oneNet 2 ![-2, Real.sqrt 3, 0]).loss legPhi oneData := fun u => by
    unfold lossAfter
    rw [c106_fixed_partial .adapt (fun h => nomatch h) 0 legPhi legDphi oneData false u _ perfectDemo]
    rfl
  simp only [h0, factor, lt_irrefl, if_false, Finset.prod_const, Finset.card_range]

/-- Two layers with the rate `1/100`. -/
example : ((State.start narrowNet legPhi oneData (1/100)).fit .adapt 0 legPhi legDphi oneData false 2).rate ≠
    1/100 * factor (lossAfter narrowNet legPhi legDphi oneData .adapt 0 (1/100) 0) (lossAfter narrowNet legPhi legDphi oneData .adapt 0 (1/100) 1) :=
  (c216_layers_violated narrowNet (le_refl 2) legPhi legDphi oneData 0 (1/100) (by norm_num)).1

end EQ.Polynet
