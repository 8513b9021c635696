import Verif.Net.Props
import Mathlib.Analysis.Calculus.Deriv.Slope

/-!
# Training of polynomial networks: order of the samples (C194), decrease of the loss (C195)
-/

namespace EQ.Polynet

open EQ.Basis

variable {P : ℕ}

/-! ## C194: order of the samples -/

/-- Specification: `D'` holds the samples of `D` in the order given by `σ`. -/
structure Reordered (D D' : Data) (σ : Fin D.points ≃ Fin D'.points) : Prop where
  x : ∀ p, D'.x (σ p) = D.x p
  y : ∀ p, D'.y (σ p) = D.y p

theorem sum_reordered {D D' : Data} (σ : Fin D.points ≃ Fin D'.points) (f f' : ℕ → ℝ) (h : ∀ p : Fin D.points, f' (σ p) = f p) :
    ∑ p ∈ Finset.range D'.points, f' p = ∑ p ∈ Finset.range D.points, f p := by
  rw [Finset.sum_range, Finset.sum_range, ← Equiv.sum_comp σ]
  exact Finset.sum_congr rfl fun p _ => h p

/-- Two states of training that differ only by the order of the samples. -/
structure Alike (D D' : Data) (σ : Fin D.points ≃ Fin D'.points) (s s' : State P) : Prop where
  net : s'.net = s.net
  Z : ∀ p : Fin D.points, s'.Zst (σ p) = s.Zst p
  change : s'.change = s.change
  rate : s'.rate = s.rate
  prev : s'.prevLoss = s.prevLoss

section
variable {D D' : Data} {σ : Fin D.points ≃ Fin D'.points} (h : Reordered D D' σ)
include h

theorem loss_reordered (n : Net P) (phi : Fin P → ℝ → ℝ) : n.loss phi D' = n.loss phi D :=
  sum_reordered σ _ _ fun p => by rw [h.x, h.y]

variable {s s' : State P} (hs : Alike D D' σ s s')
include hs

theorem delta_reordered (phi dphi : Fin P → ℝ → ℝ) (p : Fin D.points) : ∀ r i, s'.delta phi dphi D' (σ p) r i = s.delta phi dphi D p r i := by
  intro r
  induction r with
  | zero => intro i; simp only [State.delta, State.act, hs.net, hs.Z, h.x, h.y]
  | succ r ih => intro i; simp only [State.delta, State.act, hs.net, hs.Z, ih]

theorem gradW_reordered (phi dphi : Fin P → ℝ → ℝ) (k i j : ℕ) : s'.gradW phi dphi D' k i j = s.gradW phi dphi D k i j :=
  sum_reordered σ _ _ fun p => by rw [hs.net, delta_reordered h hs, h.x]

theorem gradAlpha_reordered (phi dphi : Fin P → ℝ → ℝ) (k i : ℕ) (c : Fin P) : s'.gradAlpha phi dphi D' k i c = s.gradAlpha phi dphi D k i c :=
  sum_reordered σ _ _ fun p => by simp only [hs.net, delta_reordered h hs, h.x, h.y]

theorem rateAt_reordered (opt : Opt) (phi : Fin P → ℝ → ℝ) (k : ℕ) : s'.rateAt opt phi D' k = s.rateAt opt phi D k := by
  unfold State.rateAt
  rw [hs.prev, hs.net, hs.rate, loss_reordered h]

theorem newW_reordered (opt : Opt) (momentum : ℝ) (phi dphi : Fin P → ℝ → ℝ) : s'.newW opt momentum phi dphi D' = s.newW opt momentum phi dphi D := by
  funext k i j
  unfold State.newW
  rw [hs.net, hs.rate, gradW_reordered h hs, hs.change, rateAt_reordered h hs]

theorem step_reordered (opt : Opt) (momentum : ℝ) (phi dphi : Fin P → ℝ → ℝ) :
    Alike D D' σ (s.step opt momentum phi dphi D) (s'.step opt momentum phi dphi D') where
  net := by
    unfold State.step
    simp only [hs.net, newW_reordered h hs, rateAt_reordered h hs, gradAlpha_reordered h hs]
  Z p := by
    unfold State.step
    simp only [hs.net, h.x]
  change := by
    unfold State.step
    simp only [hs.net, newW_reordered h hs]
  rate := by
    unfold State.step
    simp only [hs.net, rateAt_reordered h hs]
  prev := by
    unfold State.step
    simp only [hs.net, loss_reordered h]

end

/-- **C194.** The trained network does not depend on the order of the training samples: with the same initial weights and coefficients, any strategy, any number of iterations and either
value of the verbose flag, the weights, the coefficients and the learning rate after `fit` are the same for samples in another order; so is every prediction and the loss. -/
theorem c194_order {D D' : Data} {σ : Fin D.points ≃ Fin D'.points} (h : Reordered D D' σ) (n : Net P) (phi dphi : Fin P → ℝ → ℝ) (rate : ℝ) (opt : Opt) (momentum : ℝ)
    (verbose : Bool) (t : ℕ) :
    ((State.start n phi D' rate).fit opt momentum phi dphi D' verbose t).net = ((State.start n phi D rate).fit opt momentum phi dphi D verbose t).net ∧
    ((State.start n phi D' rate).fit opt momentum phi dphi D' verbose t).rate = ((State.start n phi D rate).fit opt momentum phi dphi D verbose t).rate ∧
    ((State.start n phi D' rate).fit opt momentum phi dphi D' verbose t).net.loss phi D' = ((State.start n phi D rate).fit opt momentum phi dphi D verbose t).net.loss phi D := by
  have hpts : (D'.points : ℝ) = D.points := by
    have := Fintype.card_congr σ
    simp only [Fintype.card_fin] at this
    rw [this]
  have key : ∀ (t : ℕ) (s s' : State P), Alike D D' σ s s' →
      Alike D D' σ (s.fit opt momentum phi dphi D verbose t) (s'.fit opt momentum phi dphi D' verbose t) := by
    intro t
    induction t with
    | zero => intro s s' hs; exact hs
    | succ t ih =>
      intro s s' hs
      have h1 := step_reordered h hs opt momentum phi dphi
      have hl : (s'.step opt momentum phi dphi D').net.loss phi D' = (s.step opt momentum phi dphi D).net.loss phi D := by
        rw [h1.net, loss_reordered h]
      simp only [State.fit, hl, hpts]
      split_ifs
      · exact h1
      · exact ih _ _ h1
  have := key t (State.start n phi D rate) (State.start n phi D' rate) ⟨rfl, fun p => by simp only [State.start, h.x], rfl, rfl, rfl⟩
  exact ⟨this.net, this.rate, by rw [this.net, loss_reordered h]⟩

/-- Two samples exchanged. -/
example : Reordered ⟨2, fun p _ => p, fun p => 5 + p⟩ ⟨2, fun p _ => 1 - p, fun p => 6 - p⟩ (Equiv.swap (0 : Fin 2) 1) where
  x := by
    intro p
    match p with
    | 0 => funext _; simp
    | 1 => funext _; simp
  y := by
    intro p
    match p with
    | 0 => simp; norm_num
    | 1 => simp; norm_num

/-! ## C195: the first iteration -/

/-- A function with a negative derivative takes smaller values shortly after. -/
theorem lower_after {f : ℝ → ℝ} {d : ℝ} (h : HasDerivAt f d 0) (hd : d < 0) : ∃ r, 0 < r ∧ ∀ t, 0 < t → t < r → f t < f 0 := by
  have ht := (hasDerivAt_iff_tendsto_slope.1 h).eventually (gt_mem_nhds hd)
  rw [eventually_nhdsWithin_iff] at ht
  obtain ⟨r, hr, hball⟩ := Metric.eventually_nhds_iff.1 ht
  refine ⟨r, hr, fun t h0 h1 => ?_⟩
  have := hball (y := t) (by rw [Real.dist_eq, sub_zero, abs_of_pos h0]; exact h1) (by simpa using h0.ne')
  rw [slope_def_field, sub_zero] at this
  have := (div_lt_iff₀ h0).1 this
  linarith

/-- The gradients of the first iteration of a network with one layer. -/
theorem start_gradW (n : Net P) (h1 : n.layers = 1) (phi dphi : Fin P → ℝ → ℝ) (D : Data) (rate : ℝ) (i j : ℕ) :
    (State.start n phi D rate).gradW phi dphi D 0 i j =
      ∑ p ∈ Finset.range D.points, (n.out phi (D.x p) - D.y p) * polyVal dphi (n.alpha 0 i) (n.Z phi (D.x p) 0 i) * D.x p j := by
  unfold State.gradW
  refine Finset.sum_congr rfl fun p _ => ?_
  rw [if_pos rfl, show (State.start n phi D rate).net.layers - 1 - 0 = 0 by show n.layers - 1 - 0 = 0; omega]
  show (n.out phi (D.x p) - D.y p) * polyVal dphi (n.alpha (n.layers - 1) i) (n.Z phi (D.x p) (n.layers - 1) i) * _ = _
  rw [h1]

theorem start_gradAlpha (n : Net P) (h1 : n.layers = 1) (phi dphi : Fin P → ℝ → ℝ) (D : Data) (rate : ℝ) (i : ℕ) (c : Fin P) :
    (State.start n phi D rate).gradAlpha phi dphi D 0 i c =
      ∑ p ∈ Finset.range D.points, phi c (n.Z phi (D.x p) 0 i) * (n.out phi (D.x p) - D.y p) := by
  unfold State.gradAlpha
  refine Finset.sum_congr rfl fun p _ => ?_
  rw [if_pos (show 0 = (State.start n phi D rate).net.layers - 1 by show 0 = n.layers - 1; rw [h1])]
  rfl

/-- The output of a network with one layer along a direction. -/
theorem out_path {phi dphi : Fin P → ℝ → ℝ} (hphi : DerivOK phi dphi) (n : Net P) (h1 : n.layers = 1) (G : ℕ → ℕ → ℝ) (A : ℕ → Fin P → ℝ) (x : ℕ → ℝ)
    (m : ℝ → Net P) (hd : ∀ t, (m t).dims = n.dims) (hl : ∀ t, (m t).layers = n.layers) (hr : ∀ t, (m t).ridges = n.ridges)
    (hW : ∀ t i j, (m t).W 0 i j = n.W 0 i j - t * G i j) (hA : ∀ t i c, (m t).alpha 0 i c = n.alpha 0 i c - t * A i c) :
    HasDerivAt (fun t => (m t).out phi x)
      (-∑ i ∈ Finset.range (n.ridges 0), (∑ c, A i c * phi c (n.Z phi x 0 i) +
        polyVal dphi (n.alpha 0 i) (n.Z phi x 0 i) * ∑ j ∈ Finset.range n.dims, G i j * x j)) 0 := by
  have hZ : ∀ t i, (m t).Z phi x 0 i = n.Z phi x 0 i - t * ∑ j ∈ Finset.range n.dims, G i j * x j := by
    intro t i
    show ∑ j ∈ Finset.range (m t).dims, (m t).W 0 i j * x j = ∑ j ∈ Finset.range n.dims, n.W 0 i j * x j - _
    rw [hd, Finset.mul_sum, ← Finset.sum_sub_distrib]
    refine Finset.sum_congr rfl fun j _ => ?_
    rw [hW]
    ring
  have e : (fun t => (m t).out phi x) = fun t => ∑ i ∈ Finset.range (n.ridges 0), ∑ c, (n.alpha 0 i c - t * A i c) *
      phi c (n.Z phi x 0 i - t * ∑ j ∈ Finset.range n.dims, G i j * x j) := by
    funext t
    show ∑ i ∈ Finset.range ((m t).ridges ((m t).layers - 1)), polyVal phi ((m t).alpha ((m t).layers - 1) i) ((m t).Z phi x ((m t).layers - 1) i) = _
    rw [hl, h1, hr]
    refine Finset.sum_congr rfl fun i _ => Finset.sum_congr rfl fun c _ => ?_
    rw [hZ, hA]
  rw [e, ← Finset.sum_neg_distrib]
  refine HasDerivAt.fun_sum fun i _ => ?_
  have hz : HasDerivAt (fun t : ℝ => n.Z phi x 0 i - t * ∑ j ∈ Finset.range n.dims, G i j * x j) (-∑ j ∈ Finset.range n.dims, G i j * x j) 0 := by
    simpa using ((hasDerivAt_id (0 : ℝ)).mul_const (∑ j ∈ Finset.range n.dims, G i j * x j)).const_sub (n.Z phi x 0 i)
  have hc : ∀ c : Fin P, HasDerivAt (fun t : ℝ => (n.alpha 0 i c - t * A i c) * phi c (n.Z phi x 0 i - t * ∑ j ∈ Finset.range n.dims, G i j * x j))
      (-(A i c * phi c (n.Z phi x 0 i)) - n.alpha 0 i c * dphi c (n.Z phi x 0 i) * ∑ j ∈ Finset.range n.dims, G i j * x j) 0 := by
    intro c
    have ha : HasDerivAt (fun t : ℝ => n.alpha 0 i c - t * A i c) (-A i c) 0 := by
      simpa using ((hasDerivAt_id (0 : ℝ)).mul_const (A i c)).const_sub (n.alpha 0 i c)
    have hp : HasDerivAt (phi c) (dphi c (n.Z phi x 0 i)) (n.Z phi x 0 i - 0 * ∑ j ∈ Finset.range n.dims, G i j * x j) := by
      rw [zero_mul, sub_zero]
      exact hphi c _
    have := ha.mul (hp.comp (0 : ℝ) hz)
    refine this.congr_deriv ?_
    simp only [Function.comp_apply, zero_mul, sub_zero]
    ring
  refine (HasDerivAt.fun_sum (u := Finset.univ) fun c _ => hc c).congr_deriv ?_
  unfold polyVal
  rw [Finset.sum_sub_distrib, Finset.sum_neg_distrib, ← Finset.sum_mul]
  ring

/-- The slope of the loss along the negative gradients. -/
theorem loss_path {phi dphi : Fin P → ℝ → ℝ} (hphi : DerivOK phi dphi) (n : Net P) (h1 : n.layers = 1) (D : Data) (G : ℕ → ℕ → ℝ) (A : ℕ → Fin P → ℝ)
    (hG : ∀ i j, G i j = ∑ p ∈ Finset.range D.points, (n.out phi (D.x p) - D.y p) * polyVal dphi (n.alpha 0 i) (n.Z phi (D.x p) 0 i) * D.x p j)
    (hAl : ∀ i c, A i c = ∑ p ∈ Finset.range D.points, phi c (n.Z phi (D.x p) 0 i) * (n.out phi (D.x p) - D.y p))
    (m : ℝ → Net P) (h0 : ∀ x, (m 0).out phi x = n.out phi x) (hd : ∀ t, (m t).dims = n.dims) (hl : ∀ t, (m t).layers = n.layers) (hr : ∀ t, (m t).ridges = n.ridges)
    (hW : ∀ t i j, (m t).W 0 i j = n.W 0 i j - t * G i j) (hA : ∀ t i c, (m t).alpha 0 i c = n.alpha 0 i c - t * A i c) :
    HasDerivAt (fun t => (m t).loss phi D)
      (-2 * ∑ i ∈ Finset.range (n.ridges 0), (∑ c, A i c ^ 2 + ∑ j ∈ Finset.range n.dims, G i j ^ 2)) 0 := by
  have hsum := HasDerivAt.fun_sum (u := Finset.range D.points) fun p (_ : p ∈ Finset.range D.points) =>
    ((out_path hphi n h1 G A (D.x p) m hd hl hr hW hA).sub_const (D.y p)).fun_pow 2
  refine hsum.congr_deriv ?_
  have e : ∀ i, (∑ c, A i c ^ 2 + ∑ j ∈ Finset.range n.dims, G i j ^ 2) = ∑ p ∈ Finset.range D.points, (n.out phi (D.x p) - D.y p) *
      (∑ c, A i c * phi c (n.Z phi (D.x p) 0 i) + polyVal dphi (n.alpha 0 i) (n.Z phi (D.x p) 0 i) * ∑ j ∈ Finset.range n.dims, G i j * D.x p j) := by
    intro i
    simp only [mul_add, Finset.sum_add_distrib]
    congr 1
    · simp only [Finset.mul_sum]
      rw [Finset.sum_comm]
      refine Finset.sum_congr rfl fun c _ => ?_
      rw [pow_two]
      nth_rw 2 [hAl]
      rw [Finset.mul_sum]
      exact Finset.sum_congr rfl fun p _ => by ring
    · simp only [Finset.mul_sum]
      rw [Finset.sum_comm]
      refine Finset.sum_congr rfl fun j _ => ?_
      rw [pow_two]
      nth_rw 2 [hG]
      rw [Finset.mul_sum]
      exact Finset.sum_congr rfl fun p _ => by ring
  simp only [e]
  rw [Finset.sum_comm, Finset.mul_sum]
  refine Finset.sum_congr rfl fun p _ => ?_
  rw [h0, ← Finset.mul_sum]
  push_cast
  ring

/-- **C195 (partial: networks with one layer).** If the loss of a network with one layer is not stationary – some partial derivative with respect to a weight or a coefficient does not vanish –
then for every small enough learning rate the first iteration of `fit` with steepest descent or with the adaptive rate lowers the loss. -/
theorem c195_descent_partial {phi dphi : Fin P → ℝ → ℝ} (hphi : DerivOK phi dphi) (n : Net P) (h1 : n.layers = 1) (D : Data) (opt : Opt) (hopt : opt = .sd ∨ opt = .adapt)
    (momentum : ℝ)
    (hs : (∃ i < n.ridges 0, ∃ j < n.dims, deriv (fun t => (setW n 0 i j t).loss phi D) (n.W 0 i j) ≠ 0) ∨
      ∃ i < n.ridges 0, ∃ c, deriv (fun t => (setA n 0 i c t).loss phi D) (n.alpha 0 i c) ≠ 0) :
    ∃ r, 0 < r ∧ ∀ rate, 0 < rate → rate < r → ((State.start n phi D rate).step opt momentum phi dphi D).net.loss phi D < n.loss phi D := by
  set G : ℕ → ℕ → ℝ := fun i j => (State.start n phi D 0).gradW phi dphi D 0 i j with hG
  set A : ℕ → Fin P → ℝ := fun i c => (State.start n phi D 0).gradAlpha phi dphi D 0 i c with hA
  have hW : ∀ t i j, ((State.start n phi D t).step opt momentum phi dphi D).net.W 0 i j = n.W 0 i j - t * G i j := by
    intro t i j
    have e : G i j = (State.start n phi D t).gradW phi dphi D 0 i j := by
      simp only [hG]
      rw [start_gradW n h1, start_gradW n h1]
    rw [e]
    rcases hopt with rfl | rfl <;> rfl
  have hAl : ∀ t i c, ((State.start n phi D t).step opt momentum phi dphi D).net.alpha 0 i c = n.alpha 0 i c - t * A i c := by
    intro t i c
    have e : A i c = (State.start n phi D t).gradAlpha phi dphi D 0 i c := by
      simp only [hA]
      rw [start_gradAlpha n h1, start_gradAlpha n h1]
    rw [e]
    rcases hopt with rfl | rfl <;> rfl
  have h0 : ∀ x, ((State.start n phi D 0).step opt momentum phi dphi D).net.out phi x = n.out phi x := by
    intro x
    show ∑ i ∈ Finset.range (n.ridges (n.layers - 1)), polyVal phi (((State.start n phi D 0).step opt momentum phi dphi D).net.alpha (n.layers - 1) i)
      (((State.start n phi D 0).step opt momentum phi dphi D).net.Z phi x (n.layers - 1) i) =
      ∑ i ∈ Finset.range (n.ridges (n.layers - 1)), polyVal phi (n.alpha (n.layers - 1) i) (n.Z phi x (n.layers - 1) i)
    rw [h1]
    refine Finset.sum_congr rfl fun i _ => ?_
    have e1 : ((State.start n phi D 0).step opt momentum phi dphi D).net.alpha (1 - 1) i = n.alpha (1 - 1) i := by
      funext c
      rw [show 1 - 1 = 0 from rfl, hAl]
      ring
    have e2 : ((State.start n phi D 0).step opt momentum phi dphi D).net.Z phi x (1 - 1) i = n.Z phi x (1 - 1) i := by
      show ∑ j ∈ Finset.range n.dims, ((State.start n phi D 0).step opt momentum phi dphi D).net.W 0 i j * x j = ∑ j ∈ Finset.range n.dims, n.W 0 i j * x j
      refine Finset.sum_congr rfl fun j _ => ?_
      rw [hW]
      ring
    rw [e1, e2]
  have hder := loss_path hphi n h1 D G A (fun i j => start_gradW n h1 phi dphi D 0 i j) (fun i c => start_gradAlpha n h1 phi dphi D 0 i c)
    (fun t => ((State.start n phi D t).step opt momentum phi dphi D).net) h0 (fun _ => rfl) (fun _ => rfl) (fun _ => rfl) hW hAl
  have hnn : ∀ i, 0 ≤ ∑ c, A i c ^ 2 + ∑ j ∈ Finset.range n.dims, G i j ^ 2 := fun i =>
    add_nonneg (Finset.sum_nonneg fun c _ => sq_nonneg _) (Finset.sum_nonneg fun j _ => sq_nonneg _)
  have hpos : 0 < ∑ i ∈ Finset.range (n.ridges 0), (∑ c, A i c ^ 2 + ∑ j ∈ Finset.range n.dims, G i j ^ 2) := by
    rcases hs with ⟨i, hi, j, hj, hne⟩ | ⟨i, hi, c, hne⟩
    · refine Finset.sum_pos' (fun i _ => hnn i) ⟨i, Finset.mem_range.2 hi, add_pos_of_nonneg_of_pos (Finset.sum_nonneg fun c _ => sq_nonneg _)
        (Finset.sum_pos' (fun j _ => sq_nonneg _) ⟨j, Finset.mem_range.2 hj, ?_⟩)⟩
      have hc := c73_last_layer_partial hphi n D 0 i j (by rw [h1]; exact hi) (by rw [h1]; exact hj)
      rw [h1] at hc
      have := hc.deriv
      rw [show 1 - 1 = 0 from rfl] at this
      refine sq_pos_of_ne_zero fun h => hne ?_
      rw [this, show (State.start n phi D 0).gradW phi dphi D 0 i j = 0 from h, mul_zero]
    · refine Finset.sum_pos' (fun i _ => hnn i) ⟨i, Finset.mem_range.2 hi, add_pos_of_pos_of_nonneg
        (Finset.sum_pos' (fun c _ => sq_nonneg _) ⟨c, Finset.mem_univ c, ?_⟩) (Finset.sum_nonneg fun j _ => sq_nonneg _)⟩
      have := (c73_coefficients_partial (phi := phi) (dphi := dphi) n h1 D 0 i c hi).deriv
      refine sq_pos_of_ne_zero fun h => hne ?_
      rw [this, show (State.start n phi D 0).gradAlpha phi dphi D 0 i c = 0 from h, mul_zero]
  obtain ⟨r, hr, hlow⟩ := lower_after hder (by linarith)
  refine ⟨r, hr, fun rate h2 h3 => ?_⟩
  have := hlow rate h2 h3
  have e : ((State.start n phi D 0).step opt momentum phi dphi D).net.loss phi D = n.loss phi D := by
    unfold Net.loss
    simp only [h0]
  rwa [e] at this

/-- The polynomial `z^2` with the weight 1: the loss is not stationary. -/
example : ∃ r, 0 < r ∧ ∀ rate, 0 < rate → rate < r →
    ((State.start (oneNet 1 ![3, 0, 6 / Real.sqrt 5]) legPhi oneData rate).step .sd 0 legPhi legDphi oneData).net.loss legPhi oneData <
      (oneNet 1 ![3, 0, 6 / Real.sqrt 5]).loss legPhi oneData := by
  refine c195_descent_partial leg_deriv _ rfl oneData .sd (Or.inl rfl) 0 (Or.inr ⟨0, by decide, 0, ?_⟩)
  rw [(c73_coefficients_partial (phi := legPhi) (dphi := legDphi) (oneNet 1 ![3, 0, 6 / Real.sqrt 5]) rfl oneData 0 0 0 (by decide)).deriv,
    oneState_gradAlpha _ rfl rfl rfl]
  show 2 * ((1 : ℝ) * polyVal legPhi ![3, 0, 6 / Real.sqrt 5] 1) ≠ 0
  have : polyVal legPhi ![3, 0, 6 / Real.sqrt 5] 1 = 1 := by
    rw [polyVal3]
    show 3 * 1 + 0 * (1 / Real.sqrt 3) + 6 / Real.sqrt 5 * (Real.sqrt 5 / 2 * (1 ^ 2 / 3 - 1)) = 1
    have e : 6 / Real.sqrt 5 * Real.sqrt 5 = 6 := div_mul_cancel₀ _ sqrt5_ne
    linear_combination (-1/3 : ℝ) * e
  rw [this]
  norm_num

/-! ### Two layers -/

/-- Two layers of one ridge, all weights 1; the coefficients of the first layer are those of `-10 z`, of the second those of `z`. -/
noncomputable def deepNet : Net 3 :=
  ⟨1, 2, fun _ => 1, fun _ _ _ => 1, fun k _ => if k = 0 then ![0, -10 * Real.sqrt 3, 0] else ![0, Real.sqrt 3, 0]⟩

/-- Two samples with input 1 and output 0. -/
def pairData : Data := ⟨2, fun _ _ => 1, fun _ => 0⟩

theorem lineVal (a z : ℝ) : polyVal legPhi ![0, a * Real.sqrt 3, 0] z = a * z := by
  rw [polyVal3]
  show 0 * 1 + a * Real.sqrt 3 * (z / Real.sqrt 3) + 0 * (Real.sqrt 5 / 2 * (z ^ 2 / 3 - 1)) = _
  have := sqrt3_ne
  field_simp
  ring

theorem lineVal1 (z : ℝ) : polyVal legPhi ![0, Real.sqrt 3, 0] z = z := by
  have := lineVal 1 z
  rwa [one_mul, one_mul] at this

theorem lineGrad (a z : ℝ) : polyVal legDphi ![0, a * Real.sqrt 3, 0] z = a := by
  rw [polyVal3]
  show 0 * 0 + a * Real.sqrt 3 * (1 / Real.sqrt 3) + 0 * (Real.sqrt 5 / 3 * z) = _
  have := sqrt3_ne
  field_simp
  ring

theorem lineGrad1 (z : ℝ) : polyVal legDphi ![0, Real.sqrt 3, 0] z = 1 := by
  have := lineGrad 1 z
  rwa [one_mul] at this

/-- The output of a network of two layers with one ridge. -/
theorem two_out (n : Net 3) (hd : n.dims = 1) (hl : n.layers = 2) (hr : ∀ k, n.ridges k = 1) :
    n.out legPhi (fun _ => 1) = polyVal legPhi (n.alpha 1 0) (n.W 1 0 0 * polyVal legPhi (n.alpha 1 0) (n.W 0 0 0)) := by
  unfold Net.out
  rw [hl, show 2 - 1 = 1 from rfl, hr, Finset.sum_range_one]
  show polyVal legPhi (n.alpha 1 0) (∑ j ∈ Finset.range (n.ridges 0), n.W 1 0 j * polyVal legPhi (n.alpha 1 j) (∑ i ∈ Finset.range n.dims, n.W 0 j i * 1)) = _
  rw [hr, Finset.sum_range_one, hd, Finset.sum_range_one, mul_one]

theorem deep_out : deepNet.out legPhi (fun _ => 1) = 1 := by
  rw [two_out deepNet rfl rfl fun _ => rfl]
  show polyVal legPhi ![0, Real.sqrt 3, 0] (1 * polyVal legPhi ![0, Real.sqrt 3, 0] 1) = 1
  rw [lineVal1, lineVal1, one_mul]

theorem deep_Z0 : deepNet.Z legPhi (fun _ => 1) 0 0 = 1 := by
  show ∑ j ∈ Finset.range 1, (1 : ℝ) * 1 = 1
  simp

theorem deep_Y0 : deepNet.Y legPhi (fun _ => 1) 0 0 = 1 := by
  show polyVal legPhi ![0, Real.sqrt 3, 0] (deepNet.Z legPhi (fun _ => 1) 0 0) = 1
  rw [deep_Z0, lineVal1]

theorem deep_Z1 : deepNet.Z legPhi (fun _ => 1) 1 0 = 1 := by
  show ∑ j ∈ Finset.range 1, (1 : ℝ) * polyVal legPhi ![0, Real.sqrt 3, 0] (deepNet.Z legPhi (fun _ => 1) 0 j) = 1
  rw [Finset.sum_range_one, deep_Z0, lineVal1, one_mul]

theorem deep_delta0 (rate : ℝ) (p : ℕ) : (State.start deepNet legPhi pairData rate).delta legPhi legDphi pairData p 0 0 = 1 := by
  show (deepNet.out legPhi (fun _ => 1) - 0) * polyVal legDphi ![0, Real.sqrt 3, 0] _ = 1
  rw [deep_out, lineGrad1]
  norm_num

theorem deep_gradW1 (rate : ℝ) : (State.start deepNet legPhi pairData rate).gradW legPhi legDphi pairData 1 0 0 = 2 := by
  unfold State.gradW
  show ∑ p ∈ Finset.range 2, (State.start deepNet legPhi pairData rate).delta legPhi legDphi pairData p 0 0 * deepNet.Y legPhi (fun _ => 1) 0 0 = 2
  simp only [deep_delta0, deep_Y0]
  simp

theorem deep_gradW0 (rate : ℝ) : (State.start deepNet legPhi pairData rate).gradW legPhi legDphi pairData 0 0 0 = -20 := by
  unfold State.gradW
  show ∑ p ∈ Finset.range 2, (polyVal legDphi ![0, -10 * Real.sqrt 3, 0] _ *
    ∑ m ∈ Finset.range 1, (1 : ℝ) * (State.start deepNet legPhi pairData rate).delta legPhi legDphi pairData p 0 m) * 1 = -20
  simp only [Finset.sum_range_one, deep_delta0, lineGrad]
  simp
  norm_num

theorem deep_gradAlpha1 (rate : ℝ) (c : Fin 3) : (State.start deepNet legPhi pairData rate).gradAlpha legPhi legDphi pairData 1 0 c = 2 * legPhi c 1 := by
  unfold State.gradAlpha
  show ∑ p ∈ Finset.range 2, legPhi c (deepNet.Z legPhi (fun _ => 1) 1 0) * (deepNet.out legPhi (fun _ => 1) - 0) = _
  rw [deep_Z1, deep_out]
  simp

/-- The polynomial of the second layer after the first iteration. -/
theorem deep_poly (rate z : ℝ) :
    polyVal legPhi (((State.start deepNet legPhi pairData rate).step .sd 0 legPhi legDphi pairData).net.alpha 1 0) z =
      -(2 * rate) + z - 2 * rate * z / 3 + 2 * rate * (5/6) * (z ^ 2 / 3 - 1) := by
  have e : ∀ c, ((State.start deepNet legPhi pairData rate).step .sd 0 legPhi legDphi pairData).net.alpha 1 0 c =
      (![0, Real.sqrt 3, 0] : Fin 3 → ℝ) c - rate * (2 * legPhi c 1) := by
    intro c
    rw [← deep_gradAlpha1 rate c]
    rfl
  rw [polyVal3, e, e, e]
  show (0 - rate * (2 * 1)) * 1 + (Real.sqrt 3 - rate * (2 * (1 / Real.sqrt 3))) * (z / Real.sqrt 3) +
    (0 - rate * (2 * (Real.sqrt 5 / 2 * (1 ^ 2 / 3 - 1)))) * (Real.sqrt 5 / 2 * (z ^ 2 / 3 - 1)) = _
  have h3 : (Real.sqrt 3 - rate * (2 * (1 / Real.sqrt 3))) * (z / Real.sqrt 3) = z - 2 * rate * z / 3 := by
    have hne := sqrt3_ne
    have e3 : Real.sqrt 3 ^ 2 = 3 := by rw [pow_two, sqrt3]
    field_simp
    rw [e3]
    ring
  rw [h3]
  linear_combination (rate * (1/3) * (z ^ 2 / 3 - 1)) * sqrt5

/-- **C195, violated for two layers.** The activations that feed a layer are computed with the polynomials of that layer (line 111), but the gradients are those of a network that uses the
polynomials of the layer before. With two layers of one ridge, inputs 1 and outputs 0, where the loss is not stationary, the first iteration of steepest descent raises the loss for every learning
rate below 1/8, however small. -/
theorem c195_two_layers_violated :
    deriv (fun t => (setW deepNet 1 0 0 t).loss legPhi pairData) 1 ≠ 0 ∧
    ∀ rate, 0 < rate → rate < 1/8 →
      deepNet.loss legPhi pairData < ((State.start deepNet legPhi pairData rate).step .sd 0 legPhi legDphi pairData).net.loss legPhi pairData := by
  constructor
  · have := (c73_last_layer_partial leg_deriv deepNet pairData 0 0 0 (by decide) (by decide)).deriv
    have e : deriv (fun t => (setW deepNet 1 0 0 t).loss legPhi pairData) 1 = 2 * (State.start deepNet legPhi pairData 0).gradW legPhi legDphi pairData 1 0 0 := this
    rw [e, deep_gradW1]
    norm_num
  · intro rate h0 h1
    have hout : ∀ n : Net 3, n.loss legPhi pairData = 2 * n.out legPhi (fun _ => 1) ^ 2 := by
      intro n
      show ∑ p ∈ Finset.range 2, (n.out legPhi (fun _ => 1) - 0) ^ 2 = _
      rw [Finset.sum_const, Finset.card_range, sub_zero, nsmul_eq_mul]
      push_cast
      rfl
    rw [hout, hout, deep_out, two_out _ rfl rfl fun _ => rfl]
    have w0 : ((State.start deepNet legPhi pairData rate).step .sd 0 legPhi legDphi pairData).net.W 0 0 0 = 1 + 20 * rate := by
      show (1 : ℝ) - rate * (State.start deepNet legPhi pairData rate).gradW legPhi legDphi pairData 0 0 0 = _
      rw [deep_gradW0]
      ring
    have w1 : ((State.start deepNet legPhi pairData rate).step .sd 0 legPhi legDphi pairData).net.W 1 0 0 = 1 - 2 * rate := by
      show (1 : ℝ) - rate * (State.start deepNet legPhi pairData rate).gradW legPhi legDphi pairData 1 0 0 = _
      rw [deep_gradW1]
      ring
    rw [w0, w1, deep_poly, deep_poly]
    obtain ⟨s, hs⟩ : ∃ s, s = 2 * rate := ⟨_, rfl⟩
    have hs0 : 0 < s := by linarith
    have hs1 : s < 1/4 := by linarith
    rw [show 20 * rate = 10 * s by linarith, ← hs]
    obtain ⟨q, hq⟩ : ∃ q, q = -s + (1 + 10 * s) - s * (1 + 10 * s) / 3 + s * (5/6) * ((1 + 10 * s) ^ 2 / 3 - 1) := ⟨_, rfl⟩
    rw [← hq]
    have hq1 : 1 + 8 * s ≤ q := by
      rw [hq]
      nlinarith [pow_pos hs0 2, pow_pos hs0 3]
    have h2 : 0 < (1 - s) * (1 - s / 3) := mul_pos (by linarith) (by linarith)
    have h3 := mul_le_mul_of_nonneg_left hq1 h2.le
    have h4 : 0 ≤ s * (5/6) * (((1 - s) * q) ^ 2 / 3) := by positivity
    have h5 : 1 < (1 - s) * (1 - s / 3) * (1 + 8 * s) - 11/6 * s := by nlinarith [pow_pos hs0 2, pow_pos hs0 3, mul_pos hs0 (sub_pos.2 hs1)]
    have : 1 < -s + (1 - s) * q - s * ((1 - s) * q) / 3 + s * (5/6) * (((1 - s) * q) ^ 2 / 3 - 1) := by nlinarith
    nlinarith

end EQ.Polynet
