import Verif.Net.TrainProps

/-!
# Training of polynomial networks in other coordinates (C226)
-/

namespace EQ.Polynet

open EQ.Basis

variable {P : ℕ}

namespace Spec

/-- `Q v` for the first `m` entries of `v`. -/
def turn (m : ℕ) (Q : ℕ → ℕ → ℝ) (v : ℕ → ℝ) : ℕ → ℝ := fun a => ∑ b ∈ Finset.range m, Q a b * v b

/-- The columns of the `m × m` matrix `Q` are orthonormal. -/
def Orthogonal (m : ℕ) (Q : ℕ → ℕ → ℝ) : Prop :=
  ∀ b < m, ∀ c < m, ∑ a ∈ Finset.range m, Q a b * Q a c = if b = c then 1 else 0

/-- The samples in the turned coordinates. -/
def turnData (m : ℕ) (Q : ℕ → ℕ → ℝ) (D : Data) : Data := { D with x := fun p => turn m Q (D.x p) }

/-- The rows of the first layer turned, the other layers as they are. -/
def turnFirst (m : ℕ) (Q : ℕ → ℕ → ℝ) (W : ℕ → ℕ → ℕ → ℝ) : ℕ → ℕ → ℕ → ℝ := fun k i => if k = 0 then turn m Q (W k i) else W k i

/-- The network for the turned coordinates. -/
def turnNet (Q : ℕ → ℕ → ℝ) (n : Net P) : Net P := { n with W := turnFirst n.dims Q n.W }

end Spec

open Spec

/-- A turn keeps scalar products. -/
theorem turn_dot {m : ℕ} {Q : ℕ → ℕ → ℝ} (hQ : Orthogonal m Q) (v x : ℕ → ℝ) :
    ∑ a ∈ Finset.range m, turn m Q v a * turn m Q x a = ∑ b ∈ Finset.range m, v b * x b := by
  simp only [turn, Finset.sum_mul_sum]
  rw [Finset.sum_comm]
  refine Finset.sum_congr rfl fun b hb => ?_
  rw [Finset.sum_comm]
  have : ∀ c ∈ Finset.range m, ∑ a ∈ Finset.range m, Q a b * v b * (Q a c * x c) = if b = c then v b * x c else 0 := by
    intro c hc
    have h := hQ b (Finset.mem_range.1 hb) c (Finset.mem_range.1 hc)
    calc ∑ a ∈ Finset.range m, Q a b * v b * (Q a c * x c) = (∑ a ∈ Finset.range m, Q a b * Q a c) * (v b * x c) := by
          rw [Finset.sum_mul]; exact Finset.sum_congr rfl fun a _ => by ring
      _ = _ := by rw [h]; split_ifs <;> simp
  rw [Finset.sum_congr rfl this, Finset.sum_ite_eq, if_pos hb]

section
variable {Q : ℕ → ℕ → ℝ}

theorem Z_turn (n : Net P) (hQ : Orthogonal n.dims Q) (phi : Fin P → ℝ → ℝ) (x : ℕ → ℝ) : ∀ k,
    (turnNet Q n).Z phi (turn n.dims Q x) k = n.Z phi x k
  | 0 => by
    funext i
    simp only [Net.Z, turnNet, turnFirst, if_true]
    exact turn_dot hQ _ _
  | k + 1 => by
    funext i
    simp only [Net.Z]
    rw [Z_turn n hQ phi x k]
    rfl

theorem out_turn (n : Net P) (hQ : Orthogonal n.dims Q) (phi : Fin P → ℝ → ℝ) (x : ℕ → ℝ) :
    (turnNet Q n).out phi (turn n.dims Q x) = n.out phi x := by
  unfold Net.out
  have e : (turnNet Q n).layers = n.layers := rfl
  rw [e, Z_turn n hQ]
  rfl

theorem loss_turn (n : Net P) (hQ : Orthogonal n.dims Q) (phi : Fin P → ℝ → ℝ) (D : Data) :
    (turnNet Q n).loss phi (turnData n.dims Q D) = n.loss phi D :=
  Finset.sum_congr rfl fun p _ => by simp only [turnData, out_turn n hQ]

/-- Two states of training, the second in turned coordinates. -/
structure Turned (Q : ℕ → ℕ → ℝ) (s s' : State P) : Prop where
  net : s'.net = turnNet Q s.net
  Z : s'.Zst = s.Zst
  change : s'.change = turnFirst s.net.dims Q s.change
  rate : s'.rate = s.rate
  prev : s'.prevLoss = s.prevLoss

variable {s s' : State P} (hQ : Orthogonal s.net.dims Q) (hs : Turned Q s s') (D : Data)
include hQ hs

theorem delta_turn (phi dphi : Fin P → ℝ → ℝ) (p : ℕ) : ∀ r, r < s.net.layers → ∀ i,
    s'.delta phi dphi (turnData s.net.dims Q D) p r i = s.delta phi dphi D p r i := by
  intro r
  induction r with
  | zero =>
    intro _ i
    simp only [State.delta, State.act, hs.net, hs.Z, turnData, out_turn s.net hQ]
    rfl
  | succ r ih =>
    intro hr i
    simp only [State.delta, State.act, hs.net, hs.Z]
    have e : (turnNet Q s.net).layers = s.net.layers := rfl
    have e1 : (turnNet Q s.net).alpha = s.net.alpha := rfl
    have e2 : (turnNet Q s.net).ridges = s.net.ridges := rfl
    have e3 : (turnNet Q s.net).W (s.net.layers - 1 - r) = s.net.W (s.net.layers - 1 - r) := by
      funext i
      exact if_neg (by omega)
    rw [e, e1, e2, e3]
    congr 1
    exact Finset.sum_congr rfl fun m _ => by rw [ih (by omega)]

theorem gradW_turn (h1 : 1 ≤ s.net.layers) (phi dphi : Fin P → ℝ → ℝ) :
    s'.gradW phi dphi (turnData s.net.dims Q D) = turnFirst s.net.dims Q (s.gradW phi dphi D) := by
  funext k i j
  have el : s'.net.layers = s.net.layers := by rw [hs.net]; rfl
  by_cases hk : k = 0
  · subst hk
    simp only [State.gradW, turnFirst, if_true, turn, el, Finset.mul_sum]
    rw [Finset.sum_comm]
    refine Finset.sum_congr rfl fun p _ => ?_
    rw [delta_turn hQ hs D phi dphi p _ (by omega)]
    simp only [turnData, turn, Finset.mul_sum]
    exact Finset.sum_congr rfl fun b _ => by ring
  · simp only [State.gradW, turnFirst, hk, if_false, el]
    refine Finset.sum_congr rfl fun p _ => ?_
    rw [delta_turn hQ hs D phi dphi p _ (by omega)]
    congr 1
    unfold Net.Y
    rw [hs.net]
    simp only [turnData]
    rw [Z_turn s.net hQ]
    rfl

theorem gradAlpha_turn (h1 : 1 ≤ s.net.layers) (phi dphi : Fin P → ℝ → ℝ) (k i : ℕ) (c : Fin P) :
    s'.gradAlpha phi dphi (turnData s.net.dims Q D) k i c = s.gradAlpha phi dphi D k i c := by
  have el : s'.net.layers = s.net.layers := by rw [hs.net]; rfl
  have er : s'.net.ridges = s.net.ridges := by rw [hs.net]; rfl
  have ew : s'.net.W (k + 1) = s.net.W (k + 1) := by rw [hs.net]; funext i; simp [turnNet, turnFirst]
  unfold State.gradAlpha
  refine Finset.sum_congr rfl fun p _ => ?_
  rw [el, er, ew]
  have ez : s'.net.Z phi ((turnData s.net.dims Q D).x p) k = s.net.Z phi (D.x p) k := by rw [hs.net]; exact Z_turn s.net hQ phi _ k
  have eo : s'.net.out phi ((turnData s.net.dims Q D).x p) = s.net.out phi (D.x p) := by rw [hs.net]; exact out_turn s.net hQ phi _
  rw [ez, eo]
  congr 1
  split_ifs
  · rfl
  · exact Finset.sum_congr rfl fun m _ => by rw [delta_turn hQ hs D phi dphi p (s.net.layers - 1 - (k + 1)) (by omega)]

theorem rateAt_turn (opt : Opt) (phi : Fin P → ℝ → ℝ) (k : ℕ) :
    s'.rateAt opt phi (turnData s.net.dims Q D) k = s.rateAt opt phi D k := by
  unfold State.rateAt
  rw [hs.prev, hs.net, hs.rate, loss_turn s.net hQ]

theorem newW_turn (h1 : 1 ≤ s.net.layers) (opt : Opt) (momentum : ℝ) (phi dphi : Fin P → ℝ → ℝ) :
    s'.newW opt momentum phi dphi (turnData s.net.dims Q D) = turnFirst s.net.dims Q (s.newW opt momentum phi dphi D) := by
  funext k i j
  unfold State.newW
  rw [gradW_turn hQ hs D h1, hs.rate, hs.change, rateAt_turn hQ hs, hs.net]
  by_cases hk : k = 0
  · subst hk
    cases opt <;> simp only [turnNet, turnFirst, if_true, turn, Finset.mul_sum, ← Finset.sum_sub_distrib] <;>
      exact Finset.sum_congr rfl fun b _ => by ring
  · cases opt <;> simp only [turnNet, turnFirst, hk, if_false]

theorem step_turn (h1 : 1 ≤ s.net.layers) (opt : Opt) (momentum : ℝ) (phi dphi : Fin P → ℝ → ℝ) :
    Turned Q (s.step opt momentum phi dphi D) (s'.step opt momentum phi dphi (turnData s.net.dims Q D)) where
  net := by
    unfold State.step turnNet
    simp only [newW_turn hQ hs D h1, rateAt_turn hQ hs, gradAlpha_turn hQ hs D h1, hs.net]
    rfl
  Z := by
    funext p k
    unfold State.step
    simp only [hs.net]
    exact Z_turn s.net hQ phi (D.x p) k
  change := by
    funext k i j
    unfold State.step
    simp only [newW_turn hQ hs D h1, hs.net]
    by_cases hk : k = 0
    · subst hk
      simp only [turnNet, turnFirst, if_true, turn, ← Finset.sum_sub_distrib]
      exact Finset.sum_congr rfl fun b _ => by ring
    · simp only [turnNet, turnFirst, hk, if_false]
  rate := by
    unfold State.step
    simp only [rateAt_turn hQ hs]
    rw [hs.net]
    rfl
  prev := by
    unfold State.step
    simp only [hs.net, loss_turn s.net hQ]

end

theorem fit_keeps (opt : Opt) (momentum : ℝ) (phi dphi : Fin P → ℝ → ℝ) (D : Data) (verbose : Bool) : ∀ (t : ℕ) (s : State P),
    (s.fit opt momentum phi dphi D verbose t).net.dims = s.net.dims
  | 0, s => rfl
  | t + 1, s => by
    unfold State.fit
    simp only
    split_ifs
    · rfl
    · exact (fit_keeps opt momentum phi dphi D verbose t _).trans rfl

/-- **C226.** Training does not depend on the choice of orthonormal coordinates for the inputs: if the inputs of the samples and
the rows of the first layer's initial weights are turned by the same orthogonal matrix, then after `fit`, with any strategy, any
number of iterations and either value of the verbose flag, the first layer's weights are turned, all other weights, the
coefficients, the learning rate and the loss are the same, and every prediction at a turned input is the one at the original input. -/
theorem c226_turn (n : Net P) (h1 : 1 ≤ n.layers) {Q : ℕ → ℕ → ℝ} (hQ : Orthogonal n.dims Q) (phi dphi : Fin P → ℝ → ℝ) (D : Data)
    (rate : ℝ) (opt : Opt) (momentum : ℝ) (verbose : Bool) (t : ℕ) :
    let E := turnData n.dims Q D
    let T := (State.start n phi D rate).fit opt momentum phi dphi D verbose t
    let T' := (State.start (turnNet Q n) phi E rate).fit opt momentum phi dphi E verbose t
    (∀ i, T'.net.W 0 i = turn n.dims Q (T.net.W 0 i)) ∧ (∀ k i, k ≠ 0 → T'.net.W k i = T.net.W k i) ∧
      T'.net.alpha = T.net.alpha ∧ T'.rate = T.rate ∧ T'.net.loss phi E = T.net.loss phi D ∧
      ∀ x, T'.net.evaluateFit phi (turn n.dims Q x) = T.net.evaluateFit phi x := by
  have key : ∀ (t : ℕ) (s s' : State P), 1 ≤ s.net.layers → s.net.dims = n.dims → Turned Q s s' →
      Turned Q (s.fit opt momentum phi dphi D verbose t) (s'.fit opt momentum phi dphi (turnData n.dims Q D) verbose t) := by
    intro t
    induction t with
    | zero => intro s s' _ _ hs; exact hs
    | succ t ih =>
      intro s s' hl hd hs
      have hQ' : Orthogonal s.net.dims Q := hd ▸ hQ
      have h2 := step_turn hQ' hs D hl opt momentum phi dphi
      rw [hd] at h2
      have hd2 : (s.step opt momentum phi dphi D).net.dims = n.dims := hd
      have hl2 : (s'.step opt momentum phi dphi (turnData n.dims Q D)).net.loss phi (turnData n.dims Q D) =
          (s.step opt momentum phi dphi D).net.loss phi D := by
        rw [h2.net, ← hd2]
        exact loss_turn _ (hd2 ▸ hQ) phi D
      have hp : (turnData n.dims Q D).points = D.points := rfl
      simp only [State.fit, hl2, hp]
      split_ifs
      · exact h2
      · exact ih _ _ hl hd2 h2
  intro E T T'
  have hT : Turned Q T T' := key t _ _ h1 rfl ⟨rfl, by funext p k; exact Z_turn n hQ phi (D.x p) k, rfl, rfl, rfl⟩
  have hd : T.net.dims = n.dims := fit_keeps opt momentum phi dphi D verbose t _
  have hQ' : Orthogonal T.net.dims Q := hd ▸ hQ
  refine ⟨fun i => ?_, fun k i hk => ?_, ?_, hT.rate, ?_, fun x => ?_⟩
  · rw [hT.net, ← hd]; rfl
  · rw [hT.net]; exact if_neg hk
  · rw [hT.net]; rfl
  · rw [hT.net]
    change (turnNet Q T.net).loss phi (turnData n.dims Q D) = _
    rw [← hd]
    exact loss_turn _ hQ' phi D
  · rw [hT.net, ← hd]
    unfold Net.evaluateFit
    rw [out_turn T.net hQ']
    rfl

/-- A quarter turn of the plane is orthogonal, and it moves the input `(1, 2)`. -/
example : ∃ Q, Orthogonal 2 Q ∧ turn 2 Q (fun b => b + 1) 0 = -2 := by
  refine ⟨fun a b => if a = 0 ∧ b = 1 then -1 else if a = 1 ∧ b = 0 then 1 else 0, ?_, ?_⟩
  · intro b hb c hc
    obtain rfl | rfl : b = 0 ∨ b = 1 := by omega
    all_goals obtain rfl | rfl : c = 0 ∨ c = 1 := by omega
    all_goals simp
  · simp [turn]
    norm_num

end EQ.Polynet
