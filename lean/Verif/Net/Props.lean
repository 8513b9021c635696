import Verif.Net.Model
import Mathlib.Analysis.Calculus.Deriv.Add
import Mathlib.Analysis.Calculus.Deriv.Mul
import Mathlib.Analysis.Calculus.Deriv.Pow
import Mathlib.Analysis.Calculus.Deriv.Comp
import Mathlib.Tactic.FieldSimp
import Mathlib.Tactic.Linarith
import Mathlib.Tactic.NormNum

/-!
# Properties of polynomial networks: C73, C105, C106
-/

namespace EQ.Polynet

open EQ.Basis

/-- `dphi` is the derivative of `phi`. -/
def DerivOK (phi dphi : Fin P → ℝ → ℝ) : Prop := ∀ c z, HasDerivAt (phi c) (dphi c z) z

/-- Specification: the network with one weight replaced. -/
noncomputable def setW (n : Net P) (k i j : ℕ) (t : ℝ) : Net P :=
  { n with W := fun k' i' j' => if k' = k ∧ i' = i ∧ j' = j then t else n.W k' i' j' }

/-- Specification: the network with one coefficient replaced. -/
noncomputable def setA (n : Net P) (k i : ℕ) (c : Fin P) (t : ℝ) : Net P :=
  { n with alpha := fun k' i' c' => if k' = k ∧ i' = i ∧ c' = c then t else n.alpha k' i' c' }

theorem polyVal_deriv {phi dphi : Fin P → ℝ → ℝ} (h : DerivOK phi dphi) (a : Fin P → ℝ) (z : ℝ) :
    HasDerivAt (polyVal phi a) (polyVal dphi a z) z := by
  have := HasDerivAt.fun_sum (u := Finset.univ) fun c (_ : c ∈ Finset.univ) => (h c z).const_mul (a c)
  exact this

/-- `Z` of a layer does not depend on the weights of later layers. -/
theorem Z_setW (n : Net P) (phi : Fin P → ℝ → ℝ) (x : ℕ → ℝ) (K i j : ℕ) (t : ℝ) :
    ∀ k, k < K → ∀ m, (setW n K i j t).Z phi x k m = n.Z phi x k m := by
  intro k
  induction k with
  | zero =>
    intro hk m
    show ∑ l ∈ _, (setW n K i j t).W 0 m l * x l = ∑ l ∈ _, n.W 0 m l * x l
    refine Finset.sum_congr rfl fun l _ => ?_
    show (if 0 = K ∧ m = i ∧ l = j then t else n.W 0 m l) * x l = _
    rw [if_neg (by omega)]
  | succ k ih =>
    intro hk m
    show ∑ l ∈ _, (setW n K i j t).W (k+1) m l * polyVal phi (n.alpha (k+1) l) ((setW n K i j t).Z phi x k l) =
      ∑ l ∈ _, n.W (k+1) m l * polyVal phi (n.alpha (k+1) l) (n.Z phi x k l)
    refine Finset.sum_congr rfl fun l _ => ?_
    rw [ih (by omega) l]
    show (if k + 1 = K ∧ m = i ∧ l = j then t else n.W (k+1) m l) * _ = _
    rw [if_neg (by omega)]

/-- The input that multiplies weight `j` of layer `k`. -/
noncomputable def layerInput (n : Net P) (phi : Fin P → ℝ → ℝ) (x : ℕ → ℝ) (k j : ℕ) : ℝ :=
  if k = 0 then x j else n.Y phi x (k - 1) j

/-- Number of inputs of layer `k`. -/
def fanIn (n : Net P) (k : ℕ) : ℕ := if k = 0 then n.dims else n.ridges (k - 1)

theorem Z_eq_sum (n : Net P) (phi : Fin P → ℝ → ℝ) (x : ℕ → ℝ) (k m : ℕ) :
    n.Z phi x k m = ∑ j ∈ Finset.range (fanIn n k), n.W k m j * layerInput n phi x k j := by
  cases k with
  | zero => rfl
  | succ k => rfl

theorem sum_update (s : Finset ℕ) (j : ℕ) (hj : j ∈ s) (f g : ℕ → ℝ) (t : ℝ) :
    ∑ l ∈ s, (if l = j then t else f l) * g l = t * g j + ∑ l ∈ s.erase j, f l * g l := by
  rw [← Finset.add_sum_erase s _ hj, if_pos rfl]
  congr 1
  refine Finset.sum_congr rfl fun l hl => ?_
  rw [if_neg (Finset.ne_of_mem_erase hl)]

theorem Z_setW_last (n : Net P) (phi : Fin P → ℝ → ℝ) (x : ℕ → ℝ) (K i j : ℕ) (hj : j < fanIn n K) (t : ℝ) (m : ℕ) :
    (setW n K i j t).Z phi x K m =
      if m = i then t * layerInput n phi x K j + ∑ l ∈ (Finset.range (fanIn n K)).erase j, n.W K i l * layerInput n phi x K l
      else n.Z phi x K m := by
  rw [Z_eq_sum]
  have hin : ∀ l, layerInput (setW n K i j t) phi x K l = layerInput n phi x K l := by
    intro l
    unfold layerInput
    by_cases hK : K = 0
    · rw [if_pos hK, if_pos hK]
    · rw [if_neg hK, if_neg hK]
      show polyVal phi (n.alpha (K - 1 + 1) l) ((setW n K i j t).Z phi x (K - 1) l) =
        polyVal phi (n.alpha (K - 1 + 1) l) (n.Z phi x (K - 1) l)
      rw [Z_setW n phi x K i j t (K - 1) (by omega)]
  simp only [hin]
  have hfan : fanIn (setW n K i j t) K = fanIn n K := rfl
  rw [hfan]
  by_cases hm : m = i
  · rw [if_pos hm, ← sum_update _ j (Finset.mem_range.2 hj)]
    refine Finset.sum_congr rfl fun l _ => ?_
    show (if K = K ∧ m = i ∧ l = j then t else n.W K m l) * _ = _
    by_cases hl : l = j
    · rw [if_pos ⟨rfl, hm, hl⟩, if_pos hl]
    · rw [if_neg (by tauto), if_neg hl, hm]
  · rw [if_neg hm, Z_eq_sum]
    refine Finset.sum_congr rfl fun l _ => ?_
    show (if K = K ∧ m = i ∧ l = j then t else n.W K m l) * _ = _
    rw [if_neg (by tauto)]

/-- C73 (partial). In the first iteration (`Z` as stored by the constructor), for any number of layers: the direction used
for the weights of the last layer is half of the exact gradient of `loss()`. -/
theorem c73_last_layer_partial {phi dphi : Fin P → ℝ → ℝ} (hphi : DerivOK phi dphi) (n : Net P) (D : Data) (rate : ℝ) (i j : ℕ)
    (hi : i < n.ridges (n.layers - 1)) (hj : j < fanIn n (n.layers - 1)) :
    HasDerivAt (fun t => (setW n (n.layers - 1) i j t).loss phi D)
      (2 * (State.start n phi D rate).gradW phi dphi D (n.layers - 1) i j) (n.W (n.layers - 1) i j) := by
  set K := n.layers - 1 with hK
  have hself : ∀ x, n.W K i j * layerInput n phi x K j +
      ∑ l ∈ (Finset.range (fanIn n K)).erase j, n.W K i l * layerInput n phi x K l = n.Z phi x K i := fun x => by
    rw [Z_eq_sum, Finset.add_sum_erase _ (fun l => n.W K i l * layerInput n phi x K l) (Finset.mem_range.2 hj)]
  have hout : ∀ x, HasDerivAt (fun t => (setW n K i j t).out phi x)
      (polyVal dphi (n.alpha K i) (n.Z phi x K i) * layerInput n phi x K j) (n.W K i j) := by
    intro x
    have hz : HasDerivAt (fun t => t * layerInput n phi x K j +
        ∑ l ∈ (Finset.range (fanIn n K)).erase j, n.W K i l * layerInput n phi x K l) (layerInput n phi x K j) (n.W K i j) := by
      simpa using ((hasDerivAt_id (n.W K i j)).mul_const (layerInput n phi x K j)).add_const
        (∑ l ∈ (Finset.range (fanIn n K)).erase j, n.W K i l * layerInput n phi x K l)
    have hp := polyVal_deriv hphi (n.alpha K i) (n.Z phi x K i)
    rw [← hself x] at hp
    have hcomp := hp.comp (n.W K i j) hz
    rw [hself x] at hcomp
    have := hcomp.add_const (∑ m ∈ (Finset.range (n.ridges K)).erase i, polyVal phi (n.alpha K m) (n.Z phi x K m))
    refine this.congr_of_eventuallyEq (Filter.Eventually.of_forall fun t => ?_)
    show ∑ m ∈ Finset.range (n.ridges K), polyVal phi (n.alpha K m) ((setW n K i j t).Z phi x K m) = _
    rw [← Finset.add_sum_erase _ _ (Finset.mem_range.2 hi)]
    rw [Z_setW_last n phi x K i j hj t i, if_pos rfl]
    congr 1
    refine Finset.sum_congr rfl fun m hm => ?_
    rw [Z_setW_last n phi x K i j hj t m, if_neg (Finset.ne_of_mem_erase hm)]
  have hsetout : ∀ x, (setW n K i j (n.W K i j)).out phi x = n.out phi x := by
    intro x
    have : setW n K i j (n.W K i j) = n := by
      unfold setW
      congr 1
      funext k' i' j'
      by_cases h : k' = K ∧ i' = i ∧ j' = j
      · rw [if_pos h, h.1, h.2.1, h.2.2]
      · rw [if_neg h]
    rw [this]
  have hsum := HasDerivAt.fun_sum (u := Finset.range D.points) fun p (_ : p ∈ Finset.range D.points) =>
    ((hout (D.x p)).sub_const (D.y p)).fun_pow 2
  refine hsum.congr_deriv ?_
  unfold State.gradW
  rw [Finset.mul_sum]
  refine Finset.sum_congr rfl fun p _ => ?_
  have hd : (State.start n phi D rate).net.layers - 1 - K = 0 := by
    show n.layers - 1 - K = 0
    omega
  rw [hd, hsetout]
  show _ = 2 * (((n.out phi (D.x p) - D.y p) * polyVal dphi (n.alpha (n.layers - 1) i) (n.Z phi (D.x p) (n.layers - 1) i)) *
    layerInput n phi (D.x p) K j)
  rw [← hK]
  push_cast
  ring

/-- C73 (partial). In every later iteration, for any number of layers: the direction used for the weights of the last layer is
half of the exact gradient of `loss()` whenever the iteration before has left the inputs of the last activations unchanged. -/
theorem c73_unchanged_partial {phi dphi : Fin P → ℝ → ℝ} (hphi : DerivOK phi dphi) (s s' : State P) (opt : Opt) (momentum : ℝ)
    (D : Data) (hs : s' = s.step opt momentum phi dphi D)
    (hZ : ∀ p < D.points, ∀ i < s'.net.ridges (s'.net.layers - 1),
      s'.net.Z phi (D.x p) (s'.net.layers - 1) i = s.net.Z phi (D.x p) (s'.net.layers - 1) i) (i j : ℕ)
    (hi : i < s'.net.ridges (s'.net.layers - 1)) (hj : j < fanIn s'.net (s'.net.layers - 1)) :
    HasDerivAt (fun t => (setW s'.net (s'.net.layers - 1) i j t).loss phi D)
      (2 * s'.gradW phi dphi D (s'.net.layers - 1) i j) (s'.net.W (s'.net.layers - 1) i j) := by
  have key : s'.gradW phi dphi D (s'.net.layers - 1) i j =
      (State.start s'.net phi D 0).gradW phi dphi D (s'.net.layers - 1) i j := by
    unfold State.gradW
    refine Finset.sum_congr rfl fun p hp => ?_
    have e0 : s'.net.layers - 1 - (s'.net.layers - 1) = 0 := by omega
    have e0' : (State.start s'.net phi D 0).net.layers - 1 - (s'.net.layers - 1) = 0 := e0
    rw [e0, e0']
    congr 1
    show (s'.net.out phi (D.x p) - D.y p) * polyVal dphi (s'.net.alpha (s'.net.layers - 1) i) (s'.Zst p (s'.net.layers - 1) i) =
      (s'.net.out phi (D.x p) - D.y p) *
        polyVal dphi (s'.net.alpha (s'.net.layers - 1) i) (s'.net.Z phi (D.x p) (s'.net.layers - 1) i)
    rw [hZ p (Finset.mem_range.1 hp) i hi]
    subst hs
    rfl
  rw [key]
  exact c73_last_layer_partial hphi s'.net D 0 i j hi hj

/-- C73 (partial). In the first iteration of a network with one layer the direction used for the coefficients is half of the
exact gradient of `loss()` as well. -/
theorem c73_coefficients_partial {phi dphi : Fin P → ℝ → ℝ} (n : Net P) (h1 : n.layers = 1) (D : Data) (rate : ℝ) (i : ℕ)
    (c : Fin P) (hi : i < n.ridges 0) :
    HasDerivAt (fun t => (setA n 0 i c t).loss phi D)
      (2 * (State.start n phi D rate).gradAlpha phi dphi D 0 i c) (n.alpha 0 i c) := by
  have hout : ∀ x, HasDerivAt (fun t => (setA n 0 i c t).out phi x) (phi c (n.Z phi x 0 i)) (n.alpha 0 i c) := by
    intro x
    have hl : HasDerivAt (fun t => t * phi c (n.Z phi x 0 i) +
        (∑ c' ∈ Finset.univ.erase c, n.alpha 0 i c' * phi c' (n.Z phi x 0 i) +
          ∑ m ∈ (Finset.range (n.ridges 0)).erase i, polyVal phi (n.alpha 0 m) (n.Z phi x 0 m)))
        (phi c (n.Z phi x 0 i)) (n.alpha 0 i c) := by
      simpa using ((hasDerivAt_id (n.alpha 0 i c)).mul_const (phi c (n.Z phi x 0 i))).add_const
        (∑ c' ∈ Finset.univ.erase c, n.alpha 0 i c' * phi c' (n.Z phi x 0 i) +
          ∑ m ∈ (Finset.range (n.ridges 0)).erase i, polyVal phi (n.alpha 0 m) (n.Z phi x 0 m))
    refine hl.congr_of_eventuallyEq (Filter.Eventually.of_forall fun t => ?_)
    show ∑ m ∈ Finset.range (n.ridges (n.layers - 1)), polyVal phi ((setA n 0 i c t).alpha (n.layers - 1) m)
      ((setA n 0 i c t).Z phi x (n.layers - 1) m) = _
    rw [h1]
    show ∑ m ∈ Finset.range (n.ridges 0), polyVal phi ((setA n 0 i c t).alpha 0 m) (n.Z phi x 0 m) = _
    simp only
    rw [← Finset.add_sum_erase _ _ (Finset.mem_range.2 hi), ← add_assoc]
    congr 1
    · unfold polyVal
      rw [← Finset.add_sum_erase _ _ (Finset.mem_univ c)]
      congr 1
      · show (if 0 = 0 ∧ i = i ∧ c = c then t else _) * _ = _
        rw [if_pos ⟨rfl, rfl, rfl⟩]
      · refine Finset.sum_congr rfl fun c' hc' => ?_
        show (if 0 = 0 ∧ i = i ∧ c' = c then t else n.alpha 0 i c') * _ = _
        rw [if_neg (fun h => Finset.ne_of_mem_erase hc' h.2.2)]
    · refine Finset.sum_congr rfl fun m hm => ?_
      congr 1
      funext c'
      show (if 0 = 0 ∧ m = i ∧ c' = c then t else n.alpha 0 m c') = _
      rw [if_neg (fun h => Finset.ne_of_mem_erase hm h.2.1)]
  have hself : setA n 0 i c (n.alpha 0 i c) = n := by
    unfold setA
    congr 1
    funext k' i' c'
    by_cases h : k' = 0 ∧ i' = i ∧ c' = c
    · rw [if_pos h, h.1, h.2.1, h.2.2]
    · rw [if_neg h]
  have hsum := HasDerivAt.fun_sum (u := Finset.range D.points) fun p (_ : p ∈ Finset.range D.points) =>
    ((hout (D.x p)).sub_const (D.y p)).fun_pow 2
  refine hsum.congr_deriv ?_
  unfold State.gradAlpha
  rw [Finset.mul_sum]
  refine Finset.sum_congr rfl fun p _ => ?_
  rw [hself, if_pos (show 0 = (State.start n phi D rate).net.layers - 1 by show 0 = n.layers - 1; rw [h1])]
  show _ = 2 * (phi c (n.Z phi (D.x p) 0 i) * (n.out phi (D.x p) - D.y p))
  push_cast
  ring

/-- C73 is violated with two or more layers: the coefficients of the first layer have no influence on the output, whatever
they are. -/
theorem c73_first_layer_violated (n : Net P) (hL : 2 ≤ n.layers) (phi : Fin P → ℝ → ℝ) (a : ℕ → Fin P → ℝ) (x : ℕ → ℝ) :
    { n with alpha := fun k => if k = 0 then a else n.alpha k }.out phi x = n.out phi x := by
  have hZ : ∀ k m, Net.Z { n with alpha := fun k => if k = 0 then a else n.alpha k } phi x k m = n.Z phi x k m := by
    intro k
    induction k with
    | zero => intro m; rfl
    | succ k ih =>
      intro m
      show ∑ j ∈ _, n.W (k+1) m j * polyVal phi ((if k + 1 = 0 then a else n.alpha (k+1)) j) (Net.Z _ phi x k j) =
        ∑ j ∈ _, n.W (k+1) m j * polyVal phi (n.alpha (k+1) j) (n.Z phi x k j)
      refine Finset.sum_congr rfl fun j _ => ?_
      rw [ih, if_neg (by omega)]
  show ∑ i ∈ Finset.range (n.ridges (n.layers - 1)), polyVal phi ((if n.layers - 1 = 0 then a else n.alpha (n.layers - 1)) i)
    (Net.Z _ phi x (n.layers - 1) i) = _
  refine Finset.sum_congr rfl fun i _ => ?_
  rw [hZ, if_neg (by omega)]

/-- C73 is violated when a layer is smaller than the one before: the network cannot be evaluated at all. -/
theorem c73_narrowing_violated (n : Net P) (k : ℕ) (hk : k + 1 < n.layers) (h : n.ridges (k + 1) < n.ridges k)
    (phi : Fin P → ℝ → ℝ) (x : ℕ → ℝ) : n.evaluateFit phi x = .error .attributeError := by
  unfold Net.evaluateFit
  rw [if_pos ⟨k, by omega, h⟩]

/-! ### Concrete networks

The basis of the code for `poly_deg = 2`: the orthonormal polynomials of the uniform distribution on `[-3, 3]`. -/

/-- Example: the three basis polynomials. -/
noncomputable def legPhi : Fin 3 → ℝ → ℝ
  | 0, _ => 1
  | 1, z => z / Real.sqrt 3
  | 2, z => Real.sqrt 5 / 2 * (z ^ 2 / 3 - 1)

/-- Example: their derivatives. -/
noncomputable def legDphi : Fin 3 → ℝ → ℝ
  | 0, _ => 0
  | 1, _ => 1 / Real.sqrt 3
  | 2, z => Real.sqrt 5 / 3 * z

theorem leg_deriv : DerivOK legPhi legDphi := by
  intro c z
  match c with
  | 0 => exact hasDerivAt_const z (1 : ℝ)
  | 1 => exact (hasDerivAt_id z).div_const _
  | 2 =>
    have h := ((((hasDerivAt_id z).fun_pow 2).div_const 3).sub_const 1).const_mul (Real.sqrt 5 / 2)
    refine h.congr_deriv ?_
    show _ = Real.sqrt 5 / 3 * z
    simp only [id]
    push_cast
    ring

/-- One input, one layer with one ridge, weight `w`, coefficients `a`. -/
noncomputable def oneNet (w : ℝ) (a : Fin 3 → ℝ) : Net 3 := ⟨1, 1, fun _ => 1, fun _ _ _ => w, fun _ _ => a⟩

/-- One data point: input 1, output 0. -/
def oneData : Data := ⟨1, fun _ _ => 1, fun _ => 0⟩

theorem oneNet_Z (n : Net 3) (hd : n.dims = 1) (x : ℕ → ℝ) : n.Z legPhi x 0 0 = n.W 0 0 0 * x 0 := by
  show ∑ j ∈ Finset.range n.dims, n.W 0 0 j * x j = _
  rw [hd, Finset.sum_range_one]

theorem oneNet_out (n : Net 3) (hd : n.dims = 1) (hl : n.layers = 1) (hr : n.ridges 0 = 1) (x : ℕ → ℝ) :
    n.out legPhi x = polyVal legPhi (n.alpha 0 0) (n.W 0 0 0 * x 0) := by
  unfold Net.out
  rw [hl, show 1 - 1 = 0 from rfl, hr, Finset.sum_range_one, oneNet_Z n hd]

theorem oneState_gradW (s : State 3) (hd : s.net.dims = 1) (hl : s.net.layers = 1) (hr : s.net.ridges 0 = 1) :
    s.gradW legPhi legDphi oneData 0 0 0 =
      polyVal legPhi (s.net.alpha 0 0) (s.net.W 0 0 0) * polyVal legDphi (s.net.alpha 0 0) (s.Zst 0 0 0) := by
  unfold State.gradW
  show ∑ p ∈ Finset.range 1, _ = _
  rw [Finset.sum_range_one, hl, show 1 - 1 - 0 = 0 from rfl, if_pos rfl]
  show (s.net.out legPhi (oneData.x 0) - 0) * polyVal legDphi (s.net.alpha (s.net.layers - 1) 0) (s.Zst 0 (s.net.layers - 1) 0) * 1 = _
  rw [hl, oneNet_out s.net hd hl hr]
  show (polyVal legPhi (s.net.alpha 0 0) (s.net.W 0 0 0 * 1) - 0) * _ * 1 = _
  rw [mul_one, sub_zero, mul_one]

theorem oneState_gradAlpha (s : State 3) (hd : s.net.dims = 1) (hl : s.net.layers = 1) (hr : s.net.ridges 0 = 1) (c : Fin 3) :
    s.gradAlpha legPhi legDphi oneData 0 0 c =
      legPhi c (s.net.W 0 0 0) * polyVal legPhi (s.net.alpha 0 0) (s.net.W 0 0 0) := by
  unfold State.gradAlpha
  show ∑ p ∈ Finset.range 1, _ = _
  rw [Finset.sum_range_one, hl, if_pos rfl, oneNet_Z s.net hd, oneNet_out s.net hd hl hr]
  show legPhi c (s.net.W 0 0 0 * 1) * (polyVal legPhi (s.net.alpha 0 0) (s.net.W 0 0 0 * 1) - 0) = _
  rw [mul_one, sub_zero]

theorem polyVal3 (phi : Fin 3 → ℝ → ℝ) (a : Fin 3 → ℝ) (z : ℝ) :
    polyVal phi a z = a 0 * phi 0 z + a 1 * phi 1 z + a 2 * phi 2 z := by
  unfold polyVal; rw [Fin.sum_univ_three]

/-- `Z` and the gradients of the last layer exist for the example, and the theorems above apply to it. -/
example : HasDerivAt (fun t => (setW (oneNet 1 ![3, 0, 6 / Real.sqrt 5]) 0 0 0 t).loss legPhi oneData)
    (2 * (State.start (oneNet 1 ![3, 0, 6 / Real.sqrt 5]) legPhi oneData (1/2)).gradW legPhi legDphi oneData 0 0 0) 1 :=
  c73_last_layer_partial leg_deriv (oneNet 1 ![3, 0, 6 / Real.sqrt 5]) oneData (1/2) 0 0 (by decide) (by decide)

/-- The hypothesis of `c73_unchanged_partial` holds for a constant polynomial: its weight stays while its coefficients change. -/
example : ∀ p < oneData.points, ∀ i < 1,
    ((State.start (oneNet 1 ![1, 0, 0]) legPhi oneData (1/2)).step .sd 0 legPhi legDphi oneData).net.Z legPhi (oneData.x p) 0 i =
      (oneNet 1 ![1, 0, 0]).Z legPhi (oneData.x p) 0 i := by
  intro p _ i hi
  obtain rfl : i = 0 := by omega
  rw [oneNet_Z _ rfl]
  show (1 - 1/2 * (State.start (oneNet 1 ![1, 0, 0]) legPhi oneData (1/2)).gradW legPhi legDphi oneData 0 0 0) * 1 =
    ∑ j ∈ Finset.range 1, 1 * 1
  rw [oneState_gradW _ rfl rfl rfl]
  have : polyVal legDphi ((State.start (oneNet 1 ![1, 0, 0]) legPhi oneData (1/2)).net.alpha 0 0) = fun _ => 0 := by
    funext z
    show polyVal legDphi ![1, 0, 0] z = 0
    rw [polyVal3]
    simp [legDphi]
  rw [this]
  simp

example : HasDerivAt (fun t => (setA (oneNet 1 ![3, 0, 6 / Real.sqrt 5]) 0 0 1 t).loss legPhi oneData)
    (2 * (State.start (oneNet 1 ![3, 0, 6 / Real.sqrt 5]) legPhi oneData (1/2)).gradAlpha legPhi legDphi oneData 0 0 1) 0 :=
  c73_coefficients_partial (oneNet 1 ![3, 0, 6 / Real.sqrt 5]) rfl oneData (1/2) 0 1 (by decide)

/-- Two layers with two and one ridges. -/
noncomputable def narrowNet : Net 3 := ⟨1, 2, fun k => 2 - k, fun _ _ _ => 1, fun _ _ => ![0, 1, 0]⟩

example : narrowNet.evaluateFit legPhi (fun _ => 1) = .error .attributeError :=
  c73_narrowing_violated narrowNet 0 (by decide) (by decide) legPhi _

example (a : ℕ → Fin 3 → ℝ) (x : ℕ → ℝ) :
    { narrowNet with alpha := fun k => if k = 0 then a else narrowNet.alpha k }.out legPhi x = narrowNet.out legPhi x :=
  c73_first_layer_violated narrowNet (by decide) legPhi a x

/-- The state after one iteration of steepest descent with rate 1/2, started with the polynomial `z^2` and the weight 1. -/
noncomputable def secondState : State 3 :=
  (State.start (oneNet 1 ![3, 0, 6 / Real.sqrt 5]) legPhi oneData (1/2)).step .sd 0 legPhi legDphi oneData

theorem sqrt5 : Real.sqrt 5 * Real.sqrt 5 = 5 := Real.mul_self_sqrt (by norm_num)
theorem sqrt3 : Real.sqrt 3 * Real.sqrt 3 = 3 := Real.mul_self_sqrt (by norm_num)
theorem sqrt5_ne : Real.sqrt 5 ≠ 0 := by positivity
theorem sqrt3_ne : Real.sqrt 3 ≠ 0 := by positivity

theorem secondState_W : secondState.net.W 0 0 0 = 0 := by
  show (State.start (oneNet 1 ![3, 0, 6 / Real.sqrt 5]) legPhi oneData (1/2)).newW .sd 0 legPhi legDphi oneData 0 0 0 = 0
  show (1 : ℝ) - 1/2 * (State.start (oneNet 1 ![3, 0, 6 / Real.sqrt 5]) legPhi oneData (1/2)).gradW legPhi legDphi oneData 0 0 0 = 0
  rw [oneState_gradW _ rfl rfl rfl]
  show (1 : ℝ) - 1/2 * (polyVal legPhi ![3, 0, 6 / Real.sqrt 5] 1 *
    polyVal legDphi ![3, 0, 6 / Real.sqrt 5] ((oneNet 1 ![3, 0, 6 / Real.sqrt 5]).Z legPhi (oneData.x 0) 0 0)) = 0
  rw [oneNet_Z _ rfl]
  show (1 : ℝ) - 1/2 * (polyVal legPhi ![3, 0, 6 / Real.sqrt 5] 1 * polyVal legDphi ![3, 0, 6 / Real.sqrt 5] (1 * 1)) = 0
  rw [polyVal3, polyVal3]
  show (1 : ℝ) - 1/2 * ((3 * 1 + 0 * (1 / Real.sqrt 3) + 6 / Real.sqrt 5 * (Real.sqrt 5 / 2 * (1 ^ 2 / 3 - 1))) *
    (3 * 0 + 0 * (1 / Real.sqrt 3) + 6 / Real.sqrt 5 * (Real.sqrt 5 / 3 * (1 * 1)))) = 0
  have e : 6 / Real.sqrt 5 * Real.sqrt 5 = 6 := div_mul_cancel₀ _ sqrt5_ne
  have e1 : 6 / Real.sqrt 5 * (Real.sqrt 5 / 2 * (1 ^ 2 / 3 - 1)) = -2 := by linear_combination (-1/3 : ℝ) * e
  have e2 : 6 / Real.sqrt 5 * (Real.sqrt 5 / 3 * (1 * 1)) = 2 := by linear_combination (1/3 : ℝ) * e
  rw [e1, e2]
  norm_num

theorem secondState_alpha (c : Fin 3) :
    secondState.net.alpha 0 0 c = (![3, 0, 6 / Real.sqrt 5] : Fin 3 → ℝ) c - 1/2 * legPhi c 1 := by
  show (![3, 0, 6 / Real.sqrt 5] : Fin 3 → ℝ) c - 1/2 *
    (State.start (oneNet 1 ![3, 0, 6 / Real.sqrt 5]) legPhi oneData (1/2)).gradAlpha legPhi legDphi oneData 0 0 c = _
  rw [oneState_gradAlpha _ rfl rfl rfl]
  show _ - 1/2 * (legPhi c 1 * polyVal legPhi ![3, 0, 6 / Real.sqrt 5] 1) = _
  have : polyVal legPhi ![3, 0, 6 / Real.sqrt 5] 1 = 1 := by
    rw [polyVal3]
    show 3 * 1 + 0 * (1 / Real.sqrt 3) + 6 / Real.sqrt 5 * (Real.sqrt 5 / 2 * (1 ^ 2 / 3 - 1)) = 1
    have e : 6 / Real.sqrt 5 * Real.sqrt 5 = 6 := div_mul_cancel₀ _ sqrt5_ne
    linear_combination (-1/3 : ℝ) * e
  rw [this, mul_one]

theorem secondState_Z : secondState.Zst 0 0 0 = 1 := by
  show (oneNet 1 ![3, 0, 6 / Real.sqrt 5]).Z legPhi (oneData.x 0) 0 0 = 1
  rw [oneNet_Z _ rfl]
  show (1 : ℝ) * 1 = 1
  norm_num

theorem secondState_val : polyVal legPhi (secondState.net.alpha 0 0) 0 = -(11/12) := by
  rw [polyVal3, secondState_alpha, secondState_alpha, secondState_alpha]
  show (3 - 1/2 * 1) * 1 + (0 - 1/2 * (1 / Real.sqrt 3)) * (0 / Real.sqrt 3) +
    (6 / Real.sqrt 5 - 1/2 * (Real.sqrt 5 / 2 * (1 ^ 2 / 3 - 1))) * (Real.sqrt 5 / 2 * (0 ^ 2 / 3 - 1)) = -(11/12)
  have h5 := sqrt5_ne
  have h3 := sqrt3_ne
  have e : 6 / Real.sqrt 5 * Real.sqrt 5 = 6 := div_mul_cancel₀ _ h5
  rw [zero_div, mul_zero]
  nlinarith [sqrt5, e]

theorem secondState_grad (z : ℝ) : polyVal legDphi (secondState.net.alpha 0 0) z = -(1/6) + (2 + 5/18) * z := by
  rw [polyVal3, secondState_alpha, secondState_alpha, secondState_alpha]
  show (3 - 1/2 * 1) * 0 + (0 - 1/2 * (1 / Real.sqrt 3)) * (1 / Real.sqrt 3) +
    (6 / Real.sqrt 5 - 1/2 * (Real.sqrt 5 / 2 * (1 ^ 2 / 3 - 1))) * (Real.sqrt 5 / 3 * z) = -(1/6) + (2 + 5/18) * z
  have h5 := sqrt5_ne
  have h3 := sqrt3_ne
  have e : 6 / Real.sqrt 5 * Real.sqrt 5 = 6 := div_mul_cancel₀ _ h5
  have e3 : 1 / Real.sqrt 3 * (1 / Real.sqrt 3) = 1/3 := by rw [div_mul_div_comm, one_mul, sqrt3]
  have : (6 / Real.sqrt 5 - 1/2 * (Real.sqrt 5 / 2 * (1 ^ 2 / 3 - 1))) * (Real.sqrt 5 / 3 * z) =
      ((6 / Real.sqrt 5 * Real.sqrt 5) / 3 + (Real.sqrt 5 * Real.sqrt 5) / 18) * z := by ring
  rw [this, e, sqrt5]
  linear_combination (-1/2 : ℝ) * e3

/-- C73 is violated from the second iteration on, even for one layer with one ridge: the derivatives of the activations are
taken at the `Z` of the previous parameters. In this run the direction used for the weight has the opposite sign of the
gradient of `loss()`. -/
theorem c73_stale_violated :
    secondState.gradW legPhi legDphi oneData 0 0 0 < 0 ∧
    HasDerivAt (fun t => (setW secondState.net 0 0 0 t).loss legPhi oneData) (11/36) (secondState.net.W 0 0 0) := by
  constructor
  · rw [oneState_gradW _ rfl rfl rfl, secondState_W, secondState_val, secondState_Z, secondState_grad]
    norm_num
  · have h := c73_last_layer_partial leg_deriv secondState.net oneData 1 0 0 (by decide) (by decide)
    refine h.congr_deriv ?_
    show 2 * (State.start secondState.net legPhi oneData 1).gradW legPhi legDphi oneData 0 0 0 = _
    rw [oneState_gradW _ rfl rfl rfl]
    show 2 * (polyVal legPhi (secondState.net.alpha 0 0) (secondState.net.W 0 0 0) *
      polyVal legDphi (secondState.net.alpha 0 0) (secondState.net.Z legPhi (oneData.x 0) 0 0)) = _
    rw [oneNet_Z _ rfl, secondState_W, zero_mul, secondState_val, secondState_grad]
    norm_num

/-! ## C106: a perfect fit is a fixed point of training -/

/-- Specification: the network reproduces all data. -/
def Perfect (n : Net P) (phi : Fin P → ℝ → ℝ) (D : Data) : Prop := ∀ p < D.points, n.out phi (D.x p) = D.y p

theorem delta_zero (s : State P) (phi dphi : Fin P → ℝ → ℝ) (D : Data) (h : Perfect s.net phi D) (p : ℕ) (hp : p < D.points) :
    ∀ r i, s.delta phi dphi D p r i = 0 := by
  intro r
  induction r with
  | zero => intro i; unfold State.delta; rw [h p hp, sub_self, zero_mul]
  | succ r ih =>
    intro i
    unfold State.delta
    rw [Finset.sum_eq_zero (fun m _ => by rw [ih m, mul_zero]), mul_zero]

theorem grads_zero (s : State P) (phi dphi : Fin P → ℝ → ℝ) (D : Data) (h : Perfect s.net phi D) :
    (∀ k i j, s.gradW phi dphi D k i j = 0) ∧ ∀ k i c, s.gradAlpha phi dphi D k i c = 0 := by
  refine ⟨fun k i j => ?_, fun k i c => ?_⟩
  · unfold State.gradW
    exact Finset.sum_eq_zero fun p hp => by rw [delta_zero s phi dphi D h p (Finset.mem_range.1 hp), zero_mul]
  · unfold State.gradAlpha
    refine Finset.sum_eq_zero fun p hp => ?_
    have hp' := Finset.mem_range.1 hp
    by_cases hk : k = s.net.layers - 1
    · rw [if_pos hk, h p hp', sub_self, mul_zero]
    · rw [if_neg hk, Finset.sum_eq_zero (fun m _ => by rw [delta_zero s phi dphi D h p hp', mul_zero]), mul_zero]

/-- C106 (partial: all strategies but `mom`). A network that reproduces its data is left unchanged by any number of
iterations, whatever the state of the optimiser. -/
theorem c106_fixed_partial (opt : Opt) (hopt : opt ≠ .mom) (momentum : ℝ) (phi dphi : Fin P → ℝ → ℝ) (D : Data) (verbose : Bool) :
    ∀ (t : ℕ) (s : State P), Perfect s.net phi D → (s.fit opt momentum phi dphi D verbose t).net = s.net := by
  have hstep : ∀ s : State P, Perfect s.net phi D → (s.step opt momentum phi dphi D).net = s.net := by
    intro s h
    obtain ⟨h1, h2⟩ := grads_zero s phi dphi D h
    have hW : s.newW opt momentum phi dphi D = s.net.W := by
      funext k i j
      cases opt with
      | sd => show s.net.W k i j - s.rate * _ = _; rw [h1, mul_zero, sub_zero]
      | mom => exact absurd rfl hopt
      | adapt => show s.net.W k i j - _ * _ = _; rw [h1, mul_zero, sub_zero]
      | other => rfl
    unfold State.step
    simp only [hW, h2, mul_zero, sub_zero]
  intro t
  induction t with
  | zero => intro s _; rfl
  | succ t ih =>
    intro s h
    have hs := hstep s h
    unfold State.fit
    simp only
    split_ifs
    · exact hs
    · rw [ih _ (by rw [hs]; exact h), hs]

/-- Polynomial `z - 2`, weight 2: the output for the example data is right. -/
theorem perfectDemo : Perfect (oneNet 2 ![-2, Real.sqrt 3, 0]) legPhi oneData := by
  intro p _
  rw [oneNet_out _ rfl rfl rfl]
  show polyVal legPhi ![-2, Real.sqrt 3, 0] (2 * 1) = 0
  rw [polyVal3]
  show -2 * 1 + Real.sqrt 3 * ((2 * 1) / Real.sqrt 3) + 0 * (Real.sqrt 5 / 2 * ((2 * 1) ^ 2 / 3 - 1)) = 0
  rw [mul_div_cancel₀ _ sqrt3_ne]
  norm_num

example (t : ℕ) : ((State.start (oneNet 2 ![-2, Real.sqrt 3, 0]) legPhi oneData (1/2)).fit .adapt 0 legPhi legDphi oneData true t).net =
    oneNet 2 ![-2, Real.sqrt 3, 0] :=
  c106_fixed_partial .adapt (by intro h; cases h) 0 legPhi legDphi oneData true t
    (State.start (oneNet 2 ![-2, Real.sqrt 3, 0]) legPhi oneData (1/2)) perfectDemo

/-- C106 is violated for `mom`: the remembered change of the weights starts as the weights themselves, so the first iteration
multiplies every weight of a perfect network by `1 - momentum_rate`. -/
theorem c106_momentum_violated (n : Net P) (phi dphi : Fin P → ℝ → ℝ) (D : Data) (h : Perfect n phi D) (rate momentum : ℝ)
    (k i j : ℕ) :
    ((State.start n phi D rate).step .mom momentum phi dphi D).net.W k i j = (1 - momentum) * n.W k i j := by
  show n.W k i j - rate * (State.start n phi D rate).gradW phi dphi D k i j - momentum * n.W k i j = _
  rw [(grads_zero (State.start n phi D rate) phi dphi D h).1]
  ring

example : ((State.start (oneNet 2 ![-2, Real.sqrt 3, 0]) legPhi oneData (1/2)).step .mom (1/4) legPhi legDphi oneData).net.W 0 0 0 ≠ 2 := by
  rw [c106_momentum_violated _ legPhi legDphi oneData perfectDemo]
  show (1 - 1/4 : ℝ) * 2 ≠ 2
  norm_num

/-! ## C105: the verbose flag -/

/-- C105 (partial). As long as the loss per point stays at or above 1e-4 after each iteration, `verbose` makes no difference. -/
theorem c105_verbose_partial (opt : Opt) (momentum : ℝ) (phi dphi : Fin P → ℝ → ℝ) (D : Data) :
    ∀ (t : ℕ) (s : State P), (∀ r, r < t → ¬ (s.fit opt momentum phi dphi D false (r + 1)).net.loss phi D / D.points < 1/10^4) →
      s.fit opt momentum phi dphi D true t = s.fit opt momentum phi dphi D false t := by
  intro t
  induction t with
  | zero => intro s _; rfl
  | succ t ih =>
    intro s h
    have e : ∀ r, s.fit opt momentum phi dphi D false (r + 1) = (s.step opt momentum phi dphi D).fit opt momentum phi dphi D false r := by
      intro r
      rw [State.fit]
      rw [if_neg (by simp)]
    rw [e, State.fit]
    have h0 := h 0 (by omega)
    rw [e 0, State.fit] at h0
    rw [if_neg (fun hc => h0 hc.1)]
    refine ih _ fun r hr => ?_
    rw [← e]
    exact h (r + 1) (by omega)

/-- With the strategy `other` and a zero rate the constant network 1 keeps the loss 1, for any number of iterations. -/
example (t : ℕ) : (State.start (oneNet 1 ![1, 0, 0]) legPhi oneData 0).fit .other 0 legPhi legDphi oneData true t =
    (State.start (oneNet 1 ![1, 0, 0]) legPhi oneData 0).fit .other 0 legPhi legDphi oneData false t := by
  refine c105_verbose_partial .other 0 legPhi legDphi oneData t _ fun r _ => ?_
  have key : ∀ (r : ℕ) (s : State 3), s.net = oneNet 1 ![1, 0, 0] → s.rate = 0 →
      (s.fit .other 0 legPhi legDphi oneData false r).net = oneNet 1 ![1, 0, 0] := by
    intro r
    induction r with
    | zero => intro s h _; exact h
    | succ r ih =>
      intro s h h0
      rw [State.fit, if_neg (by simp)]
      have hr : ∀ k, s.rateAt .other legPhi oneData k = 0 := fun k => by unfold State.rateAt; exact h0
      refine ih _ ?_ (hr (s.net.layers - 1))
      unfold State.step State.newW
      simp only [hr, zero_mul, sub_zero]
      exact h
  rw [key (r + 1) _ rfl rfl]
  unfold Net.loss
  show ¬ (∑ p ∈ Finset.range 1, _) / ((1 : ℕ) : ℝ) < _
  rw [Finset.sum_range_one, oneNet_out _ rfl rfl rfl]
  show ¬ (polyVal legPhi ![1, 0, 0] (1 * 1) - 0) ^ 2 / ((1 : ℕ) : ℝ) < _
  rw [polyVal3]
  show ¬ (1 * 1 + 0 * (1 * 1 / Real.sqrt 3) + 0 * (Real.sqrt 5 / 2 * ((1 * 1) ^ 2 / 3 - 1)) - 0) ^ 2 / ((1 : ℕ) : ℝ) < _
  norm_num

/-- Weight `1/1000`, polynomial `z`. -/
noncomputable def smallNet : Net 3 := oneNet (1/1000) ![0, Real.sqrt 3, 0]

/-- Example: one steepest descent step of the small network. -/
noncomputable def smallStep : State 3 := (State.start smallNet legPhi oneData (1/2)).step .sd 0 legPhi legDphi oneData

theorem smallVal : polyVal legPhi ![0, Real.sqrt 3, 0] (1/1000) = 1/1000 := by
  rw [polyVal3]
  show 0 * 1 + Real.sqrt 3 * (1/1000 / Real.sqrt 3) + 0 * (Real.sqrt 5 / 2 * ((1/1000) ^ 2 / 3 - 1)) = 1/1000
  have h3 := sqrt3_ne
  field_simp
  norm_num

theorem smallGrad (z : ℝ) : polyVal legDphi ![0, Real.sqrt 3, 0] z = 1 := by
  rw [polyVal3]
  show 0 * 0 + Real.sqrt 3 * (1 / Real.sqrt 3) + 0 * (Real.sqrt 5 / 3 * z) = 1
  have h3 := sqrt3_ne
  field_simp
  norm_num

theorem smallStep_W : smallStep.net.W 0 0 0 = 1/2000 := by
  show (1/1000 : ℝ) - 1/2 * (State.start smallNet legPhi oneData (1/2)).gradW legPhi legDphi oneData 0 0 0 = _
  rw [oneState_gradW _ rfl rfl rfl]
  show (1/1000 : ℝ) - 1/2 * (polyVal legPhi ![0, Real.sqrt 3, 0] (1/1000) * polyVal legDphi ![0, Real.sqrt 3, 0] _) = _
  rw [smallVal, smallGrad]
  norm_num

theorem smallStep_alpha (c : Fin 3) :
    smallStep.net.alpha 0 0 c = (![0, Real.sqrt 3, 0] : Fin 3 → ℝ) c - 1/2 * (legPhi c (1/1000) * (1/1000)) := by
  show (![0, Real.sqrt 3, 0] : Fin 3 → ℝ) c - 1/2 *
    (State.start smallNet legPhi oneData (1/2)).gradAlpha legPhi legDphi oneData 0 0 c = _
  rw [oneState_gradAlpha _ rfl rfl rfl]
  show _ - 1/2 * (legPhi c (1/1000) * polyVal legPhi ![0, Real.sqrt 3, 0] (1/1000)) = _
  rw [smallVal]

/-- The value of the network after one step. -/
theorem smallStep_val : polyVal legPhi (smallStep.net.alpha 0 0) (1/2000) =
    -(1/2000) + (1/2000) * (1 - 1/6000000) - 5/8000 * (1 - 1/3000000) * (1 - 1/12000000) := by
  rw [polyVal3, smallStep_alpha, smallStep_alpha, smallStep_alpha]
  show (0 - 1/2 * (1 * (1/1000))) * 1 + (Real.sqrt 3 - 1/2 * (1/1000 / Real.sqrt 3 * (1/1000))) * (1/2000 / Real.sqrt 3) +
    (0 - 1/2 * (Real.sqrt 5 / 2 * ((1/1000) ^ 2 / 3 - 1) * (1/1000))) * (Real.sqrt 5 / 2 * ((1/2000) ^ 2 / 3 - 1)) = _
  have h3 := sqrt3_ne
  have e1 : Real.sqrt 3 * (1/2000 / Real.sqrt 3) = 1/2000 := by field_simp
  have e2 : 1/1000 / Real.sqrt 3 * (1/2000 / Real.sqrt 3) = 1/6000000 := by
    rw [div_mul_div_comm, sqrt3]; norm_num
  have e5 := sqrt5
  linear_combination e1 + (-1/2 * (1/1000)) * e2 + (-1/2 * (1/1000) * (1/4) * ((1/1000) ^ 2 / 3 - 1) * ((1/2000) ^ 2 / 3 - 1)) * e5

theorem smallStep_grad : polyVal legDphi (smallStep.net.alpha 0 0) (smallStep.Zst 0 0 0) =
    1 - 1/6000000 + 5/12000 * (1 - 1/3000000) * (1/1000) := by
  have hz : smallStep.Zst 0 0 0 = 1/1000 := by
    show smallNet.Z legPhi (oneData.x 0) 0 0 = 1/1000
    rw [oneNet_Z _ rfl]
    show (1/1000 : ℝ) * 1 = 1/1000
    norm_num
  rw [hz, polyVal3, smallStep_alpha, smallStep_alpha, smallStep_alpha]
  show (0 - 1/2 * (1 * (1/1000))) * 0 + (Real.sqrt 3 - 1/2 * (1/1000 / Real.sqrt 3 * (1/1000))) * (1 / Real.sqrt 3) +
    (0 - 1/2 * (Real.sqrt 5 / 2 * ((1/1000) ^ 2 / 3 - 1) * (1/1000))) * (Real.sqrt 5 / 3 * (1/1000)) = _
  have h3 := sqrt3_ne
  have e1 : Real.sqrt 3 * (1 / Real.sqrt 3) = 1 := by field_simp
  have e2 : 1/1000 / Real.sqrt 3 * (1 / Real.sqrt 3) = 1/3000 := by
    rw [div_mul_div_comm, sqrt3]; norm_num
  have e5 := sqrt5
  linear_combination e1 + (-1/2 * (1/1000)) * e2 + (-1/2 * (1/1000) * (1/6) * ((1/1000) ^ 2 / 3 - 1) * (1/1000)) * e5

/-- C105 is violated: with the same data, start and `max_iters = 2`, the run with `verbose` stops after one iteration and
returns other weights. -/
theorem c105_verbose_violated :
    (State.start smallNet legPhi oneData (1/2)).fit .sd 0 legPhi legDphi oneData true 2 = smallStep ∧
    ((State.start smallNet legPhi oneData (1/2)).fit .sd 0 legPhi legDphi oneData false 2).net.W 0 0 0 ≠ smallStep.net.W 0 0 0 := by
  constructor
  · have hloss : smallStep.net.loss legPhi oneData / oneData.points < 1/10^4 := by
      unfold Net.loss
      show (∑ p ∈ Finset.range 1, _) / ((1 : ℕ) : ℝ) < _
      rw [Finset.sum_range_one, oneNet_out _ rfl rfl rfl, smallStep_W]
      show (polyVal legPhi (smallStep.net.alpha 0 0) (1/2000 * 1) - 0) ^ 2 / ((1 : ℕ) : ℝ) < _
      rw [mul_one, smallStep_val]
      norm_num
    rw [State.fit]
    rw [if_pos ⟨hloss, rfl⟩]
    rfl
  · rw [State.fit, State.fit, State.fit]
    rw [if_neg (by simp), if_neg (by simp)]
    show smallStep.net.W 0 0 0 - 1/2 * smallStep.gradW legPhi legDphi oneData 0 0 0 ≠ _
    rw [oneState_gradW _ rfl rfl rfl, smallStep_W, smallStep_val, smallStep_grad]
    norm_num

end EQ.Polynet
