import Verif.Basis.Model
import Mathlib.Data.Real.Basic
import Mathlib.Analysis.Real.Sqrt
import Mathlib.Algebra.BigOperators.Fin

/-!
# Model of `/repo/equadratures/polynet.py`

Layers, ridges and inputs are numbered by naturals as in the code; only the entries below the sizes matter. `phi` and `dphi`
are the basis polynomials of one variable and their derivatives (`Poly.get_poly`, `Poly.get_polyfit_grad`).
-/

namespace EQ.Polynet

open EQ.Basis

/-- The network: `layers = len(num_ridges)`, `ridges k = num_ridges[k]`, weights `W[k][i,j]` and coefficients
`coeffs[k][i,c]` (`polynet.py:29-60`). -/
structure Net (P : ℕ) where
  dims : ℕ
  layers : ℕ
  ridges : ℕ → ℕ
  W : ℕ → ℕ → ℕ → ℝ
  alpha : ℕ → ℕ → Fin P → ℝ

/-- The training data: `points` rows of inputs and outputs. -/
structure Data where
  points : ℕ
  x : ℕ → ℕ → ℝ
  y : ℕ → ℝ

/-- `poly.get_polyfit(z)` for coefficients `a` (`polynet.py:111,115`). -/
def polyVal (phi : Fin P → ℝ → ℝ) (a : Fin P → ℝ) (z : ℝ) : ℝ := ∑ c, a c * phi c z

/-- The values before activation, `Z[k][i]`, for one input row (`polynet.py:106-112`). Layer `k` is fed with the outputs of
layer `k-1` through the polynomials `poly_array[k, ·]` of layer `k`, as in line 111. -/
def Net.Z (n : Net P) (phi : Fin P → ℝ → ℝ) (x : ℕ → ℝ) : ℕ → ℕ → ℝ
  | 0, i => ∑ j ∈ Finset.range n.dims, n.W 0 i j * x j
  | k + 1, i => ∑ j ∈ Finset.range (n.ridges k), n.W (k + 1) i j * polyVal phi (n.alpha (k + 1) j) (n.Z phi x k j)

/-- `Y[k]`, the values after activation that feed layer `k + 1` (`polynet.py:109-111`). -/
def Net.Y (n : Net P) (phi : Fin P → ℝ → ℝ) (x : ℕ → ℝ) (k j : ℕ) : ℝ := polyVal phi (n.alpha (k + 1) j) (n.Z phi x k j)

/-- The output for one input row (`polynet.py:113-121`). -/
def Net.out (n : Net P) (phi : Fin P → ℝ → ℝ) (x : ℕ → ℝ) : ℝ :=
  ∑ i ∈ Finset.range (n.ridges (n.layers - 1)), polyVal phi (n.alpha (n.layers - 1) i) (n.Z phi x (n.layers - 1) i)

open Classical in
/-- `evaluate_fit` for one input row (`polynet.py:90-121`): `poly_array[k,i]` is `None` for `i >= num_ridges[k]`
(`polynet.py:44-48`), so a layer smaller than the one before makes line 111 fail. -/
noncomputable def Net.evaluateFit (n : Net P) (phi : Fin P → ℝ → ℝ) (x : ℕ → ℝ) : Except Err ℝ :=
  if ∃ k < n.layers - 1, n.ridges (k + 1) < n.ridges k then .error .attributeError else .ok (n.out phi x)

/-- `loss` (`polynet.py:208-209`), for networks whose evaluation does not fail. -/
def Net.loss (n : Net P) (phi : Fin P → ℝ → ℝ) (D : Data) : ℝ :=
  ∑ p ∈ Finset.range D.points, (n.out phi (D.x p) - D.y p) ^ 2

/-- The optimisation strategies (`polynet.py:177-190`); any other string leaves the weights alone. -/
inductive Opt | sd | mom | adapt | other

/-- What `fit` carries from one iteration to the next: the network, the stored `Z`, the last change of the weights, the
learning rate and the loss before the last update (`polynet.py:165-197`). -/
structure State (P : ℕ) where
  net : Net P
  Zst : ℕ → ℕ → ℕ → ℝ
  change : ℕ → ℕ → ℕ → ℝ
  rate : ℝ
  prevLoss : Option ℝ

/-- The state in which `fit` starts: the constructor has stored `Z` (`polynet.py:78`), and `W_change` is a copy of the
weights (`polynet.py:166`). -/
def State.start (n : Net P) (phi : Fin P → ℝ → ℝ) (D : Data) (rate : ℝ) : State P :=
  ⟨n, fun p => n.Z phi (D.x p), n.W, rate, none⟩

/-- `act_mat[k][i]` at row `p` (`polynet.py:131-134`): the derivative of the polynomial at the stored `Z`. -/
def State.act (s : State P) (dphi : Fin P → ℝ → ℝ) (p k i : ℕ) : ℝ := polyVal dphi (s.net.alpha k i) (s.Zst p k i)

/-- `delta[k][i]` at row `p`, computed backwards (`polynet.py:136-140`); the first argument is the distance from the last
layer, `layers - 1 - k`. -/
def State.delta (s : State P) (phi dphi : Fin P → ℝ → ℝ) (D : Data) (p : ℕ) : ℕ → ℕ → ℝ
  | 0, i => (s.net.out phi (D.x p) - D.y p) * s.act dphi p (s.net.layers - 1) i
  | r + 1, i => s.act dphi p (s.net.layers - 1 - (r + 1)) i *
      ∑ m ∈ Finset.range (s.net.ridges (s.net.layers - 1 - r)),
        s.net.W (s.net.layers - 1 - r) m i * s.delta phi dphi D p r m

/-- `gradient_Wk(k)[i,j]` (`polynet.py:210-215`). `Y` has been refreshed by `evaluate_fit(..., train=True)` in
`update_delta` (`polynet.py:136`). -/
def State.gradW (s : State P) (phi dphi : Fin P → ℝ → ℝ) (D : Data) (k i j : ℕ) : ℝ :=
  ∑ p ∈ Finset.range D.points, s.delta phi dphi D p (s.net.layers - 1 - k) i *
    (if k = 0 then D.x p j else s.net.Y phi (D.x p) (k - 1) j)

/-- `gradient_alphak(k)[i,c]` summed over the points (`polynet.py:216-225` and `192`); `phi[k]` is computed from the refreshed
`Z` (`polynet.py:143-156`). -/
def State.gradAlpha (s : State P) (phi dphi : Fin P → ℝ → ℝ) (D : Data) (k i : ℕ) (c : Fin P) : ℝ :=
  ∑ p ∈ Finset.range D.points, phi c (s.net.Z phi (D.x p) k i) *
    (if k = s.net.layers - 1 then s.net.out phi (D.x p) - D.y p
     else ∑ m ∈ Finset.range (s.net.ridges (k + 1)), s.net.W (k + 1) m i * s.delta phi dphi D p (s.net.layers - 1 - (k + 1)) m)

open Classical in
/-- The learning rate in force for layer `k`: with `adapt` it is changed once per layer from the second iteration on
(`polynet.py:182-189`). -/
noncomputable def State.rateAt (s : State P) (opt : Opt) (phi : Fin P → ℝ → ℝ) (D : Data) (k : ℕ) : ℝ :=
  match opt, s.prevLoss with
  | .adapt, some l => s.rate * (if l < s.net.loss phi D then (1/2 : ℝ) else 11/10) ^ (k + 1)
  | _, _ => s.rate

/-- The new weights (`polynet.py:177-190`). -/
noncomputable def State.newW (s : State P) (opt : Opt) (momentum : ℝ) (phi dphi : Fin P → ℝ → ℝ) (D : Data) (k i j : ℕ) : ℝ :=
  match opt with
  | .sd => s.net.W k i j - s.rate * s.gradW phi dphi D k i j
  | .mom => s.net.W k i j - s.rate * s.gradW phi dphi D k i j - momentum * s.change k i j
  | .adapt => s.net.W k i j - s.rateAt .adapt phi D k * s.gradW phi dphi D k i j
  | .other => s.net.W k i j

/-- One iteration of `fit` (`polynet.py:168-197`). `Z` was stored by `update_delta` before the parameters change. -/
noncomputable def State.step (s : State P) (opt : Opt) (momentum : ℝ) (phi dphi : Fin P → ℝ → ℝ) (D : Data) : State P where
  net := { s.net with
    W := s.newW opt momentum phi dphi D
    alpha := fun k i c => s.net.alpha k i c - s.rateAt opt phi D k * s.gradAlpha phi dphi D k i c }
  Zst := fun p => s.net.Z phi (D.x p)
  change := fun k i j => s.newW opt momentum phi dphi D k i j - s.net.W k i j
  rate := s.rateAt opt phi D (s.net.layers - 1)
  prevLoss := some (s.net.loss phi D)

open Classical in
/-- The loop of `fit` (`polynet.py:167-207`): with `verbose` it stops once the loss per point is below 1e-4. Simplification:
the exit on `nan` (`polynet.py:202-204`) cannot occur in exact arithmetic, and a single data point, for which the `squeeze` of
line 155 loses an axis and the assignment fails, is not told apart. -/
noncomputable def State.fit (opt : Opt) (momentum : ℝ) (phi dphi : Fin P → ℝ → ℝ) (D : Data) (verbose : Bool) :
    ℕ → State P → State P
  | 0, s => s
  | t + 1, s =>
    let s' := s.step opt momentum phi dphi D
    if s'.net.loss phi D / D.points < 1/10^4 ∧ verbose = true then s'
    else State.fit opt momentum phi dphi D verbose t s'

end EQ.Polynet
