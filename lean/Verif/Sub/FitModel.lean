import Verif.Sub.Model
import Verif.Poly.Model
import Mathlib.Analysis.SpecialFunctions.Trigonometric.Basic

/-!
# Model of the polynomial fits inside variable projection (`equadratures/subspaces.py`)

`K` samples in `m` dimensions, `n` directions, degree `p`. Arrays of shape `(M, m, n)` are functions of three arguments. What
numpy returns for a division by zero (a projection that is constant over the samples, a vanishing singular value) is not modelled:
the theorems exclude it.
-/

namespace EQ.Sub
open EQ.Basis EQ.Param EQ.Sampling EQ.Poly Matrix
variable {K m n : ℕ}

/-- subspaces.py:293-297: the index set of `Basis('total-order', [p, ..., p])`. -/
def fitElements (n p : ℕ) : List (List ℕ) :=
  match totalOrderBasis (List.replicate n p) with
  | .ok L => L
  | .error _ => []

/-- subspaces.py:298-304: the object `Polybasis`; `P` is the parameter of line 300. -/
def fitBasis (P : MParam) (n p : ℕ) : Expansion := ⟨List.replicate n P, fitElements n p, none⟩

/-- An array of points as a list of rows. -/
def rowList (eta : Matrix (Fin K) (Fin n) ℝ) : List (List ℝ) := List.ofFn fun i => List.ofFn (eta i)

/-- subspaces.py:292-307 `_vandermonde`: the matrix `V`. -/
noncomputable def vandermonde (P : MParam) (p : ℕ) (eta : Matrix (Fin K) (Fin n) ℝ) :
    Matrix (Fin K) (Fin (fitElements n p).length) ℝ := fun i r =>
  match (fitBasis P n p).getPoly none (rowList eta) with
  | .ok M => (M.getD r []).getD i 0
  | .error _ => 0

/-- subspaces.py:545, 554-556: the values of `Gradient[l].T`; with one direction `get_poly_grad` returns a bare matrix. -/
noncomputable def fitGrad (P : MParam) (p : ℕ) (eta : Matrix (Fin K) (Fin n) ℝ) (l : Fin n) :
    Matrix (Fin K) (Fin (fitElements n p).length) ℝ := fun i r =>
  match (fitBasis P n p).getPolyGrad none (rowList eta) with
  | .ok (.bare H) => (H.getD r []).getD i 0
  | .ok (.many Hs) => ((Hs.getD l []).getD r []).getD i 0
  | .error _ => 0

/-- subspaces.py:207, 263: `minmax[0,:]`. -/
noncomputable def lows [NeZero K] (y : Matrix (Fin K) (Fin n) ℝ) (k : Fin n) : ℝ :=
  Finset.univ.inf' Finset.univ_nonempty fun i => y i k

/-- subspaces.py:208, 264: `minmax[1,:]`. -/
noncomputable def highs [NeZero K] (y : Matrix (Fin K) (Fin n) ℝ) (k : Fin n) : ℝ :=
  Finset.univ.sup' Finset.univ_nonempty fun i => y i k

/-- subspaces.py:210, 265: the affine transformation to `[-1, 1]`, for given bounds. -/
noncomputable def rescale (lo hi : Fin n → ℝ) (y : Matrix (Fin K) (Fin n) ℝ) : Matrix (Fin K) (Fin n) ℝ := fun i k =>
  2 * ((y i k - lo k) / (hi k - lo k)) - 1

/-- subspaces.py:205-210, 262-265: the scaled projections of the samples. -/
noncomputable def scaled [NeZero K] (X : Matrix (Fin K) (Fin m) ℝ) (U : Matrix (Fin m) (Fin n) ℝ) : Matrix (Fin K) (Fin n) ℝ :=
  rescale (lows (X * U)) (highs (X * U)) (X * U)

/-- What one run of variable projection is given, and the routines of numpy and scipy it calls. -/
structure FitData (K m n : ℕ) where
  /-- `self.sample_points` -/
  X : Matrix (Fin K) (Fin m) ℝ
  /-- `self.sample_outputs` -/
  f : Fin K → ℝ
  /-- `self.polynomial_degree` -/
  p : ℕ
  /-- the parameter of subspaces.py:300 -/
  P : MParam
  /-- `np.linalg.pinv` -/
  pinv : Matrix (Fin K) (Fin (fitElements n p).length) ℝ → Matrix (Fin (fitElements n p).length) (Fin K) ℝ
  /-- `scipy.linalg.pinv` -/
  pinv' : Matrix (Fin K) (Fin (fitElements n p).length) ℝ → Matrix (Fin (fitElements n p).length) (Fin K) ℝ
  /-- `scipy.linalg.orth` -/
  orth : Matrix (Fin m) (Fin n) ℝ → Matrix (Fin m) (Fin n) ℝ
  /-- `np.linalg.svd(vec_J, full_matrices=False)` -/
  svdJ : Matrix (Fin K) (Fin m × Fin n) ℝ →
    Matrix (Fin K) (Fin (min K (m * n))) ℝ × (Fin (min K (m * n)) → ℝ) × Matrix (Fin (min K (m * n))) (Fin m × Fin n) ℝ
  /-- `np.linalg.svd(delta, full_matrices=False)`, for at most as many directions as dimensions -/
  svd : Matrix (Fin m) (Fin n) ℝ → Matrix (Fin m) (Fin n) ℝ × (Fin n → ℝ) × Matrix (Fin n) (Fin n) ℝ

namespace FitData
variable [NeZero K] (d : FitData K m n)

/-- subspaces.py:213, 267: the matrix `V` for the directions `U`. -/
noncomputable def V (U : Matrix (Fin m) (Fin n) ℝ) : Matrix (Fin K) (Fin (fitElements n d.p).length) ℝ :=
  vandermonde d.P d.p (scaled d.X U)

/-- subspaces.py:214-216, 268-270: `res`. -/
noncomputable def res (U : Matrix (Fin m) (Fin n) ℝ) : Fin K → ℝ :=
  d.f - d.V U *ᵥ (d.pinv (d.V U) *ᵥ d.f)

/-- subspaces.py:217, 271: the norm of `res`. -/
noncomputable def R (U : Matrix (Fin m) (Fin n) ℝ) : ℝ := √(∑ i, d.res U i ^ 2)

/-- subspaces.py:546-557: the tensor `dV`. -/
noncomputable def dV (U : Matrix (Fin m) (Fin n) ℝ) (j : Fin m) (l : Fin n) :
    Matrix (Fin K) (Fin (fitElements n d.p).length) ℝ := fun i r =>
  2.0 / (highs (d.X * U) l - lows (d.X * U) l) * (d.X i j * fitGrad d.P d.p (scaled d.X U) l i r)

/-- subspaces.py:542-569 `jacobian_vp`. -/
noncomputable def J (U : Matrix (Fin m) (Fin n) ℝ) (i : Fin K) (j : Fin m) (k : Fin n) : ℝ :=
  let P := 1 - d.V U * d.pinv (d.V U)
  let temp1 := P * d.dV U j k * d.pinv' (d.V U);
  -((temp1 + temp1ᵀ) *ᵥ d.f) i

/-- subspaces.py:224-227: the matrix `G`. -/
noncomputable def G (U : Matrix (Fin m) (Fin n) ℝ) : Matrix (Fin m) (Fin n) ℝ := fun j k => ∑ i, d.res U i * d.J U i j k

/-- subspaces.py:229-236: the Gauss-Newton step. -/
noncomputable def newton (U : Matrix (Fin m) (Fin n) ℝ) : Matrix (Fin m) (Fin n) ℝ :=
  let (Y, S, Z) := d.svdJ fun i jk => d.J U i jk.1 jk.2
  fun j k => -∑ a, if a.val < min K (m * n) - n ^ 2 then Z a (j, k) * (1 / S a * ∑ i, Y i a * d.res U i) else 0

/-- subspaces.py:253-258: the curve, before `orth`. -/
noncomputable def curve (U delta : Matrix (Fin m) (Fin n) ℝ) (t : ℝ) : Matrix (Fin m) (Fin n) ℝ :=
  let (Y, S, Z) := d.svd delta
  U * Zᵀ * diagonal (fun k => Real.cos (S k * t)) + Y * diagonal fun k => Real.sin (S k * t)

/-- The run of variable projection on these data (`VP.iterate`, `VP.run`). -/
noncomputable def vp : VP m n := ⟨d.orth, d.R, d.G, d.newton, d.curve⟩

end FitData
end EQ.Sub
