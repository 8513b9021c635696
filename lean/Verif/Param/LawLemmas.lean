import Verif.Param.PearsonLemmas
import Verif.Param.Spec
import Mathlib.Analysis.SpecialFunctions.Integrability.Basic
import Mathlib.Analysis.SpecialFunctions.Pow.Deriv
import Mathlib.Analysis.Calculus.Deriv.Polynomial
import Mathlib.MeasureTheory.Integral.IntervalIntegral.FundThmCalculus

/-!
# Helper lemmas: the Beta law as a linear functional satisfying the Pearson identity
-/

namespace EQ.Param
open Polynomial Finset EQ.ParamSpec MeasureTheory

section
variable {A B l u : ℝ}

theorem betaWeight_integrable (hA : 0 < A) (hB : 0 < B) (hlu : l < u) :
    IntervalIntegrable (betaWeight A B l u) volume l u := by
  have hm1 : l < (l + u) / 2 := by linarith
  have hm2 : (l + u) / 2 < u := by linarith
  have i1 : IntervalIntegrable (betaWeight A B l u) volume l ((l + u) / 2) := by
    have h := (intervalIntegral.intervalIntegrable_rpow' (a := 0) (b := (l + u) / 2 - l)
      (r := A - 1) (by linarith)).comp_sub_right l
    rw [zero_add, sub_add_cancel] at h
    refine h.mul_continuousOn ?_
    rw [Set.uIcc_of_le hm1.le]
    intro x hx
    refine ContinuousAt.continuousWithinAt (ContinuousAt.rpow_const (by fun_prop) (Or.inl ?_))
    have := hx.2
    linarith
  have i2 : IntervalIntegrable (betaWeight A B l u) volume ((l + u) / 2) u := by
    have h := (intervalIntegral.intervalIntegrable_rpow' (a := u - (l + u) / 2) (b := 0)
      (r := B - 1) (by linarith)).comp_sub_left u
    rw [sub_sub_cancel, sub_zero] at h
    refine h.continuousOn_mul ?_
    rw [Set.uIcc_of_le hm2.le]
    intro x hx
    refine ContinuousAt.continuousWithinAt (ContinuousAt.rpow_const (by fun_prop) (Or.inl ?_))
    have := hx.1
    linarith
  exact i1.trans i2

theorem betaWeight_mass_pos (hA : 0 < A) (hB : 0 < B) (hlu : l < u) :
    0 < ∫ x in l..u, betaWeight A B l u x := by
  apply intervalIntegral.intervalIntegral_pos_of_pos_on (betaWeight_integrable hA hB hlu) _ hlu
  intro x hx
  exact mul_pos (Real.rpow_pos_of_pos (by linarith [hx.1]) _)
    (Real.rpow_pos_of_pos (by linarith [hx.2]) _)

theorem poly_weight_integrable (hA : 0 < A) (hB : 0 < B) (hlu : l < u) (f : ℝ[X]) :
    IntervalIntegrable (fun x => f.eval x * betaWeight A B l u x) volume l u :=
  (betaWeight_integrable hA hB hlu).continuousOn_mul (by fun_prop)

/-- The Beta expectation of polynomials as a linear functional. -/
noncomputable def betaL (hA : 0 < A) (hB : 0 < B) (hlu : l < u) : ℝ[X] →ₗ[ℝ] ℝ where
  toFun f := betaE A B l u (fun x => f.eval x)
  map_add' f g := by
    simp only [betaE, eval_add, add_mul]
    rw [intervalIntegral.integral_add (poly_weight_integrable hA hB hlu f)
      (poly_weight_integrable hA hB hlu g), add_div]
  map_smul' c f := by
    simp only [betaE, eval_smul, smul_eq_mul, mul_assoc, RingHom.id_apply]
    rw [intervalIntegral.integral_const_mul, mul_div_assoc]

theorem betaL_apply (hA : 0 < A) (hB : 0 < B) (hlu : l < u) (f : ℝ[X]) :
    betaL hA hB hlu f = betaE A B l u (fun x => f.eval x) := rfl

theorem betaL_one (hA : 0 < A) (hB : 0 < B) (hlu : l < u) : betaL hA hB hlu 1 = 1 := by
  rw [betaL_apply, betaE]
  simp only [eval_one, one_mul]
  exact div_self (betaWeight_mass_pos hA hB hlu).ne'

theorem betaL_pearson (hA : 0 < A) (hB : 0 < B) (hlu : l < u) :
    Pearson (B - 1) (A - 1) l u (betaL hA hB hlu) := by
  intro f
  rw [betaL_apply, betaE]
  have key : ∫ x in l..u, (sigma l u * derivative f + tau (B - 1) (A - 1) l u * f).eval x *
      betaWeight A B l u x = 0 := by
    have hcont : ContinuousOn (fun x => ((x - l) ^ A * (u - x) ^ B) * f.eval x) (Set.Icc l u) := by
      refine ContinuousOn.mul (ContinuousOn.mul ?_ ?_) (by fun_prop)
      · exact ContinuousOn.rpow_const (by fun_prop) (fun _ _ => Or.inr hA.le)
      · exact ContinuousOn.rpow_const (by fun_prop) (fun _ _ => Or.inr hB.le)
    have hF := intervalIntegral.integral_eq_sub_of_hasDerivAt_of_le (a := l) (b := u)
      (f := fun x => ((x - l) ^ A * (u - x) ^ B) * f.eval x)
      (f' := fun x => (sigma l u * derivative f + tau (B - 1) (A - 1) l u * f).eval x *
        betaWeight A B l u x) hlu.le hcont ?_ (poly_weight_integrable hA hB hlu _)
    · rw [hF]
      simp [Real.zero_rpow hA.ne', Real.zero_rpow hB.ne']
    · intro x hx
      have hxl : 0 < x - l := by linarith [hx.1]
      have hxu : 0 < u - x := by linarith [hx.2]
      have d1 : HasDerivAt (fun x => (x - l) ^ A) (1 * A * (x - l) ^ (A - 1)) x :=
        ((hasDerivAt_id x).sub_const l).rpow_const (Or.inl hxl.ne')
      have d2 : HasDerivAt (fun x => (u - x) ^ B) (-1 * B * (u - x) ^ (B - 1)) x :=
        ((hasDerivAt_id x).const_sub u).rpow_const (Or.inl hxu.ne')
      have d3 := ((d1.mul d2).mul (f.hasDerivAt x))
      refine d3.congr_deriv ?_
      have eA : (x - l) ^ A = (x - l) * (x - l) ^ (A - 1) := by
        rw [mul_comm, ← Real.rpow_add_one hxl.ne', sub_add_cancel]
      have eB : (u - x) ^ B = (u - x) * (u - x) ^ (B - 1) := by
        rw [mul_comm, ← Real.rpow_add_one hxu.ne', sub_add_cancel]
      simp only [betaWeight, sigma, tau, eval_add, eval_mul, eval_sub, eval_X, eval_C, Pi.mul_apply]
      rw [eA, eB]
      ring
  rw [key, zero_div]

/-- Orthonormality for the Beta law. -/
theorem beta_orthonormal (hA : 0 < A) (hB : 0 < B) (hlu : l < u) (i j : ℕ) :
    betaE A B l u (fun x => (opoly (jtab (B - 1) (A - 1) l u) i).eval x *
      (opoly (jtab (B - 1) (A - 1) l u) j).eval x) = if i = j then 1 else 0 := by
  have h := pearson_orthonormal (a := B - 1) (b := A - 1) (by linarith) (by linarith) hlu
    (betaL_pearson hA hB hlu) (betaL_one hA hB hlu) i j
  rw [betaL_apply] at h
  simpa only [eval_mul] using h

theorem uniformE_eq_betaE (f : ℝ → ℝ) : uniformE l u f = betaE 1 1 l u f := by
  simp [uniformE, betaE, betaWeight]
  rw [div_eq_inv_mul]

theorem arcsineE_eq_betaE (hlu : l < u) (f : ℝ → ℝ) :
    arcsineE l u f = betaE (1 / 2) (1 / 2) l u f := by
  have e : ∀ x ∈ Set.uIcc l u, (√((x - l) * (u - x)))⁻¹ = betaWeight (1 / 2) (1 / 2) l u x := by
    intro x hx
    rw [Set.uIcc_of_le hlu.le] at hx
    have h1 : 0 ≤ x - l := by linarith [hx.1]
    have h2 : 0 ≤ u - x := by linarith [hx.2]
    rw [betaWeight, Real.sqrt_mul h1, mul_inv, Real.sqrt_eq_rpow, Real.sqrt_eq_rpow,
      ← Real.rpow_neg h1, ← Real.rpow_neg h2]
    norm_num
  unfold arcsineE betaE
  congr 1
  · apply intervalIntegral.integral_congr
    intro x hx
    simp only [div_eq_mul_inv]
    rw [e x hx]; norm_num
  · apply intervalIntegral.integral_congr
    intro x hx
    simp only [one_div]
    rw [e x hx]; norm_num

end
end EQ.Param
