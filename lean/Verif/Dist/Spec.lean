import Verif.Dist.Model
import Mathlib.MeasureTheory.Integral.Bochner.Basic
import Mathlib.MeasureTheory.Integral.IntervalIntegral.Basic
import Mathlib.MeasureTheory.Measure.Lebesgue.Basic

/-!
# Specification: densities of the scipy distributions and their moments

The densities are those of the scipy documentation. Moments are plain integrals over the real line.
-/

namespace EQ.DistSpec
open EQ.Dist MeasureTheory

/-- scipy's location and scale: `pdf(x, loc, scale) = pdf((x - loc) / scale) / scale`. -/
noncomputable def locScale (f : ℝ → ℝ) (loc scale x : ℝ) : ℝ := f ((x - loc) / scale) / scale

/-- The standard normal density. -/
noncomputable def phi (x : ℝ) : ℝ := Real.exp (-x ^ 2 / 2) / Real.sqrt (2 * Real.pi)

open Classical in
/-- The density of a law. -/
noncomputable def density : Law → ℝ → ℝ
  | .norm loc scale => locScale phi loc scale
  | .uniform loc scale => locScale (fun x => if 0 ≤ x ∧ x ≤ 1 then 1 else 0) loc scale
  | .beta a b => fun x => if 0 < x ∧ x < 1 then
      Real.Gamma (a + b) * x ^ (a - 1) * (1 - x) ^ (b - 1) / (Real.Gamma a * Real.Gamma b) else 0
  | .arcsine => fun x => if 0 < x ∧ x < 1 then 1 / (Real.pi * Real.sqrt (x * (1 - x))) else 0
  | .truncnorm a b loc scale => locScale (fun x => if a ≤ x ∧ x ≤ b then phi x / ∫ t in a..b, phi t else 0) loc scale
  | .cauchy loc scale => locScale (fun x => 1 / (Real.pi * (1 + x ^ 2))) loc scale
  | .expon scale => locScale (fun x => if 0 ≤ x then Real.exp (-x) else 0) 0 scale
  | .gamma a scale => locScale (fun x => if 0 < x then x ^ (a - 1) * Real.exp (-x) / Real.Gamma a else 0) 0 scale
  | .weibullMin c scale => locScale (fun x => if 0 < x then c * x ^ (c - 1) * Real.exp (-x ^ c) else 0) 0 scale
  | .rayleigh scale => locScale (fun x => if 0 ≤ x then x * Real.exp (-x ^ 2 / 2) else 0) 0 scale
  | .chi2 df => fun x => if 0 < x then
      1 / (2 * Real.Gamma (df / 2)) * (x / 2) ^ (df / 2 - 1) * Real.exp (-x / 2) else 0
  | .chi df => fun x => if 0 < x then
      1 / ((2 : ℝ) ^ (df / 2 - 1) * Real.Gamma (df / 2)) * x ^ (df - 1) * Real.exp (-x ^ 2 / 2) else 0
  | .pareto b => fun x => if 1 ≤ x then b / x ^ (b + 1) else 0
  | .gumbelR loc scale => locScale (fun x => Real.exp (-(x + Real.exp (-x)))) loc scale
  | .logistic loc scale => locScale (fun x => Real.exp (-x) / (1 + Real.exp (-x)) ^ 2) loc scale
  | .t df => fun x => Real.Gamma ((df + 1) / 2) / (Real.sqrt (Real.pi * df) * Real.Gamma (df / 2)) *
      (1 + x ^ 2 / df) ^ (-(df + 1) / 2)
  | .lognorm s => fun x => if 0 < x then
      1 / (s * x * Real.sqrt (2 * Real.pi)) * Real.exp (-(Real.log x) ^ 2 / (2 * s ^ 2)) else 0

/-- A probability density with four finite moments. -/
def IsDensity (f : ℝ → ℝ) : Prop :=
  (∀ x, 0 ≤ f x) ∧ ∫ x, f x = 1 ∧ ∀ k ≤ 4, Integrable fun x => x ^ k * f x

/-- Mean of a density. -/
noncomputable def mean (f : ℝ → ℝ) : ℝ := ∫ x, x * f x

/-- Central moment. -/
noncomputable def central (f : ℝ → ℝ) (k : ℕ) : ℝ := ∫ x, (x - mean f) ^ k * f x

/-- Variance. -/
noncomputable def variance (f : ℝ → ℝ) : ℝ := central f 2

/-- Skewness. -/
noncomputable def skewness (f : ℝ → ℝ) : ℝ := central f 3 / Real.sqrt (variance f) ^ 3

/-- Kurtosis in Pearson's sense; the normal law has 3. -/
noncomputable def kurtosis (f : ℝ → ℝ) : ℝ := central f 4 / variance f ^ 2

/-- What a user may expect of a distribution object: the mean, variance and skewness it reports are those of the law behind its
densities and samples. -/
def Truthful (d : Attrs) : Prop :=
  ∃ L, d.law = some L ∧ IsDensity (density L) ∧ d.mean = .num (mean (density L)) ∧
    d.variance = .num (variance (density L)) ∧ d.skewness = .num (skewness (density L))

/-- The distributions whose moments the package computes itself. -/
def OwnFormulas : Name → Prop
  | .gaussian | .uniform | .beta | .gamma | .weibull | .arcsine | .rayleigh | .chiSquared => True
  | _ => False

/-- Arguments that describe a distribution. -/
def Valid : Name → Args → Prop
  | .gaussian, a => ∃ m v, a.A = some m ∧ a.B = some v ∧ 0 < v
  | .uniform, a => ∀ l u, a.lower = some l → a.upper = some u → l < u
  | .beta, a => ∃ p q, a.A = some p ∧ a.B = some q ∧ 1 ≤ p ∧ 1 ≤ q
  | .gamma, a => ∃ p s, a.A = some p ∧ a.B = some s ∧ 0 < p ∧ 0 < s
  | .weibull, a => ∃ s c, a.A = some s ∧ a.B = some c ∧ 0 < s ∧ 0 < c
  | .arcsine, _ => True
  | .rayleigh, a => ∃ s, a.A = some s ∧ 0 < s
  | .chiSquared, a => ∃ k, a.A = some k ∧ 1 ≤ k
  | .truncatedGaussian, a => ∃ m v l u, a.A = some m ∧ a.B = some v ∧ a.lower = some l ∧ a.upper = some u ∧ 0 < v ∧ l < u
  | .cauchy, a => ∃ m s, a.A = some m ∧ a.B = some s ∧ 0 < s
  | .exponential, a => ∃ r, a.A = some r ∧ 0 < r
  | .chi, a => ∃ k, a.A = some k ∧ 1 ≤ k
  | .pareto, a => ∃ b, a.A = some b ∧ 0 < b
  | .gumbel, a => ∃ m s, a.A = some m ∧ a.B = some s ∧ 0 < s
  | .logistic, a => ∃ m s, a.A = some m ∧ a.B = some s ∧ 0 < s
  | .studentsT, a => ∃ k, a.A = some k ∧ 0 < k
  | .lognormal, a => ∃ s, a.A = some s ∧ 0 < s

open Classical in
/-- The density a user asks for, as in the encyclopedia pages the documentation of `Parameter` links to; `A` and `B` are the two
shape parameters, `l` and `u` the bounds. -/
noncomputable def asked : Name → (A B l u : ℝ) → ℝ → ℝ
  | .gaussian, m, v, _, _ => fun x => 1 / Real.sqrt (2 * Real.pi * v) * Real.exp (-(x - m) ^ 2 / (2 * v))
  | .uniform, _, _, l, u => fun x => if l ≤ x ∧ x ≤ u then 1 / (u - l) else 0
  | .beta, a, b, l, u => fun x => if l < x ∧ x < u then
      Real.Gamma (a + b) * (x - l) ^ (a - 1) * (u - x) ^ (b - 1) / (Real.Gamma a * Real.Gamma b * (u - l) ^ (a + b - 1)) else 0
  | .arcsine, _, _, l, u => fun x => if l < x ∧ x < u then 1 / (Real.pi * Real.sqrt ((x - l) * (u - x))) else 0
  | .truncatedGaussian, m, v, l, u => fun x => if l ≤ x ∧ x ≤ u then
      Real.exp (-(x - m) ^ 2 / (2 * v)) / ∫ t in l..u, Real.exp (-(t - m) ^ 2 / (2 * v)) else 0
  | .cauchy, m, s, _, _ => fun x => s / (Real.pi * (s ^ 2 + (x - m) ^ 2))
  | .exponential, r, _, _, _ => fun x => if 0 ≤ x then r * Real.exp (-(r * x)) else 0
  | .gamma, a, s, _, _ => fun x => if 0 < x then x ^ (a - 1) * Real.exp (-(x / s)) / (Real.Gamma a * s ^ a) else 0
  | .weibull, s, c, _, _ => fun x => if 0 < x then c / s * (x / s) ^ (c - 1) * Real.exp (-(x / s) ^ c) else 0
  | .rayleigh, s, _, _, _ => fun x => if 0 ≤ x then x / s ^ 2 * Real.exp (-x ^ 2 / (2 * s ^ 2)) else 0
  | .chiSquared, k, _, _, _ => fun x => if 0 < x then
      x ^ (k / 2 - 1) * Real.exp (-x / 2) / ((2 : ℝ) ^ (k / 2) * Real.Gamma (k / 2)) else 0
  | .chi, k, _, _, _ => fun x => if 0 < x then
      x ^ (k - 1) * Real.exp (-x ^ 2 / 2) / ((2 : ℝ) ^ (k / 2 - 1) * Real.Gamma (k / 2)) else 0
  | .pareto, b, _, _, _ => fun x => if 1 ≤ x then b / x ^ (b + 1) else 0
  | .gumbel, m, s, _, _ => fun x => 1 / s * Real.exp (-((x - m) / s + Real.exp (-((x - m) / s))))
  | .logistic, m, s, _, _ => fun x => Real.exp (-(x - m) / s) / (s * (1 + Real.exp (-(x - m) / s)) ^ 2)
  | .studentsT, k, _, _, _ => fun x =>
      Real.Gamma ((k + 1) / 2) / (Real.sqrt (Real.pi * k) * Real.Gamma (k / 2)) * (1 + x ^ 2 / k) ^ (-(k + 1) / 2)
  | .lognormal, s, _, _, _ => fun x => if 0 < x then
      1 / (x * s * Real.sqrt (2 * Real.pi)) * Real.exp (-(Real.log x) ^ 2 / (2 * s ^ 2)) else 0

end EQ.DistSpec
