import Verif.Sampling.InducedProps
import Mathlib.Analysis.SpecialFunctions.Pow.Real

/-!
# The induced distribution function for general Jacobi weights (C175)
-/

namespace EQ.Sampling
open EQ.Param EQ.Basis EQ.Sampling.Spec EQ.ParamSpec Polynomial

/-! ## Model -/

/-- induced.py:500-547 `_polynomial_ratios` for arrays `a`, `b` with `na` and `nb` entries; `N` is an integer. The value is needed nowhere below, since no
call gets past the checks at 524-532; it is given as the list of the ratios `r`. -/
noncomputable def polynomialRatios (ab : Table) (na nb : ℕ) (x : ℝ) (N : ℤ) : Except Err (List ℝ) :=
  if N > 0 then .error .valueError
  else if N < na then .error .valueError
  else if N < nb then .error .valueError
  else .ok ((List.range N.toNat).map fun q =>
    Nat.rec (1.0 / √(ab 1).2 * (x - (ab 0).1)) (fun k r1 => 1.0 / √(ab (k + 2)).2 * ((x - (ab (k + 1)).1) - √(ab (k + 1)).2 / r1)) q)

/-- induced.py:409-454 `_linear_modification`: the ratios are asked for first (433-436). What follows (438-454) is reached by no call and is not modelled:
`rest` stands for it. -/
noncomputable def linearMod (rest : List (ℝ × ℝ) → List ℝ → Except Err (List (ℝ × ℝ))) (ab : List (ℝ × ℝ)) (x0 : ℝ) : Except Err (List (ℝ × ℝ)) :=
  match polynomialRatios (rows ab) ab.length ab.length x0 ((ab.length : ℤ) - 1) with
  | .error e => .error e
  | .ok r => rest ab (r.map fun t => |t|)

/-- induced.py:388-394: `A` linear modifications. -/
noncomputable def linearLoop (rest : List (ℝ × ℝ) → List ℝ → Except Err (List (ℝ × ℝ))) (x : ℝ) : ℕ → List (ℝ × ℝ) → ℝ → Except Err (List (ℝ × ℝ) × ℝ)
  | 0, ab, lf => .ok (ab, lf)
  | j + 1, ab, lf =>
    match linearMod rest ab ((3 - x) / (1 + x)) with
    | .error e => .error e
    | .ok t => linearLoop rest x j (unitMass t) (lf + (lf + Real.log ((rows t 0).2 * 1.0 / 2.0 * (x + 1.0))))

/-- induced.py:395-401: from the table to the value, for `M = m + 2` points. `betaln` is the logarithm of the Beta function. -/
noncomputable def jacobiValue (O : Outside) (α β x : ℝ) (A : ℕ) (m : ℕ) (ab : List (ℝ × ℝ)) (lf : ℝ) : Except Err ℝ :=
  match ruleOf O ab m with
  | .error e => .error e
  | .ok R =>
    let integral := ∑ i, R.w i * (2.0 - 1.0 / 2.0 * (R.p i + 1.0) * (x + 1.0)) ^ (α - A)
    .ok (Real.exp (lf - α * Real.log 2.0 - Real.log (Real.Gamma (β + 1.0) * Real.Gamma (α + 1.0) / Real.Gamma (β + 1.0 + (α + 1.0))) -
      Real.log (β + 1.0) + (β + 1) * Real.log ((x + 1.0) / 2.0)) * integral)

/-- induced.py:325-407 `induced_jacobi_evaluation` with all its arguments (`M = m + 2`). -/
noncomputable def jacobiCdf (O : Outside) (rest : List (ℝ × ℝ) → List ℝ → Except Err (List (ℝ × ℝ))) (α β x : ℝ) (order : ℕ) (zeroes : List ℝ)
    (ab : List (ℝ × ℝ)) (A : ℕ) (k : ℝ) (m : ℕ) : Except Err ℝ :=
  if pyInt x = 1 then .ok 1
  else if pyInt x = -1 then .ok 0
  else
    let median : ℝ := if order > 0 then (β ^ 2 - α ^ 2) / (2 * order + α + β) ^ 2 else 2.0 / (1.0 + (α + 1.0) / (β + 1.0)) - 1.0
    let complementary := decide (x > median)
    let x' := if complementary then -x else x
    let α' := if complementary then β else α
    let β' := if complementary then α else β
    match evalLoop k x' ab 0 (zeroes.take order) with
    | .error e => .error e
    | .ok (t, lf) =>
      match linearLoop rest x' A t lf with
      | .error e => .error e
      | .ok (t, lf) =>
        match jacobiValue O α' β' x' A m t lf with
        | .error e => .error e
        | .ok F => .ok (if complementary then 1 - F else F)

/-! ## Specification -/

/-- The distribution function at `x` of the law on `[-1, 1]` with density proportional to `P² (1 - t)^α (1 + t)^β`. -/
noncomputable def jacobiF (α β : ℝ) (P : ℝ[X]) (x : ℝ) : ℝ :=
  (∫ t in (-1 : ℝ)..x, P.eval t ^ 2 * ((1 - t) ^ α * (1 + t) ^ β)) / ∫ t in (-1 : ℝ)..1, P.eval t ^ 2 * ((1 - t) ^ α * (1 + t) ^ β)

/-! ## Lemmas -/

theorem linearMod_error (rest : List (ℝ × ℝ) → List ℝ → Except Err (List (ℝ × ℝ))) (ab : List (ℝ × ℝ)) (x : ℝ) :
    linearMod rest ab x = .error .valueError := by
  unfold linearMod polynomialRatios
  split_ifs with h1 h2
  · rfl
  · rfl
  · exact absurd (by omega) h2

theorem jacobiCdf_zero (O : Outside) (rest : List (ℝ × ℝ) → List ℝ → Except Err (List (ℝ × ℝ))) (x : ℝ) (order : ℕ) (zeroes : List ℝ)
    (ab : List (ℝ × ℝ)) (k : ℝ) : jacobiCdf O rest 0 0 x order zeroes ab 0 k 10 = inducedCdf O order zeroes ab k x := by
  unfold jacobiCdf inducedCdf
  simp only [ite_self, linearLoop]
  have hv : ∀ x' t lf, jacobiValue O 0 0 x' 0 10 t lf = evalValue O x' t lf := by
    intro x' t lf
    unfold jacobiValue evalValue
    cases ruleOf O t 10 with
    | error e => rfl
    | ok R =>
      simp only
      norm_num
  split_ifs <;> first | rfl | skip
  all_goals
    cases evalLoop k _ ab 0 (zeroes.take order) with
    | error e => rfl
    | ok p =>
      simp only [hv]
      cases evalValue O _ p.1 p.2 <;> rfl

theorem pyInt_inner (x : ℝ) (h1 : -1 < x) (h2 : x < 1) : pyInt x = 0 := by
  unfold pyInt
  split_ifs with h
  · rw [Int.floor_eq_zero_iff]; exact ⟨h, h2⟩
  · rw [Int.ceil_eq_zero_iff]; exact ⟨by simpa using h1, by simpa using (not_le.1 h).le⟩

/-! ## Properties -/

/-- **C175 (part).** For the weight `α = β = 0` (the uniform law, `A = 0`, twelve points) the function is exactly the distribution function of the induced
law. Missing: other weights; for `|α| ≥ 1` see the violation, for `0 < |α| < 1` the twelve-point rule is only an approximation. -/
theorem c175_jacobi_partial {O : Outside} (hO : O.Contract) (rest : List (ℝ × ℝ) → List ℝ → Except Err (List (ℝ × ℝ))) (order maxOrder : ℕ)
    (h : order ≤ maxOrder) (P : ℝ[X]) (hP : Orthonormal order P) (x : ℝ) (h1 : -1 ≤ x) (h2 : x ≤ 1) :
    jacobiCdf O rest 0 0 x order (zeroesOf O (-1) 1 order) (jacobiCoeffs 0 0 (-1) 1 (2 * maxOrder + 0 + 12)) 0 (knFactor (-1) 1 order) 10 =
      .ok (jacobiF 0 0 P x) := by
  rw [jacobiCdf_zero, c129_cdf_exact hO order maxOrder h P hP x h1 h2]
  have e1 := inducedF_one hP
  unfold jacobiF
  simp only [Real.rpow_zero, mul_one]
  unfold inducedF at e1 ⊢
  rw [intervalIntegral.integral_div] at e1 ⊢
  have : ∫ t in (-1 : ℝ)..1, P.eval t ^ 2 = 2 := by linarith
  rw [this]

/-- **C175 fails.** For every weight with `|α| ≥ 1` no value is obtained at any point strictly between `-1` and `1`, for any order, table and number of
points: an exception is raised, because the ratios of polynomials needed for the linear modification are refused for every number of them. If the
modifications by the zeroes succeed, the exception is `ValueError`. -/
theorem c175_jacobi_violated (O : Outside) (rest : List (ℝ × ℝ) → List ℝ → Except Err (List (ℝ × ℝ))) (α β x : ℝ) (hα : 1 ≤ |α|) (h1 : -1 < x) (h2 : x < 1)
    (order : ℕ) (zeroes : List ℝ) (ab : List (ℝ × ℝ)) (k : ℝ) (m : ℕ) :
    (∃ e, jacobiCdf O rest α β x order zeroes ab ⌊|α|⌋₊ k m = .error e) ∧
    (order = 0 → jacobiCdf O rest α β x order zeroes ab ⌊|α|⌋₊ k m = .error .valueError) := by
  have hA : ∃ j, ⌊|α|⌋₊ = j + 1 := ⟨⌊|α|⌋₊ - 1, by have : 1 ≤ ⌊|α|⌋₊ := Nat.le_floor (by simpa using hα); omega⟩
  obtain ⟨j, hj⟩ := hA
  have hl : ∀ x t lf, linearLoop rest x (j + 1) t lf = .error .valueError := by
    intro x t lf
    rw [linearLoop, linearMod_error]
  rw [hj]
  unfold jacobiCdf
  rw [pyInt_inner x h1 h2]
  simp only [hl]
  constructor
  · rw [if_neg (by norm_num), if_neg (by norm_num)]
    split
    · exact ⟨_, rfl⟩
    · exact ⟨_, rfl⟩
  · rintro rfl
    rw [if_neg (by norm_num), if_neg (by norm_num)]
    simp [evalLoop]

/-- The weight `1 - t` (`α = 1`, `β = 0`) at zero; the true value there is `3 / 4` for the constant polynomial. -/
example : (1 : ℝ) ≤ |1| ∧ (-1 : ℝ) < 0 ∧ (0 : ℝ) < 1 ∧ jacobiF 1 0 1 0 = 3 / 4 := by
  refine ⟨by norm_num, by norm_num, by norm_num, ?_⟩
  unfold jacobiF
  simp only [eval_one, one_pow, one_mul, Real.rpow_one, Real.rpow_zero, mul_one]
  rw [intervalIntegral.integral_sub (by simp) (by simp), intervalIntegral.integral_sub (by simp) (by simp)]
  simp
  norm_num

end EQ.Sampling
