import Verif.Data.Props
import Mathlib.Analysis.SpecialFunctions.Trigonometric.Basic

/-!
# Synthetic data: C158
-/

namespace EQ.Data
open EQ.Basis

/-! ## Model: `none` is `nan` -/

open Classical in
/-- `standardise` (`datasets.py:132-140`) of a float array with at least one row, with the `nan` of a constant column (`0/0`). -/
noncomputable def nanStandardise (X : Fin (n+1) → Fin d → ℝ) : Fin (n+1) → Fin d → Option ℝ := fun i j =>
  if colMax X j = colMin X j then none else some (standardise .float X i j)

/-- `truth_model` (`datasets.py:25-27`): the draws for the first `min(n_dim, n_relevent)` inputs (`datasets.py:19`), zero for the others. -/
noncomputable def truthModel (nRelevant : ℕ) (U : Fin d → ℝ) : Fin d → ℝ := fun j => if j.val < min d nRelevant then U j else 0

open Classical in
/-- `gen_linear` (`datasets.py:4-34`). `Z` and `U` are the draws of the generator, `g` the standard normal draws of which
`generator.normal(scale=noise)` returns the multiple `noise`. One `nan` among the inputs reaches the maximum and minimum of the outputs, and so
every output. -/
noncomputable def genLinear (nRelevant : ℕ) (bias noise : ℝ) (Z : Fin (n+1) → Fin d → ℝ) (U : Fin d → ℝ) (g : Fin (n+1) → ℝ) :
    (Fin (n+1) → Fin d → Option ℝ) × (Fin (n+1) → Option ℝ) :=
  let X := nanStandardise Z
  let S : Fin (n+1) → Fin 1 → ℝ := fun i _ => ∑ j, (X i j).getD 0 * truthModel nRelevant U j
  (X, fun i => if ∀ i j, X i j ≠ none then (nanStandardise S i 0).map fun v => if noise > 0 then v + bias + noise * g i else v + bias else none)

/-- The outputs of `gen_friedman`: an array with one axis or a column. -/
inductive Outputs (n : ℕ)
  | flat (y : Fin n → Option ℝ)
  | column (y : Fin n → Option ℝ)

open Classical in
/-- `gen_friedman` (`datasets.py:36-67`). `Z` and `g` are the draws of the generator. -/
noncomputable def genFriedman (noise : ℝ) (normalise : Bool) (Z : Fin (n+1) → Fin d → ℝ) (g : Fin (n+1) → ℝ) :
    Except Err ((Fin (n+1) → Fin d → Option ℝ) × Outputs (n+1)) :=
  if h : d < 5 then .error .valueError
  else
    let X := nanStandardise Z
    let x : Fin (n+1) → Fin 5 → ℝ := fun i k => (X i ⟨k, by omega⟩).getD 0
    let nan : Prop := ∃ i, ∃ k : Fin 5, X i ⟨k, by omega⟩ = none
    let y0 : Fin (n+1) → ℝ := fun i => 10 * Real.sin (Real.pi * x i 0 * x i 1) + 20 * (x i 2 - 0.5) ^ 2 + 10 * x i 3 + 5 * x i 4
    let y : Fin (n+1) → ℝ := fun i => y0 i + noise * std y0 * g i
    .ok (X, if normalise then .column fun i => if nan then none else nanStandardise (fun i (_ : Fin 1) => y i) i 0
      else .flat fun i => if nan then none else some (y i))

/-! ## Specification -/

/-- The function of Friedman of the first five inputs. -/
noncomputable def friedman (x : Fin 5 → ℝ) : ℝ := 10 * Real.sin (Real.pi * x 0 * x 1) + 20 * (x 2 - 1 / 2) ^ 2 + 10 * x 3 + 5 * x 4

/-- The linear form of the relevant inputs. -/
noncomputable def linearForm (nRelevant : ℕ) (U x : Fin d → ℝ) : ℝ := ∑ j ∈ Finset.univ.filter (fun j : Fin d => j.val < nRelevant), U j * x j

/-! ## Proofs -/

theorem nanStandardise_some {X : Fin (n+1) → Fin d → ℝ} {j : Fin d} (h : ∃ a b, X a j ≠ X b j) (i : Fin (n+1)) :
    nanStandardise X i j = some (standardise .float X i j) := if_neg (colMin_lt_colMax h).ne'

theorem nanStandardise_none {X : Fin (n+1) → Fin d → ℝ} {j : Fin d} (h : ∀ a b, X a j = X b j) (i : Fin (n+1)) :
    nanStandardise X i j = none := by
  refine if_pos ?_
  obtain ⟨a, ha⟩ := exists_colMax X j
  obtain ⟨b, hb⟩ := exists_colMin X j
  rw [← ha, ← hb, h a b]

theorem truth_sum (nRelevant : ℕ) (U x : Fin d → ℝ) : ∑ j, x j * truthModel nRelevant U j = linearForm nRelevant U x := by
  rw [linearForm, Finset.sum_filter]
  apply Finset.sum_congr rfl
  intro j _
  have : j.val < min d nRelevant ↔ j.val < nRelevant := by have := j.2; omega
  simp only [truthModel, this]
  by_cases h : j.val < nRelevant
  · rw [if_pos h, if_pos h, mul_comm]
  · rw [if_neg h, if_neg h, mul_zero]

/-- C158, the part that holds for `gen_linear`. If no drawn column is constant and the linear form of the relevant inputs is not, the inputs lie in
`[-1, 1]` and the outputs are an increasing affine function of the linear form of the first `n_relevent` inputs, plus the scaled noise. Without noise
they fill the interval of length two around `bias`. Missing: the constant term, and no relevant inputs or a single observation; see
`c158_bias_violated` and `c158_nan_violated`. -/
theorem c158_linear_partial (nRelevant : ℕ) (bias noise : ℝ) (Z : Fin (n+1) → Fin d → ℝ) (U : Fin d → ℝ) (g : Fin (n+1) → ℝ)
    (hZ : ∀ j, ∃ a b, Z a j ≠ Z b j)
    (hS : ∃ a b, linearForm nRelevant U (standardise .float Z a) ≠ linearForm nRelevant U (standardise .float Z b)) :
    ∃ (x : Fin (n+1) → Fin d → ℝ) (v : Fin (n+1) → ℝ) (a b : ℝ), 0 < a ∧
      (∀ i j, (genLinear nRelevant bias noise Z U g).1 i j = some (x i j) ∧ -1 ≤ x i j ∧ x i j ≤ 1) ∧
      (∀ i, v i = a * linearForm nRelevant U (x i) + b) ∧
      (∀ i, bias - 1 ≤ v i ∧ v i ≤ bias + 1) ∧ (∃ i, v i = bias - 1) ∧ (∃ i, v i = bias + 1) ∧
      ∀ i, (genLinear nRelevant bias noise Z U g).2 i = some (if noise > 0 then v i + noise * g i else v i) := by
  obtain ⟨hb, -⟩ := c69_standardise_partial Z hZ
  have hX : nanStandardise Z = fun i j => some (standardise .float Z i j) := by
    funext i j; exact nanStandardise_some (hZ j) i
  set x := standardise .float Z with hx
  set S : Fin (n+1) → Fin 1 → ℝ := fun i _ => linearForm nRelevant U (x i) with hSdef
  have hS1 : ∀ j, ∃ a b, S a j ≠ S b j := fun _ => hS
  obtain ⟨hsb, hse, -⟩ := c69_standardise_partial S hS1
  have hpos : 0 < colMax S 0 - colMin S 0 := by have := colMin_lt_colMax (hS1 0); linarith
  refine ⟨x, fun i => standardise .float S i 0 + bias, 2 / (colMax S 0 - colMin S 0),
    bias - 1 - 2 * colMin S 0 / (colMax S 0 - colMin S 0), by positivity, fun i j => ⟨by simp [genLinear, hX], hb i j⟩, fun i => ?_,
    fun i => ?_, ?_, ?_, fun i => ?_⟩
  · show 2 * ((S i 0 - colMin S 0) / (colMax S 0 - colMin S 0)) - 1 + bias = _
    simp only [hSdef]
    ring
  · have := hsb i 0
    constructor <;> simp only <;> linarith
  · obtain ⟨i, hi⟩ := (hse 0).1
    exact ⟨i, by simp only [hi]; ring⟩
  · obtain ⟨i, hi⟩ := (hse 0).2
    exact ⟨i, by simp only [hi]; ring⟩
  · have h1 : (fun (i : Fin (n+1)) (_ : Fin 1) => ∑ j, (nanStandardise Z i j).getD 0 * truthModel nRelevant U j) = S := by
      funext i _
      simp only [hX, Option.getD_some, hSdef]
      exact truth_sum nRelevant U (x i)
    simp only [genLinear]
    rw [if_pos (by intro i j; simp [hX]), h1, nanStandardise_some (hS1 0)]
    simp only [Option.map_some]

/-- C158 is false for the constant term: with `bias = 0` and no noise, outputs are not a linear model with constant term zero. Three observations of two
inputs, `y = x1 + x2 + 1`. -/
theorem c158_bias_violated : ∃ (Z : Fin 3 → Fin 2 → ℝ) (U : Fin 2 → ℝ), (∀ j, ∃ a b, Z a j ≠ Z b j) ∧ (∀ j, -1 ≤ U j ∧ U j ≤ 1) ∧
    (∀ i, (genLinear 2 0 0 Z U 0).2 i = some (linearForm 2 U (standardise .float Z i) + 1)) ∧
    ¬ ∃ a, ∀ i, (genLinear 2 0 0 Z U 0).2 i = some (a * linearForm 2 U (standardise .float Z i) + 0) := by
  set Z : Fin 3 → Fin 2 → ℝ := fun i j => ![![0, 0], ![1, 0], ![0, 1]] i j with hZd
  have hZ : ∀ j, ∃ a b, Z a j ≠ Z b j := by
    intro j
    fin_cases j
    · exact ⟨0, 1, by simp [hZd]⟩
    · exact ⟨0, 2, by simp [hZd]⟩
  have hmax : ∀ j, colMax Z j = 1 := by
    intro j
    refine le_antisymm (Finset.sup'_le _ _ fun i _ => ?_) ?_
    · fin_cases j <;> fin_cases i <;> simp [hZd]
    · fin_cases j
      · simpa [hZd] using le_colMax Z 1 0
      · simpa [hZd] using le_colMax Z 2 1
  have hmin : ∀ j, colMin Z j = 0 := by
    intro j
    refine le_antisymm ?_ (Finset.le_inf' _ _ fun i _ => ?_)
    · fin_cases j
      · simpa [hZd] using colMin_le Z 0 0
      · simpa [hZd] using colMin_le Z 0 1
    · fin_cases j <;> fin_cases i <;> simp [hZd]
  have hx : ∀ i j, standardise .float Z i j = 2 * Z i j - 1 := by
    intro i j
    show 2 * ((Z i j - colMin Z j) / (colMax Z j - colMin Z j)) - 1 = _
    rw [hmax, hmin]; ring
  have hl : ∀ i, linearForm 2 (fun _ => 1) (standardise .float Z i) = ![-2, 0, 0] i := by
    intro i
    rw [linearForm, Finset.sum_filter, Fin.sum_univ_two]
    simp only [hx]
    fin_cases i <;> norm_num [hZd]
  have hv : ∀ i, (genLinear 2 0 0 Z (fun _ => 1) 0).2 i = some (linearForm 2 (fun _ => 1) (standardise .float Z i) + 1) := by
    obtain ⟨x, v, a, b, ha, h1, h2, h3, ⟨i1, h4⟩, ⟨i2, h5⟩, h6⟩ :=
      c158_linear_partial 2 0 0 Z (fun _ => 1) 0 hZ ⟨0, 1, by rw [hl, hl]; norm_num⟩
    have hxe : x = standardise .float Z := by
      funext i j
      have h := (h1 i j).1
      simp only [genLinear] at h
      rw [nanStandardise_some (hZ j)] at h
      exact (Option.some.inj h).symm
    subst hxe
    -- the increasing affine map takes `-2` to `-1` and `0` to `1`
    have hva : ∀ i, v i = a * ![-2, 0, 0] i + b := fun i => by rw [h2, hl]
    have e0 : v 0 = -2 * a + b := by rw [hva]; simp; ring
    have e1 : v 1 = b := by rw [hva]; simp
    have e2 : v 2 = b := by rw [hva]; simp
    have b0 := h3 0
    have b1 := h3 1
    have hb : b = 1 := by
      have : v i2 ≤ b := by
        fin_cases i2
        · show v 0 ≤ b; rw [e0]; linarith
        · exact e1.le
        · exact e2.le
      linarith
    have ha1 : a = 1 := by
      have : -2 * a + b ≤ v i1 := by
        fin_cases i1
        · exact e0.ge
        · show _ ≤ v 1; rw [e1]; linarith
        · show _ ≤ v 2; rw [e2]; linarith
      linarith
    intro i
    rw [h6, if_neg (by norm_num), h2, ha1, hb, one_mul]
  refine ⟨Z, fun _ => 1, hZ, fun _ => by norm_num, hv, ?_⟩
  rintro ⟨a, ha⟩
  have h := ha 1
  rw [hv, hl] at h
  simp at h

/-- C158 is false without relevant inputs and for a single observation: every output is `nan`. -/
theorem c158_nan_violated (bias noise : ℝ) (U : Fin (d+1) → ℝ) :
    (∀ (Z : Fin (n+1) → Fin (d+1) → ℝ) (g : Fin (n+1) → ℝ) (i : Fin (n+1)), (genLinear 0 bias noise Z U g).2 i = none) ∧
    ∀ (nRelevant : ℕ) (Z : Fin 1 → Fin (d+1) → ℝ) (g : Fin 1 → ℝ) (i : Fin 1), (genLinear nRelevant bias noise Z U g).2 i = none := by
  constructor
  · intro Z g i
    simp only [genLinear]
    by_cases h : ∀ i j, nanStandardise Z i j ≠ none
    · rw [if_pos h, nanStandardise_none (by intro a b; simp [truthModel])]; rfl
    · rw [if_neg h]
  · intro nRelevant Z g i
    simp only [genLinear]
    rw [if_neg]
    intro h
    exact h 0 0 (nanStandardise_none (fun a b => by rw [show a = b from Fin.ext (by omega)]) 0)

/-- C158, the part that holds for `gen_friedman`. For at least five inputs and no constant drawn column the inputs lie in `[-1, 1]` and the
outputs are the function of Friedman of the first five, plus noise of deviation `noise` times that of the function values; fewer inputs are refused; with `normalise` the outputs fill
`[-1, 1]`. Missing: the size of the noise and the shape of the outputs, see `c158_noise_violated` and `c158_shape_violated`. -/
theorem c158_friedman_partial (noise : ℝ) (Z : Fin (n+1) → Fin d → ℝ) (g : Fin (n+1) → ℝ) (hZ : ∀ j, ∃ a b, Z a j ≠ Z b j) :
    (d < 5 → ∀ b, genFriedman noise b Z g = .error .valueError) ∧
    (∀ h : 5 ≤ d, ∃ (x : Fin (n+1) → Fin d → ℝ) (y : Fin (n+1) → ℝ),
      (∀ i j, -1 ≤ x i j ∧ x i j ≤ 1) ∧ 
      (∀ i, y i = friedman (fun k => x i ⟨k, by omega⟩) + noise * std (fun i => friedman (fun k => x i ⟨k, by omega⟩)) * g i) ∧
      genFriedman noise false Z g = .ok (fun i j => some (x i j), .flat fun i => some (y i)) ∧
      ((∃ a b, y a ≠ y b) → ∃ z : Fin (n+1) → ℝ, genFriedman noise true Z g = .ok (fun i j => some (x i j), .column fun i => some (z i)) ∧
        (∀ i, -1 ≤ z i ∧ z i ≤ 1) ∧ (∃ i, z i = -1) ∧ (∃ i, z i = 1) ∧ ∀ i k, z i ≤ z k ↔ y i ≤ y k)) := by
  refine ⟨fun h b => by rw [genFriedman, dif_pos h], fun h => ?_⟩
  obtain ⟨hb, -⟩ := c69_standardise_partial Z hZ
  have hX : nanStandardise Z = fun i j => some (standardise .float Z i j) := by
    funext i j; exact nanStandardise_some (hZ j) i
  set x := standardise .float Z with hx
  have hf : ∀ i, 10 * Real.sin (Real.pi * x i ⟨0, by omega⟩ * x i ⟨1, by omega⟩) + 20 * (x i ⟨2, by omega⟩ - 0.5) ^ 2 +
      10 * x i ⟨3, by omega⟩ + 5 * x i ⟨4, by omega⟩ = friedman (fun k => x i ⟨k, by omega⟩) := by
    intro i
    simp only [friedman]
    norm_num
  refine ⟨x, fun i => friedman (fun k => x i ⟨k, by omega⟩) + noise * std (fun i => friedman (fun k => x i ⟨k, by omega⟩)) * g i,
    hb, fun i => rfl, ?_, fun hne => ?_⟩
  · rw [genFriedman, dif_neg (by omega)]
    simp only [hX, Option.getD_some]
    simp [← hf]
  · set y := fun i => friedman (fun k => x i ⟨k, by omega⟩) + noise * std (fun i => friedman (fun k => x i ⟨k, by omega⟩)) * g i with hy
    obtain ⟨h1, h2, h3, -⟩ := c69_standardise_partial (fun i (_ : Fin 1) => y i) fun _ => hne
    refine ⟨fun i => standardise .float (fun i (_ : Fin 1) => y i) i 0, ?_, fun i => h1 i 0, (h2 0).1, (h2 0).2, fun i k => h3 i k 0⟩
    rw [genFriedman, dif_neg (by omega)]
    have hnan : ∀ i, nanStandardise (fun i (_ : Fin 1) => y i) i 0 = some (standardise .float (fun i (_ : Fin 1) => y i) i 0) :=
      fun i => nanStandardise_some (X := fun i (_ : Fin 1) => y i) (j := 0) hne i
    simp only [← hnan, hX, Option.getD_some]
    simp [hy, ← hf]

/-- C158 is false for the shape: without `normalise` the outputs never are a column. -/
theorem c158_shape_violated (noise : ℝ) (Z : Fin (n+1) → Fin d → ℝ) (g : Fin (n+1) → ℝ) (X : Fin (n+1) → Fin d → Option ℝ) (y : Fin (n+1) → Option ℝ) :
    genFriedman noise false Z g ≠ .ok (X, .column y) := by
  rw [genFriedman]
  by_cases h : d < 5
  · rw [dif_pos h]; intro h; cases h
  · rw [dif_neg h]; intro h
    simp at h

/-- C158 is false for the noise: its deviation is not `noise` but a multiple, five in this case. -/
theorem c158_noise_violated : ∃ Z : Fin 2 → Fin 5 → ℝ, (∀ j, ∃ a b, Z a j ≠ Z b j) ∧ ∀ (noise : ℝ) (g : Fin 2 → ℝ), ∃ x : Fin 2 → Fin 5 → ℝ,
    genFriedman noise false Z g = .ok (fun i j => some (x i j), .flat fun i => some (friedman (x i) + 5 * noise * g i)) := by
  set Z : Fin 2 → Fin 5 → ℝ := fun i _ => ![0, 1] i with hZd
  have hZ : ∀ j, ∃ a b, Z a j ≠ Z b j := fun j => ⟨0, 1, by simp [hZd]⟩
  refine ⟨Z, hZ, fun noise g => ?_⟩
  have hmax : ∀ j, colMax Z j = 1 := by
    intro j
    refine le_antisymm (Finset.sup'_le _ _ fun i _ => ?_) ?_
    · fin_cases i <;> simp [hZd]
    · simpa [hZd] using le_colMax Z 1 j
  have hmin : ∀ j, colMin Z j = 0 := by
    intro j
    refine le_antisymm ?_ (Finset.le_inf' _ _ fun i _ => ?_)
    · simpa [hZd] using colMin_le Z 0 j
    · fin_cases i <;> simp [hZd]
  have hX : nanStandardise Z = fun i _ => some (![-1, 1] i) := by
    funext i j
    rw [nanStandardise_some (hZ j)]
    show some (2 * ((Z i j - colMin Z j) / (colMax Z j - colMin Z j)) - 1) = _
    rw [hmax, hmin]
    fin_cases i <;> norm_num [hZd]
  have hy : (fun i : Fin 2 => 10 * Real.sin (Real.pi * (![-1, 1] i : ℝ) * ![-1, 1] i) + 20 * ((![-1, 1] i : ℝ) - 0.5) ^ 2 + 10 * ![-1, 1] i +
      5 * ![-1, 1] i) = ![30, 20] := by
    funext i
    fin_cases i <;> norm_num
  have hstd : std (![30, 20] : Fin 2 → ℝ) = 5 := by
    unfold std mean
    simp only [Fin.sum_univ_two]
    norm_num
    rw [show (25 : ℝ) = 5 ^ 2 by norm_num, Real.sqrt_sq (by norm_num)]
  refine ⟨fun i _ => ![-1, 1] i, ?_⟩
  have hfr : ∀ i : Fin 2, friedman (fun _ => (![-1, 1] i : ℝ)) = (![30, 20] : Fin 2 → ℝ) i := by
    intro i
    rw [← hy]
    simp only [friedman]
    norm_num
  rw [genFriedman, dif_neg (by norm_num)]
  simp only [hX, Option.getD_some, hfr]
  rw [hy, hstd]
  have hyi := fun i => congrFun hy i
  simp only [hyi]
  rw [if_neg (by simp)]
  simp [mul_comm]

/-- Non-vacuity of C158: the draws of `c158_bias_violated` and `c158_noise_violated` meet the hypotheses of the other theorems. -/
example : ∃ Z : Fin 2 → Fin 5 → ℝ, (∀ j, ∃ a b, Z a j ≠ Z b j) ∧
    ∃ a b, linearForm 3 (fun _ => 1) (standardise .float Z a) ≠ linearForm 3 (fun _ => 1) (standardise .float Z b) := by
  have hZ : ∀ j : Fin 5, ∃ a b : Fin 2, (fun (i : Fin 2) (_ : Fin 5) => (![0, 1] : Fin 2 → ℝ) i) a j ≠ (fun (i : Fin 2) (_ : Fin 5) => (![0, 1] : Fin 2 → ℝ) i) b j :=
    fun j => ⟨0, 1, by simp⟩
  refine ⟨fun i _ => ![0, 1] i, hZ, 0, 1, ?_⟩
  have h := (c69_standardise_partial _ hZ).2.2.1
  have hlt : ∀ j, standardise .float (fun (i : Fin 2) (_ : Fin 5) => (![0, 1] : Fin 2 → ℝ) i) 0 j <
      standardise .float (fun (i : Fin 2) (_ : Fin 5) => (![0, 1] : Fin 2 → ℝ) i) 1 j := fun j => by
    rw [← not_le, h]; simp
  unfold linearForm
  refine (Finset.sum_lt_sum_of_nonempty ⟨0, by simp⟩ fun j _ => ?_).ne
  rw [one_mul, one_mul]
  exact hlt j

end EQ.Data
