import Verif.Basis.Model
import Mathlib.Data.Real.Basic
import Mathlib.Algebra.Order.Round
import Mathlib.Tactic.NormNum
import Mathlib.Tactic.Linarith

/-!
# Sampling arguments of a polynomial: C160
-/

namespace EQ.Poly
open EQ.Basis

/-! ## Model -/

/-- The attributes set from `sampling_args`; `none` where `__init__` leaves the default value (`poly.py:84-89`) or no attribute. -/
structure SamplingArgs (V : Type) where
  mesh : Option V
  samplingRatio : Option V
  subsampling : Option V
  inputs : Option V
  outputs : Option V
  gradients : Option V
  gramSchmidt : Option V
  correlations : Option V
  outputVariances : Option V

/-- `sampling_args.get(key)`: the dictionary is a list of pairs with different keys. -/
def getArg {V : Type} (args : List (List Char × V)) (key : String) : Option V := args.lookup key.toList

/-- The reading of `sampling_args` (`poly.py:109-142`): eight keys set the flag; the variances are read only together with outputs. `userDefined` is the
mesh set when points are given (`poly.py:121-124`). Simplification: the values are of one type; `float` and the inverse matrix are left out. -/
def readSampling {V : Type} (userDefined : V) (args : List (List Char × V)) : Except Err (SamplingArgs V) :=
  let flag := (getArg args "mesh").isSome || (getArg args "sampling-ratio").isSome || (getArg args "subsampling-algorithm").isSome ||
    (getArg args "sample-points").isSome || (getArg args "sample-outputs").isSome || (getArg args "sample-gradients").isSome ||
    (getArg args "gram-schmidt-correction").isSome || (getArg args "correlations").isSome
  if flag then
    .ok { mesh := if (getArg args "sample-points").isSome then some userDefined else getArg args "mesh"
          samplingRatio := getArg args "sampling-ratio"
          subsampling := getArg args "subsampling-algorithm"
          inputs := getArg args "sample-points"
          outputs := getArg args "sample-outputs"
          gradients := getArg args "sample-gradients"
          gramSchmidt := getArg args "gram-schmidt-correction"
          correlations := getArg args "correlations"
          outputVariances := if (getArg args "sample-outputs").isSome then getArg args "sample-output-variances" else none }
  else .error .valueError

/-- The number of points kept (`poly.py:242-256`): the rows of the mesh, or with a subsampling algorithm the first `m_refined` of the selection.
`round` is `np.round`; a selection has at most as many rows as the mesh. -/
noncomputable def pointsKept (round : ℝ → ℤ) (subsampling : Bool) (ratio : ℝ) (meshRows basisTerms : ℕ) : ℕ :=
  if subsampling then min meshRows (round (ratio * basisTerms)).toNat else meshRows

/-! ## Specification -/

/-- The keys read by the constructor. -/
def knownKeys : List String := ["mesh", "sampling-ratio", "subsampling-algorithm", "sample-points", "sample-outputs", "sample-gradients",
  "gram-schmidt-correction", "correlations"]

/-! ## Properties -/

/-- C160, the part that holds: with at least one known key, every one of the eight arguments has the value given, points turn the mesh into
`user-defined`, and variances given together with outputs are kept. Without a known key the arguments are refused. Missing: unknown keys beside known
ones, variances without outputs, and the sampling ratio without subsampling; see the violations. -/
theorem c160_arguments_partial {V : Type} (ud : V) (args : List (List Char × V)) :
    ((∃ k ∈ knownKeys, k.toList ∈ args.map Prod.fst) →
      ∃ s, readSampling ud args = .ok s ∧
        (∀ v, args.lookup "sampling-ratio".toList = some v → s.samplingRatio = some v) ∧
        (∀ v, args.lookup "subsampling-algorithm".toList = some v → s.subsampling = some v) ∧
        (∀ v, args.lookup "sample-points".toList = some v → s.inputs = some v ∧ s.mesh = some ud) ∧
        (∀ v, args.lookup "mesh".toList = some v → args.lookup "sample-points".toList = none → s.mesh = some v) ∧
        (∀ v, args.lookup "sample-outputs".toList = some v → s.outputs = some v ∧ s.outputVariances = args.lookup "sample-output-variances".toList) ∧
        (∀ v, args.lookup "sample-gradients".toList = some v → s.gradients = some v) ∧
        (∀ v, args.lookup "gram-schmidt-correction".toList = some v → s.gramSchmidt = some v) ∧
        (∀ v, args.lookup "correlations".toList = some v → s.correlations = some v)) ∧
    ((∀ k ∈ knownKeys, k.toList ∉ args.map Prod.fst) → readSampling ud args = .error .valueError) := by
  have hsome : ∀ k : String, (getArg args k).isSome = true ↔ k.toList ∈ args.map Prod.fst := by
    intro k
    rw [getArg]
    constructor
    · intro h
      obtain ⟨v, hv⟩ := Option.isSome_iff_exists.1 h
      obtain ⟨l1, l2, rfl, -⟩ := List.lookup_eq_some_iff.1 hv
      simp
    · intro h
      by_contra hn
      rw [Option.not_isSome_iff_eq_none, List.lookup_eq_none_iff] at hn
      obtain ⟨p, hp, hpk⟩ := List.mem_map.1 h
      have := hn p hp
      simp [hpk] at this
  constructor
  · rintro ⟨k, hk, hmem⟩
    have hflag : ((getArg args "mesh").isSome || (getArg args "sampling-ratio").isSome || (getArg args "subsampling-algorithm").isSome ||
        (getArg args "sample-points").isSome || (getArg args "sample-outputs").isSome || (getArg args "sample-gradients").isSome ||
        (getArg args "gram-schmidt-correction").isSome || (getArg args "correlations").isSome) = true := by
      have := (hsome k).2 hmem
      simp only [knownKeys, List.mem_cons, List.not_mem_nil, or_false] at hk
      rcases hk with rfl | rfl | rfl | rfl | rfl | rfl | rfl | rfl <;> simp [this]
    refine ⟨_, by simp only [readSampling]; rw [if_pos hflag], fun v hv => hv, fun v hv => hv, fun v hv => ⟨hv, ?_⟩, fun v hv hn => ?_,
      fun v hv => ⟨hv, ?_⟩, fun v hv => hv, fun v hv => hv, fun v hv => hv⟩
    · have : (getArg args "sample-points").isSome = true := by rw [getArg, hv]; rfl
      exact if_pos this
    · have : ¬ (getArg args "sample-points").isSome = true := by rw [getArg, hn]; simp
      exact (if_neg this).trans hv
    · have : (getArg args "sample-outputs").isSome = true := by rw [getArg, hv]; rfl
      exact if_pos this
  · intro h
    have hn : ∀ k ∈ knownKeys, (getArg args k).isSome = false := fun k hk => by
      rw [← Bool.not_eq_true, hsome]
      exact h k hk
    simp only [readSampling]
    rw [hn "mesh" (by simp [knownKeys]), hn "sampling-ratio" (by simp [knownKeys]), hn "subsampling-algorithm" (by simp [knownKeys]),
      hn "sample-points" (by simp [knownKeys]), hn "sample-outputs" (by simp [knownKeys]), hn "sample-gradients" (by simp [knownKeys]),
      hn "gram-schmidt-correction" (by simp [knownKeys]), hn "correlations" (by simp [knownKeys])]
    simp

/-- C160 is false for misspelt keys: beside a known key, any entry whose key is none of the nine is dropped without notice, in first or last position. -/
theorem c160_typo_violated {V : Type} (ud : V) (args : List (List Char × V)) (key : List Char) (v : V)
    (hk : ∀ k ∈ "sample-output-variances" :: knownKeys, k.toList ≠ key) :
    readSampling ud ((key, v) :: args) = readSampling ud args ∧ readSampling ud (args ++ [(key, v)]) = readSampling ud args := by
  have h1 : ∀ k ∈ "sample-output-variances" :: knownKeys, getArg ((key, v) :: args) k = getArg args k := fun k hm => by
    have : (k.toList == key) = false := beq_false_of_ne (hk k hm)
    rw [getArg, getArg, List.lookup_cons, this]
  have h2 : ∀ k ∈ "sample-output-variances" :: knownKeys, getArg (args ++ [(key, v)]) k = getArg args k := fun k hm => by
    have : (k.toList == key) = false := beq_false_of_ne (hk k hm)
    rw [getArg, getArg, List.lookup_append, List.lookup_cons, this]
    simp
  constructor
  · simp only [readSampling]
    rw [h1 "mesh" (by simp [knownKeys]), h1 "sampling-ratio" (by simp [knownKeys]), h1 "subsampling-algorithm" (by simp [knownKeys]),
      h1 "sample-points" (by simp [knownKeys]), h1 "sample-outputs" (by simp [knownKeys]), h1 "sample-gradients" (by simp [knownKeys]),
      h1 "gram-schmidt-correction" (by simp [knownKeys]), h1 "correlations" (by simp [knownKeys]), h1 "sample-output-variances" (by simp [knownKeys])]
  · simp only [readSampling]
    rw [h2 "mesh" (by simp [knownKeys]), h2 "sampling-ratio" (by simp [knownKeys]), h2 "subsampling-algorithm" (by simp [knownKeys]),
      h2 "sample-points" (by simp [knownKeys]), h2 "sample-outputs" (by simp [knownKeys]), h2 "sample-gradients" (by simp [knownKeys]),
      h2 "gram-schmidt-correction" (by simp [knownKeys]), h2 "correlations" (by simp [knownKeys]), h2 "sample-output-variances" (by simp [knownKeys])]

/-- C160 is false for the variances of the outputs: alone they are refused, and beside points without outputs (as for a later `set_model(y)`) they are
dropped. -/
theorem c160_variances_violated {V : Type} (ud v x : V) :
    readSampling ud [("sample-output-variances".toList, v)] = .error .valueError ∧
    ∃ s, readSampling ud [("sample-points".toList, x), ("sample-output-variances".toList, v)] = .ok s ∧ s.inputs = some x ∧
      s.outputVariances = none :=
  ⟨rfl, _, rfl, rfl, rfl⟩

/-- C160 is false for the sampling ratio: without a subsampling algorithm every mesh keeps all its points, whatever the ratio. -/
theorem c160_ratio_violated (round : ℝ → ℤ) (r s : ℝ) (meshRows basisTerms : ℕ) :
    pointsKept round false r meshRows basisTerms = pointsKept round false s meshRows basisTerms ∧
    pointsKept round false r meshRows basisTerms = meshRows := ⟨rfl, rfl⟩

/-- C160. With a subsampling algorithm and a mesh that is large enough the number of points is the ratio times the number of basis terms, rounded. -/
theorem c160_ratio_partial (round : ℝ → ℤ) (hr : ∀ x, 0 ≤ x → |(round x : ℝ) - x| ≤ 1 / 2) (ratio : ℝ) (h0 : 0 ≤ ratio) (meshRows basisTerms : ℕ)
    (hm : ratio * basisTerms + 1 / 2 ≤ meshRows) : |(pointsKept round true ratio meshRows basisTerms : ℝ) - ratio * basisTerms| ≤ 1 / 2 := by
  have hnn : 0 ≤ ratio * basisTerms := mul_nonneg h0 (Nat.cast_nonneg _)
  have h := hr _ hnn
  have h' := abs_le.1 h
  have hz : 0 ≤ round (ratio * basisTerms) := by
    by_contra hn
    have : round (ratio * basisTerms) ≤ -1 := by omega
    have : (round (ratio * basisTerms) : ℝ) ≤ -1 := by exact_mod_cast this
    linarith [h'.1]
  have hc : ((round (ratio * basisTerms)).toNat : ℝ) = round (ratio * basisTerms) := by
    have := Int.toNat_of_nonneg hz
    exact_mod_cast this
  have hle : (round (ratio * basisTerms)).toNat ≤ meshRows := by
    have : ((round (ratio * basisTerms)).toNat : ℝ) ≤ meshRows := by rw [hc]; linarith [h'.2]
    exact_mod_cast this
  simp only [pointsKept, if_true]
  rw [Nat.min_eq_right hle, hc]
  exact h

/-- Non-vacuity of C160. -/
example : (∃ k ∈ knownKeys, k.toList ∈ [("mesh".toList, 1), ("sampling-ratoi".toList, 2)].map Prod.fst) ∧
    (∀ k ∈ "sample-output-variances" :: knownKeys, k.toList ≠ "sampling-ratoi".toList) ∧
    readSampling 0 [("mesh".toList, 1), ("sampling-ratoi".toList, 2)] = readSampling 0 [("mesh".toList, 1)] := by
  have h : ∀ k ∈ "sample-output-variances" :: knownKeys, k.toList ≠ "sampling-ratoi".toList := by decide
  exact ⟨⟨"mesh", by simp [knownKeys], by simp⟩, h, (c160_typo_violated 0 [("mesh".toList, 1)] _ 2 h).2⟩

/-- Rounding to the nearest integer meets the hypothesis of `c160_ratio_partial`. -/
example : ∀ x : ℝ, 0 ≤ x → |((round x : ℤ) : ℝ) - x| ≤ 1 / 2 := fun x _ => by rw [abs_sub_comm]; exact abs_sub_round x

end EQ.Poly
