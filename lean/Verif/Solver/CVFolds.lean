import Verif.Solver.CVProps

/-!
# Compressed sensing: the error of a fold and the default noise levels (C222)
-/

namespace EQ.Solver
open Matrix EQ.Basis

/-- The rows held out in fold `k`: the `k`-th block of a fifth of the rows, rounded up. -/
def Spec.heldOut (N k : ℕ) : Finset (Fin N) := Finset.univ.filter fun i => (i : ℕ) / ((N + 4) / 5) = k

/-- The other rows, in their order. -/
def Spec.kept (N k : ℕ) : List (Fin N) := (List.finRange N).filter fun i => (i : ℕ) / ((N + 4) / 5) ≠ k

/-- The deviation of the prediction with the coefficients `x` from the data, averaged over the rows held out in fold `k`. -/
noncomputable def Spec.meanDeviation {N n : ℕ} (A : Mat N n) (y : Vec N) (k : ℕ) (x : Vec n) : ℝ :=
  (∑ i ∈ heldOut N k, |∑ j, A i j * x j - y i|) / (heldOut N k).card

theorem mem_fold_iff {N k : ℕ} (i : Fin N) : i ∈ foldRows N k ↔ (i : ℕ) / ((N + 4) / 5) = k := by
  have hs : 0 < (N + 4) / 5 := by have := i.pos; omega
  rw [mem_foldRows, foldSize]
  constructor
  · rintro ⟨h1, h2⟩
    exact Nat.div_eq_of_lt_le h1 h2
  · rintro rfl
    exact ⟨Nat.div_mul_le_self _ _, (Nat.div_lt_iff_lt_mul hs).1 (Nat.lt_succ_self _)⟩

theorem fold_toFinset (N k : ℕ) : (foldRows N k).toFinset = Spec.heldOut N k := by
  ext i
  simp [Spec.heldOut, mem_fold_iff]

theorem train_eq (N k : ℕ) : trainRows (foldRows N k) = Spec.kept N k := by
  unfold trainRows Spec.kept
  refine List.filter_congr fun i _ => ?_
  simp [mem_fold_iff]

theorem fold_card (N k : ℕ) : (foldRows N k).length = (Spec.heldOut N k).card := by
  rw [← fold_toFinset, List.toFinset_card_of_nodup (nodup_foldRows N k)]

theorem fold_sum {N : ℕ} (k : ℕ) (g : Fin N → ℝ) :
    ∑ r : Fin (foldRows N k).length, g ((foldRows N k).get r) = ∑ i ∈ Spec.heldOut N k, g i := by
  rw [← fold_toFinset, List.sum_toFinset _ (nodup_foldRows N k), ← List.sum_ofFn]
  congr 1
  conv_rhs => rw [← List.ofFn_get (foldRows N k), List.map_ofFn]
  rfl

/-- What the solver finds for fold `k` from the rows kept, `none` for `LinAlgError`. -/
def Spec.FitsFold {N n : ℕ} (bp : Denoise n) (A : Mat N n) (y : Vec N) (eta : ℝ) (k : ℕ) (x : Option (Vec n)) : Prop :=
  bp _ (fun r => A ((Spec.kept N k).get r)) (fun r => y ((Spec.kept N k).get r)) eta =
    match x with
    | some x => .ok x
    | none => .error .linAlgError

theorem foldError_eq {N n : ℕ} (bp : Denoise n) (A : Mat N n) (y : Vec N) (eta : ℝ) (k : ℕ) (x : Option (Vec n))
    (hx : (Spec.heldOut N k).Nonempty → Spec.FitsFold bp A y eta k x) :
    foldError bp A y eta (foldRows N k) = .ok (if (Spec.heldOut N k).Nonempty then
      x.map fun x => Spec.meanDeviation A y k x / (Spec.heldOut N k).card else none) := by
  unfold foldError
  by_cases h : foldRows N k = []
  · rw [if_pos h, if_neg]
    rw [← fold_toFinset, h]
    simp
  · have hne : (Spec.heldOut N k).Nonempty := by
      rw [← fold_toFinset, List.toFinset_nonempty_iff]
      exact h
    rw [if_neg h, if_pos hne, train_eq]
    have e := hx hne
    unfold Spec.FitsFold at e
    rw [show bp _ (takeRows A (Spec.kept N k)) (takeVec y (Spec.kept N k)) eta = _ from e]
    cases x with
    | none => rfl
    | some x =>
      simp only [Option.map_some, Spec.meanDeviation, fold_card]
      congr 4
      exact fold_sum k fun i => |∑ j, A i j * x j - y i|

/-- C222, the part that holds: the errors of a noise level are, for the folds that hold out rows and whose fit to the other rows
succeeds, the mean deviation on the rows held out divided once more by their number. Missing: without that division, see
`c222_fold_violated`. -/
theorem c222_fold_partial {N n : ℕ} (bp : Denoise n) (A : Mat N n) (y : Vec N) (eta : ℝ) (xs : ℕ → Option (Vec n))
    (hx : ∀ k < 5, (Spec.heldOut N k).Nonempty → Spec.FitsFold bp A y eta k (xs k)) :
    ownErrors bp A y eta = .ok ((List.range 5).filterMap fun k => if (Spec.heldOut N k).Nonempty then
      (xs k).map fun x => Spec.meanDeviation A y k x / (Spec.heldOut N k).card else none) := by
  unfold ownErrors
  have : ∀ (l : List ℕ) (acc : List ℝ), (∀ k ∈ l, k < 5) → levelErrors bp A y eta (l.map (foldRows N)) acc =
      .ok (acc ++ l.filterMap fun k => if (Spec.heldOut N k).Nonempty then
        (xs k).map fun x => Spec.meanDeviation A y k x / (Spec.heldOut N k).card else none) := by
    intro l
    induction l with
    | nil => intro acc _; simp [levelErrors]
    | cons k l ih =>
      intro acc hl
      rw [List.map_cons, levelErrors, foldError_eq bp A y eta k (xs k) (hx k (hl k (by simp))), List.filterMap_cons]
      generalize (if (Spec.heldOut N k).Nonempty then
        (xs k).map fun x => Spec.meanDeviation A y k x / (Spec.heldOut N k).card else none) = o
      cases o with
      | none => exact ih acc fun j hj => hl j (by simp [hj])
      | some v =>
        simp only
        rw [ih (acc ++ [v]) fun j hj => hl j (by simp [hj]), List.append_assoc]
        rfl
  have h5 := this (List.range 5) [] fun k hk => by simpa using hk
  simpa using h5

/-- Equal deviations everywhere: with seven rows the fold that holds out one row counts twice as much as the three that hold out
two. -/
theorem c222_fold_violated : ∃ (bp : Denoise 1) (A : Mat 7 1) (x : Vec 1),
    (∀ k < 5, (Spec.heldOut 7 k).Nonempty → Spec.FitsFold bp A 0 1 k (some x)) ∧
    (∀ k < 4, Spec.meanDeviation A 0 k x = 2) ∧ ownErrors bp A 0 1 = .ok [1, 1, 1, 2] := by
  have hcard : ∀ k < 5, (Spec.heldOut 7 k).card = if k < 3 then 2 else if k < 4 then 1 else 0 := by decide
  have hdev : ∀ k < 4, Spec.meanDeviation (fun _ _ => 1 : Mat 7 1) 0 k (fun _ => 2) = 2 := by
    intro k hk
    have hc := hcard k (by omega)
    have : ((Spec.heldOut 7 k).card : ℝ) ≠ 0 := by
      rw [hc]
      split_ifs <;> norm_num
    simp only [Spec.meanDeviation, Finset.univ_unique, Finset.sum_const, Finset.card_singleton, Pi.zero_apply, one_mul, sub_zero,
      nsmul_eq_mul, Nat.cast_one]
    rw [abs_of_pos two_pos, mul_div_cancel_left₀ _ this]
  have hfit : ∀ k < 5, (Spec.heldOut 7 k).Nonempty →
      Spec.FitsFold (fun _ _ _ _ => .ok fun _ => 2 : Denoise 1) (fun _ _ => 1 : Mat 7 1) 0 1 k (some fun _ => 2) := fun _ _ _ => rfl
  refine ⟨_, _, _, hfit, hdev, ?_⟩
  rw [c222_fold_partial _ _ _ _ (fun _ => some fun _ => 2) hfit]
  have hne : ∀ k < 5, (Spec.heldOut 7 k).Nonempty ↔ k < 4 := by decide
  have r : List.range 5 = [0, 1, 2, 3, 4] := rfl
  rw [r]
  simp only [List.filterMap_cons, List.filterMap_nil, Option.map_some, hne 0 (by norm_num), hne 1 (by norm_num), hne 2 (by norm_num),
    hne 3 (by norm_num), hne 4 (by norm_num), hdev 0 (by norm_num), hdev 1 (by norm_num), hdev 2 (by norm_num), hdev 3 (by norm_num),
    hcard 0 (by norm_num), hcard 1 (by norm_num), hcard 2 (by norm_num), hcard 3 (by norm_num)]
  norm_num

/-- Without a noise level the candidates are the powers of ten from `1e-8` to `0.1`: the residual of the result is below `0.1`. -/
theorem c222_default {N n : ℕ} (argsort : List (WithTop ℝ) → List ℕ) (ha : ArgsortTop argsort) (solve : Solve)
    (hsolve : SolveContract solve) (A : Mat N n) (y : Vec N) (hy : ∀ k < 5, takeVec y (trainRows (foldRows N k)) ≠ 0)
    (hu : IsUnit (A * Aᵀ).det) :
    basisPursuit argsort (packageDenoise solve n) A y none =
      basisPursuit argsort (packageDenoise solve n) A y (some ((List.range 8).map fun k => (1 / 10 : ℝ) ^ (8 - k))) ∧
    ∃ x, basisPursuit argsort (packageDenoise solve n) A y none = .ok x ∧ ∑ i, (∑ j, A i j * x j - y i) ^ 2 < 1 / 100 := by
  have hl : noiseLevels none = (List.range 8).map fun k => (1 / 10 : ℝ) ^ (8 - k) := by
    have r : List.range 8 = [0, 1, 2, 3, 4, 5, 6, 7] := rfl
    rw [r]
    simp only [noiseLevels, List.map_cons, List.map_nil]
    norm_num
  refine ⟨by unfold basisPursuit; rw [hl]; rfl, ?_⟩
  have hpos : ∀ eta ∈ noiseLevels none, 0 < eta ∧ eta ≤ 1 / 10 := by
    intro eta h
    rw [hl] at h
    obtain ⟨k, hk, rfl⟩ := List.mem_map.1 h
    rw [List.mem_range] at hk
    refine ⟨by positivity, ?_⟩
    calc (1 / 10 : ℝ) ^ (8 - k) ≤ (1 / 10 : ℝ) ^ 1 := pow_le_pow_of_le_one (by norm_num) (by norm_num) (by omega)
      _ = _ := pow_one _
  obtain ⟨x, hx, eta, he, hr⟩ := (c86_compressed_sensing argsort ha solve hsolve A y hy none (fun eta h => (hpos eta h).1)
    (by rw [hl]; simp)).1 hu
  refine ⟨x, hx, ?_⟩
  have h1 : √(sqRes A y x) < 1 / 10 := hr.trans_le (hpos eta he).2
  have h2 := (Real.sqrt_lt' (by norm_num)).1 h1
  have e : sqRes A y x = ∑ i, (∑ j, A i j * x j - y i) ^ 2 := by
    simp only [sqRes, mulVec, dotProduct]
  rw [e] at h2
  linarith [h2, (by norm_num : ((1 : ℝ) / 10) ^ 2 = 1 / 100)]

/-- An invertible system with data that do not vanish on any training set. -/
example : IsUnit ((!![1, 2, 0; 0, 1, 1] : Mat 2 3) * (!![1, 2, 0; 0, 1, 1] : Mat 2 3)ᵀ).det ∧
    ∀ k < 5, takeVec (![1, 2] : Vec 2) (trainRows (foldRows 2 k)) ≠ 0 := by
  constructor
  · rw [isUnit_iff_ne_zero, det_fin_two]
    simp [Matrix.mul_apply, Fin.sum_univ_three]
    norm_num
  · have hlen : ∀ k < 5, 0 < (trainRows (foldRows 2 k)).length := by decide
    intro k hk h
    have := congrFun h ⟨0, hlen k hk⟩
    simp only [takeVec, Pi.zero_apply] at this
    have hne : ∀ i : Fin 2, (![1, 2] : Vec 2) i ≠ 0 := by intro i; fin_cases i <;> simp
    exact hne _ this

end EQ.Solver
