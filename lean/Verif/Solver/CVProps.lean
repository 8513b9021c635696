import Verif.Solver.BPProps

/-!
# Compressed sensing: cross-validation and the choice of the noise level (C45, C46, C86)
-/

namespace EQ.Solver
open Matrix EQ.Basis

/-! ## C45 -/

theorem getD_lt {α : Type*} (l : List α) (d : α) (i : ℕ) (h : i < l.length) : l.getD i d = l[i] := by
  simp [List.getD, h]

theorem mem_foldRows {N k : ℕ} (i : Fin N) :
    i ∈ foldRows N k ↔ k * foldSize N ≤ i ∧ (i : ℕ) < (k + 1) * foldSize N := by
  unfold foldRows
  rw [List.mem_filterMap]
  constructor
  · rintro ⟨a, ha, h⟩
    split_ifs at h with hlt
    have : (i : ℕ) = k * foldSize N + a := by rw [← Option.some.inj h]
    rw [List.mem_range] at ha
    rw [Nat.add_mul]
    omega
  · rintro ⟨h1, h2⟩
    rw [Nat.add_mul, Nat.one_mul] at h2
    refine ⟨i - k * foldSize N, by rw [List.mem_range]; omega, ?_⟩
    rw [dif_pos (by have := i.2; omega)]
    congr 1
    ext
    simp only
    omega

theorem nodup_foldRows (N k : ℕ) : (foldRows N k).Nodup := by
  unfold foldRows
  refine List.Nodup.filterMap ?_ List.nodup_range
  intro a b c hc hc'
  simp only [Option.mem_def] at hc hc'
  split_ifs at hc hc' with h1 h2
  have := (Option.some.inj hc).trans (Option.some.inj hc').symm
  simp only [Fin.mk.injEq] at this
  omega

theorem mem_trainRows {N : ℕ} (idx : List (Fin N)) (i : Fin N) : i ∈ trainRows idx ↔ i ∉ idx := by
  simp [trainRows]

/-- C45. For every number of rows `N`: no validation set contains a row twice, every row is in
exactly one of the five validation sets, and the training set of a fold contains exactly the other
rows, each once and in the original order. -/
theorem c45_folds (N : ℕ) :
    (∀ k < 5, (foldRows N k).Nodup) ∧
    (∀ i : Fin N, ∃! k, k < 5 ∧ i ∈ foldRows N k) ∧
    ∀ k < 5, (∀ i, i ∈ trainRows (foldRows N k) ↔ i ∉ foldRows N k) ∧
      (trainRows (foldRows N k)).Pairwise (· < ·) := by
  refine ⟨fun k _ => nodup_foldRows N k, fun i => ?_, fun k _ => ⟨fun i => mem_trainRows _ i, ?_⟩⟩
  · have hN : 0 < N := i.pos
    have hs : 0 < foldSize N := by unfold foldSize; omega
    have hcover : N ≤ 5 * foldSize N := by unfold foldSize; omega
    refine ⟨i / foldSize N, ⟨?_, ?_⟩, ?_⟩
    · rw [Nat.div_lt_iff_lt_mul hs]; have := i.2; omega
    · rw [mem_foldRows]
      exact ⟨Nat.div_mul_le_self _ _, (Nat.div_lt_iff_lt_mul hs).1 (Nat.lt_succ_self _)⟩
    · rintro k ⟨_, hk⟩
      rw [mem_foldRows] at hk
      exact (Nat.div_eq_of_lt_le hk.1 hk.2).symm
  · exact (List.pairwise_lt_finRange N).filter _

/-! ## C46 -/

/-- Errors of the five folds of one level, computed on their own. -/
noncomputable def ownErrors {N n : ℕ} (bp : Denoise n) (A : Mat N n) (y : Vec N) (eta : ℝ) :
    Except Err (List ℝ) := levelErrors bp A y eta ((List.range 5).map (foldRows N)) []

theorem levelErrors_append {N n : ℕ} (bp : Denoise n) (A : Mat N n) (y : Vec N) (eta : ℝ)
    (folds : List (List (Fin N))) : ∀ errors own, levelErrors bp A y eta folds [] = .ok own →
      levelErrors bp A y eta folds errors = .ok (errors ++ own) := by
  suffices h : ∀ pre errors own, levelErrors bp A y eta folds pre = .ok own →
      levelErrors bp A y eta folds (errors ++ pre) = .ok (errors ++ own) by
    intro errors own ho
    have := h [] errors own ho
    rwa [List.append_nil] at this
  induction folds with
  | nil => intro pre errors own h; simp only [levelErrors, Except.ok.injEq] at h ⊢; rw [h]
  | cons idx rest ih =>
    intro pre errors own h
    unfold levelErrors at h ⊢
    cases hf : foldError bp A y eta idx with
    | error e => rw [hf] at h; simp at h
    | ok o =>
      cases o with
      | none => rw [hf] at h; exact ih pre errors own h
      | some v =>
        rw [hf] at h
        simp only at h ⊢
        rw [List.append_assoc]
        exact ih (pre ++ [v]) errors own h

theorem meanErrors_eq {N n : ℕ} (bp : Denoise n) (A : Mat N n) (y : Vec N) :
    ∀ (etas : List ℝ) (own : List (List ℝ)) (acc : List ℝ),
      List.Forall₂ (fun eta o => ownErrors bp A y eta = .ok o) etas own →
      meanErrors bp A y etas acc = .ok ((List.range own.length).map fun k =>
        recordMean (acc ++ (own.take (k + 1)).flatten)) := by
  intro etas own acc h
  induction h generalizing acc with
  | nil => rfl
  | @cons eta o etas own h1 h2 ih =>
    unfold meanErrors
    rw [levelErrors_append bp A y eta _ acc o h1]
    simp only
    rw [ih (acc ++ o)]
    simp only [List.length_cons, List.range_succ_eq_map, List.map_cons, List.map_map]
    congr 2
    · simp
    · refine List.map_congr_left fun k _ => ?_
      simp [List.append_assoc]

/-- The arithmetic mean, infinite if there is nothing to average. -/
def IsMean (l : List ℝ) (m : WithTop ℝ) : Prop :=
  (l = [] → m = ⊤) ∧ (l ≠ [] → ∃ v : ℝ, m = v ∧ v * l.length = l.sum)

theorem recordMean_isMean (l : List ℝ) : IsMean l (recordMean l) := by
  unfold recordMean
  refine ⟨fun h => by rw [if_pos h], fun h => ⟨_, by rw [if_neg h], ?_⟩⟩
  have : (l.length : ℝ) ≠ 0 := by simpa using h
  field_simp

/-- C46, the part that holds: the error recorded for a candidate noise level is the mean of the fold
errors of that level *and of all levels before it* (`inf` if there are none); so for the first level
it is the mean of its own errors. Missing: the same for the later levels
(`c46_level_errors_violated`). -/
theorem c46_level_errors_partial {N n : ℕ} (bp : Denoise n) (A : Mat N n) (y : Vec N) (etas : List ℝ)
    (own : List (List ℝ)) (h : List.Forall₂ (fun eta o => ownErrors bp A y eta = .ok o) etas own) :
    ∃ means, meanErrors bp A y etas [] = .ok means ∧ means.length = etas.length ∧
      (∀ k < own.length, ∃ m, means[k]? = some m ∧ IsMean (own.take (k + 1)).flatten m) ∧
      ∀ o, own.head? = some o → ∃ m, means.head? = some m ∧ IsMean o m := by
  refine ⟨_, meanErrors_eq bp A y etas own [] h, by simp [h.length_eq], fun k hk => ?_, fun o ho => ?_⟩
  · exact ⟨_, by simp [hk], recordMean_isMean _⟩
  · cases own with
    | nil => simp at ho
    | cons o' own =>
      simp only [List.head?_cons, Option.some.injEq] at ho
      subst ho
      exact ⟨_, by simp [List.range_succ_eq_map], recordMean_isMean _⟩

/-- The data of the counterexample: five rows, all with value zero. -/
def onesA : Mat 5 1 := fun _ _ => 1

/-- A solver that returns the noise level itself as the only coefficient. -/
def echo : Denoise 1 := fun _ _ _ eta => .ok fun _ => eta

theorem echo_own (eta : ℝ) (h : 0 ≤ eta) :
    ownErrors echo onesA 0 eta = .ok (List.replicate 5 eta) := by
  have hf : ∀ idx : List (Fin 5), idx.length = 1 → foldError echo onesA 0 eta idx = .ok (some eta) := by
    intro idx hidx
    obtain ⟨i, rfl⟩ := List.length_eq_one_iff.1 hidx
    simp [foldError, echo, takeRows, takeVec, onesA, mulVec, dotProduct, abs_of_nonneg h]
  have hlen : ∀ k < 5, (foldRows 5 k).length = 1 := by decide
  unfold ownErrors
  simp only [List.range_succ_eq_map, List.range_zero, List.map_cons, List.map_nil, levelErrors]
  rw [hf _ (hlen 0 (by norm_num)), hf _ (hlen _ (by norm_num)), hf _ (hlen _ (by norm_num)),
    hf _ (hlen _ (by norm_num)), hf _ (hlen _ (by norm_num))]
  rfl

/-- What is assumed of `np.argsort` here. -/
def ArgsortTop (argsort : List (WithTop ℝ) → List ℕ) : Prop := ∀ l,
  (argsort l).Perm (List.range l.length) ∧ (argsort l).Pairwise fun i j => l.getD i ⊤ ≤ l.getD j ⊤

/-- C46, violated as stated: with candidate levels whose own mean errors are `10`, `1` and `2`, the
errors recorded are `10`, `11/2` and `13/3`; so the level used is the third one although the second
has the smaller error. -/
theorem c46_level_errors_violated (argsort : List (WithTop ℝ) → List ℕ) (ha : ArgsortTop argsort) :
    (∀ eta ∈ [10, 1, 2], ownErrors echo onesA 0 eta = .ok (List.replicate 5 eta)) ∧
    meanErrors echo onesA 0 [10, 1, 2] [] =
      .ok [((10 : ℝ) : WithTop ℝ), ((11/2 : ℝ) : WithTop ℝ), ((13/3 : ℝ) : WithTop ℝ)] ∧
    basisPursuit argsort echo onesA 0 (some [10, 1, 2]) = .ok fun _ => 2 := by
  have hown : ∀ eta ∈ [(10 : ℝ), 1, 2], ownErrors echo onesA 0 eta = .ok (List.replicate 5 eta) := by
    intro eta h
    apply echo_own
    simp only [List.mem_cons, List.not_mem_nil, or_false] at h
    rcases h with rfl | rfl | rfl <;> norm_num
  have hmean : meanErrors echo onesA 0 [10, 1, 2] [] =
      .ok [((10 : ℝ) : WithTop ℝ), ((11/2 : ℝ) : WithTop ℝ), ((13/3 : ℝ) : WithTop ℝ)] := by
    rw [meanErrors_eq echo onesA 0 [10, 1, 2]
      [List.replicate 5 10, List.replicate 5 1, List.replicate 5 2] [] (by
        simp only [List.forall₂_cons, List.forall₂_nil_left_iff, and_true]
        exact ⟨hown 10 (by simp), hown 1 (by simp), hown 2 (by simp)⟩)]
    simp only [List.length_cons, List.length_nil, List.range_succ_eq_map, List.range_zero,
      List.map_cons, List.map_nil, Except.ok.injEq, recordMean]
    simp
    norm_num
  refine ⟨hown, hmean, ?_⟩
  unfold basisPursuit noiseLevels
  simp only
  rw [hmean]
  simp only
  obtain ⟨h1, h2⟩ := ha [((10 : ℝ) : WithTop ℝ), ((11/2 : ℝ) : WithTop ℝ), ((13/3 : ℝ) : WithTop ℝ)]
  generalize argsort _ = l at h1 h2
  cases l with
  | nil => simp at h1
  | cons i l =>
    have hmem : ∀ j < 3, j ∈ i :: l := fun j hj => h1.mem_iff.2 (by simpa using hj)
    have hi3 : i < 3 := by simpa using h1.mem_iff.1 (List.mem_cons_self)
    have hi : i = 2 := by
      by_contra hne
      rw [List.pairwise_cons] at h2
      have h3 := h2.1 2 (by
        rcases List.mem_cons.1 (hmem 2 (by norm_num)) with h | h
        · omega
        · exact h)
      have : i = 0 ∨ i = 1 := by omega
      rcases this with rfl | rfl
      · have h4 : ((10 : ℝ) : WithTop ℝ) ≤ ((13/3 : ℝ) : WithTop ℝ) := h3
        rw [WithTop.coe_le_coe] at h4; norm_num at h4
      · simp at h3; norm_num at h3
    subst hi
    simp [firstSolvable, echo]

/-! ## C86 -/

/-- A de-noising solver that raises nothing but `LinAlgError`. -/
def OnlyLinAlg {n : ℕ} (bp : Denoise n) : Prop :=
  ∀ m A b eta e, bp m A b eta = .error e → e = .linAlgError

theorem ownErrors_ok {N n : ℕ} (bp : Denoise n) (hbp : OnlyLinAlg bp) (A : Mat N n) (y : Vec N)
    (eta : ℝ) : ∃ o, ownErrors bp A y eta = .ok o := by
  unfold ownErrors
  generalize (List.range 5).map (foldRows N) = folds
  generalize ([] : List ℝ) = acc
  induction folds generalizing acc with
  | nil => exact ⟨acc, rfl⟩
  | cons idx rest ih =>
    unfold levelErrors
    have : ∃ o, foldError bp A y eta idx = .ok o := by
      unfold foldError
      split_ifs
      · exact ⟨_, rfl⟩
      · cases hb : bp _ (takeRows A (trainRows idx)) (takeVec y (trainRows idx)) eta with
        | error e => have := hbp _ _ _ _ _ hb; subst this; exact ⟨_, rfl⟩
        | ok x => exact ⟨_, rfl⟩
    obtain ⟨o, ho⟩ := this
    rw [ho]
    cases o with
    | none => exact ih acc
    | some v => exact ih _

theorem meanErrors_ok {N n : ℕ} (bp : Denoise n) (hbp : OnlyLinAlg bp) (A : Mat N n) (y : Vec N)
    (etas : List ℝ) : ∃ means, meanErrors bp A y etas [] = .ok means ∧
      means.length = etas.length := by
  choose f hf using ownErrors_ok bp hbp A y
  have : List.Forall₂ (fun eta o => ownErrors bp A y eta = .ok o) etas (etas.map f) := by
    rw [List.forall₂_map_right_iff]
    exact List.forall₂_same.2 fun e _ => hf e
  exact ⟨_, meanErrors_eq bp A y etas _ [] this, by simp⟩

theorem firstSolvable_spec {N n : ℕ} (bp : Denoise n) (hbp : OnlyLinAlg bp) (A : Mat N n)
    (y : Vec N) (eta : List ℝ) : ∀ l : List ℕ,
    (firstSolvable bp A y eta l = .error .valueError ∧
      ∀ i ∈ l, bp N A y (eta.getD i 0) = .error .linAlgError) ∨
    ∃ pre i post x, l = pre ++ i :: post ∧ firstSolvable bp A y eta l = .ok x ∧
      bp N A y (eta.getD i 0) = .ok x ∧ ∀ j ∈ pre, bp N A y (eta.getD j 0) = .error .linAlgError := by
  intro l
  induction l with
  | nil => exact .inl ⟨rfl, by simp⟩
  | cons i l ih =>
    unfold firstSolvable
    cases hb : bp N A y (eta.getD i 0) with
    | ok x => exact .inr ⟨[], i, l, x, rfl, rfl, hb, by simp⟩
    | error e =>
      have := hbp _ _ _ _ _ hb
      subst this
      simp only
      rcases ih with ⟨h1, h2⟩ | ⟨pre, j, post, x, h1, h2, h3, h4⟩
      · exact .inl ⟨h1, List.forall_mem_cons.2 ⟨hb, h2⟩⟩
      · exact .inr ⟨i :: pre, j, post, x, by rw [h1]; rfl, h2, h3, List.forall_mem_cons.2 ⟨hb, h4⟩⟩

/-- C86. For every matrix and data and every list of candidate noise levels, and any de-noising
solver that raises nothing but `LinAlgError`: compressed sensing raises `ValueError` exactly if the
solver fails on the full data for every candidate; otherwise it returns the solver's result on the
full data for the candidate whose recorded error is smallest among the candidates that do not
fail. -/
theorem c86_selection {N n : ℕ} (argsort : List (WithTop ℝ) → List ℕ) (ha : ArgsortTop argsort)
    (bp : Denoise n) (hbp : OnlyLinAlg bp) (A : Mat N n) (y : Vec N) (levels : Option (List ℝ)) :
    ∃ means, meanErrors bp A y (noiseLevels levels) [] = .ok means ∧
      ((basisPursuit argsort bp A y levels = .error .valueError ∧
        ∀ i < (noiseLevels levels).length,
          bp N A y ((noiseLevels levels).getD i 0) = .error .linAlgError) ∨
      ∃ i x, i < (noiseLevels levels).length ∧ basisPursuit argsort bp A y levels = .ok x ∧
        bp N A y ((noiseLevels levels).getD i 0) = .ok x ∧
        ∀ j < (noiseLevels levels).length, means.getD j ⊤ < means.getD i ⊤ →
          bp N A y ((noiseLevels levels).getD j 0) = .error .linAlgError) := by
  obtain ⟨means, hm, hl⟩ := meanErrors_ok bp hbp A y (noiseLevels levels)
  refine ⟨means, hm, ?_⟩
  unfold basisPursuit
  rw [hm]
  simp only
  obtain ⟨hp, hs⟩ := ha means
  rw [hl] at hp
  rcases firstSolvable_spec bp hbp A y (noiseLevels levels) (argsort means) with
    ⟨h1, h2⟩ | ⟨pre, i, post, x, h1, h2, h3, h4⟩
  · exact .inl ⟨h1, fun i hi => h2 i (hp.mem_iff.2 (List.mem_range.2 hi))⟩
  · refine .inr ⟨i, x, ?_, h2, h3, fun j hj hlt => ?_⟩
    · exact List.mem_range.1 (hp.mem_iff.1 (by rw [h1]; simp))
    · have hmem : j ∈ argsort means := hp.mem_iff.2 (List.mem_range.2 hj)
      rw [h1] at hmem hs
      rcases List.mem_append.1 hmem with h | h
      · exact h4 j h
      · rcases List.mem_cons.1 h with rfl | h
        · exact absurd hlt (lt_irrefl _)
        · have := (List.pairwise_append.1 hs).2.1
          rw [List.pairwise_cons] at this
          exact absurd (this.1 j h) (not_le.2 hlt)

/-- The solver of the package raises nothing but `LinAlgError`, as far as the model goes (right-hand
sides that are not zero). -/
noncomputable def packageDenoise (solve : Solve) (n : ℕ) : Denoise n := fun _ A b eta =>
  bpDenoise solve A b eta

/-- C86 with the solver of the package: for candidate levels that are all positive (the defaults
are), a matrix with `A Aᵀ` invertible and data that do not vanish on any training set, compressed
sensing returns a vector whose residual is smaller than one of the candidate levels; if `A Aᵀ` is
singular it raises `ValueError`. -/
theorem c86_compressed_sensing {N n : ℕ} (argsort : List (WithTop ℝ) → List ℕ)
    (ha : ArgsortTop argsort) (solve : Solve) (hsolve : SolveContract solve) (A : Mat N n) (y : Vec N)
    (hy : ∀ k < 5, takeVec y (trainRows (foldRows N k)) ≠ 0) (levels : Option (List ℝ))
    (hpos : ∀ eta ∈ noiseLevels levels, 0 < eta) (hne : noiseLevels levels ≠ []) :
    (IsUnit (A * Aᵀ).det → ∃ x, basisPursuit argsort (packageDenoise solve n) A y levels = .ok x ∧
      ∃ eta ∈ noiseLevels levels, √(sqRes A y x) < eta) ∧
    (¬IsUnit (A * Aᵀ).det →
      basisPursuit argsort (packageDenoise solve n) A y levels = .error .valueError) := by
  -- the model of the solver for a zero right-hand side or level plays no role
  set bp : Denoise n := fun m A b eta =>
    if b ≠ 0 ∧ 0 < eta then bpDenoise solve A b eta else .error .linAlgError with hbpdef
  have hbp : OnlyLinAlg bp := by
    intro m A b eta e h
    simp only [hbpdef] at h
    split_ifs at h with hc
    · by_cases hu : IsUnit (A * Aᵀ).det
      · obtain ⟨x, hx, _⟩ := (c85_noise_level solve hsolve A b hc.1 eta hc.2).1 hu
        rw [hx] at h; simp at h
      · rw [(c85_noise_level solve hsolve A b hc.1 eta hc.2).2 hu] at h
        exact (Except.error.inj h).symm
    · exact (Except.error.inj h).symm
  have hy0 : y ≠ 0 := by
    intro h0
    apply hy 0 (by norm_num)
    rw [h0]; rfl
  have hfold : ∀ eta, 0 < eta → ∀ k < 5, foldError (packageDenoise solve n) A y eta (foldRows N k) =
      foldError bp A y eta (foldRows N k) := by
    intro eta he k hk
    have hb : bp _ (takeRows A (trainRows (foldRows N k))) (takeVec y (trainRows (foldRows N k))) eta =
        packageDenoise solve n _ (takeRows A (trainRows (foldRows N k)))
          (takeVec y (trainRows (foldRows N k))) eta := by
      simp only [hbpdef, packageDenoise]
      rw [if_pos ⟨hy k hk, he⟩]
    unfold foldError
    rw [hb]
  have hlevel : ∀ eta, 0 < eta → ∀ (l : List ℕ), (∀ k ∈ l, k < 5) → ∀ acc,
      levelErrors (packageDenoise solve n) A y eta (l.map (foldRows N)) acc =
      levelErrors bp A y eta (l.map (foldRows N)) acc := by
    intro eta he l
    induction l with
    | nil => intro _ acc; rfl
    | cons k l ih =>
      intro hl acc
      simp only [List.map_cons, levelErrors]
      rw [hfold eta he k (hl k (by simp))]
      cases foldError bp A y eta (foldRows N k) with
      | error e => rfl
      | ok o =>
        cases o with
        | none => exact ih (fun k hk => hl k (by simp [hk])) acc
        | some v => exact ih (fun k hk => hl k (by simp [hk])) _
  have hmeans : ∀ (etas : List ℝ), (∀ e ∈ etas, 0 < e) → ∀ acc,
      meanErrors (packageDenoise solve n) A y etas acc = meanErrors bp A y etas acc := by
    intro etas
    induction etas with
    | nil => intro _ acc; rfl
    | cons e etas ih =>
      intro he acc
      unfold meanErrors
      rw [hlevel e (he e (by simp)) _ (by simp)]
      cases levelErrors bp A y e ((List.range 5).map (foldRows N)) acc with
      | error e => rfl
      | ok errors => simp only; rw [ih (fun e h => he e (by simp [h]))]
  have hbpN : ∀ i < (noiseLevels levels).length,
      bpDenoise solve A y ((noiseLevels levels).getD i 0) =
      bp N A y ((noiseLevels levels).getD i 0) := by
    intro i hi
    have hmem : (noiseLevels levels).getD i 0 ∈ noiseLevels levels := by
      rw [getD_lt _ _ _ hi]
      exact List.getElem_mem hi
    simp only [hbpdef]
    rw [if_pos ⟨hy0, hpos _ hmem⟩]
  have hfirst : ∀ l : List ℕ, (∀ i ∈ l, i < (noiseLevels levels).length) →
      firstSolvable (packageDenoise solve n) A y (noiseLevels levels) l =
      firstSolvable bp A y (noiseLevels levels) l := by
    intro l
    induction l with
    | nil => intro _; rfl
    | cons i l ih =>
      intro hl
      unfold firstSolvable
      rw [show packageDenoise solve n N A y ((noiseLevels levels).getD i 0) =
        bp N A y ((noiseLevels levels).getD i 0) from hbpN i (hl i (by simp)), ih fun j hj => hl j (by simp [hj])]
  have hsame : basisPursuit argsort (packageDenoise solve n) A y levels =
      basisPursuit argsort bp A y levels := by
    unfold basisPursuit
    rw [hmeans _ hpos]
    obtain ⟨means, hm, hl⟩ := meanErrors_ok bp hbp A y (noiseLevels levels)
    rw [hm]
    simp only
    apply hfirst
    intro i hi
    have := (ha means).1.mem_iff.1 hi
    rwa [hl, List.mem_range] at this
  rw [hsame]
  obtain ⟨means, _, h⟩ := c86_selection argsort ha bp hbp A y levels
  have hlen : 0 < (noiseLevels levels).length := List.length_pos_iff.2 hne
  have hgetpos : ∀ i < (noiseLevels levels).length,
      (noiseLevels levels).getD i 0 ∈ noiseLevels levels := by
    intro i hi
    rw [getD_lt _ _ _ hi]
    exact List.getElem_mem hi
  constructor
  · intro hu
    rcases h with ⟨_, h2⟩ | ⟨i, x, hi, h1, h2, _⟩
    · have := h2 0 hlen
      obtain ⟨x, hx, _⟩ := (c85_noise_level solve hsolve A y hy0 _ (hpos _ (hgetpos 0 hlen))).1 hu
      rw [← hbpN 0 hlen, hx] at this
      simp at this
    · obtain ⟨x', hx', hlt⟩ := (c85_noise_level solve hsolve A y hy0 _ (hpos _ (hgetpos i hi))).1 hu
      rw [← hbpN i hi, hx'] at h2
      rw [Except.ok.inj h2] at hlt
      exact ⟨x, h1, _, hgetpos i hi, hlt⟩
  · intro hu
    rcases h with ⟨h1, _⟩ | ⟨i, x, hi, h1, h2, _⟩
    · exact h1
    · rw [← hbpN i hi, (c85_noise_level solve hsolve A y hy0 _ (hpos _ (hgetpos i hi))).2 hu] at h2
      simp at h2

/-- The default levels are positive and not empty. -/
example : noiseLevels none ≠ [] ∧ ∀ eta ∈ noiseLevels none, 0 < eta := by
  constructor
  · simp [noiseLevels]
  · intro eta h
    simp only [noiseLevels, List.mem_map] at h
    obtain ⟨i, _, rfl⟩ := h
    positivity

/-- Two rows with non-zero data meet the hypothesis on the training sets. -/
example : ∀ k < 5, takeVec (![1, 2] : Vec 2) (trainRows (foldRows 2 k)) ≠ 0 := by
  have hlen : ∀ k < 5, 0 < (trainRows (foldRows 2 k)).length := by decide
  intro k hk h
  have := congrFun h ⟨0, hlen k hk⟩
  simp only [takeVec, Pi.zero_apply] at this
  have hne : ∀ i : Fin 2, (![1, 2] : Vec 2) i ≠ 0 := by intro i; fin_cases i <;> simp
  exact hne _ this

/-- The contract of `argsort` can be met: insertion sort of the positions. -/
example : ∃ argsort, ArgsortTop argsort := by
  refine ⟨fun l => (List.range l.length).mergeSort fun i j => decide (l.getD i ⊤ ≤ l.getD j ⊤),
    fun l => ⟨List.mergeSort_perm _ _, ?_⟩⟩
  have := List.pairwise_mergeSort (le := fun i j => decide (l.getD i ⊤ ≤ l.getD j ⊤))
    (fun a b c h1 h2 => by simp only [decide_eq_true_eq] at *; exact h1.trans h2)
    (fun a b => by simp only [Bool.or_eq_true, decide_eq_true_eq]; exact le_total _ _)
    (List.range l.length)
  simpa using this

end EQ.Solver
