import Verif.Sub.ZonoProps
import Mathlib.LinearAlgebra.Matrix.NonsingularInverse
import Mathlib.Topology.Order.Compact

/-!
# C67: samples with prescribed active coordinates
-/

namespace EQ.Sub
open EQ.Basis Matrix

variable {n r : ℕ}

/-! ## Specification -/

/-- The reduced coordinates `W1ᵀ x`. -/
def active (W : Matrix (Fin (n + r)) (Fin (n + r)) ℝ) (x : Fin (n + r) → ℝ) : Fin n → ℝ :=
  fun k => ∑ i, W i (Fin.castAdd r k) * x i

/-- Satisfying the constraints of a linear program. -/
def LP.Feasible {k r : ℕ} (p : LP k r) (x : Fin r → ℝ) : Prop := ∀ i, ∑ j, p.Aub i j * x j ≤ p.bub i

/-- A solution of a linear program. -/
def LP.Optimal {k r : ℕ} (p : LP k r) (x : Fin r → ℝ) : Prop :=
  p.Feasible x ∧ ∀ x', p.Feasible x' → ∑ j, p.c j * x j ≤ ∑ j, p.c j * x' j

/-- What `scipy.optimize.linprog` promises: what it returns is a solution, and it returns one if there is one. -/
def LinprogOK (linprog : ∀ {k r : ℕ}, LP k r → Option (Fin r → ℝ)) : Prop :=
  ∀ (k r : ℕ) (p : LP k r), (∀ x, linprog p = some x → p.Optimal x) ∧ ((∃ x, p.Optimal x) → ∃ x, linprog p = some x)

open Classical in
/-- A function that meets the contract. -/
noncomputable def linprogDemo {k r : ℕ} (p : LP k r) : Option (Fin r → ℝ) :=
  if h : ∃ x, p.Optimal x then some h.choose else none

lemma linprogDemo_ok : LinprogOK @linprogDemo := by
  intro k r p
  unfold linprogDemo
  constructor
  · intro x hx
    split at hx
    · rename_i h
      rw [← Option.some.inj hx]; exact h.choose_spec
    · cases hx
  · intro h
    rw [dif_pos h]; exact ⟨_, rfl⟩

/-! ## Active coordinates -/

lemma active_lift {W : Matrix (Fin (n + r)) (Fin (n + r)) ℝ} (hW : Wᵀ * W = 1) (y : Fin n → ℝ) (z : Fin r → ℝ) :
    active W (liftPoint W y z) = y := by
  funext k
  have h : (Wᵀ *ᵥ (W *ᵥ Fin.addCases y z)) (Fin.castAdd r k) = y k := by
    rw [Matrix.mulVec_mulVec, hW, Matrix.one_mulVec, Fin.addCases_left]
  rw [← h]; rfl

lemma lift_apply (W : Matrix (Fin (n + r)) (Fin (n + r)) ℝ) (y : Fin n → ℝ) (z : Fin r → ℝ) (i : Fin (n + r)) :
    liftPoint W y z i = shift W y i + ∑ k, W2 W i k * z k := by
  simp only [liftPoint, Matrix.mulVec, dotProduct, Fin.sum_univ_add, Fin.addCases_left, Fin.addCases_right]
  rfl

lemma hitLoop_length {k : ℕ} {A : Fin k → Fin r → ℝ} {b : Fin k → ℝ} {draw : ℕ → ℕ → Fin r → ℝ} {u : ℕ → ℝ} (left : ℕ) :
    ∀ (i : ℕ) (z0 : Fin r → ℝ) (Z : List (Fin r → ℝ)), hitLoop A b draw u left i z0 = .ok Z → Z.length = left := by
  induction left with
  | zero => intro i z0 Z h; cases h; rfl
  | succ l ih =>
    intro i z0 Z h
    unfold hitLoop at h
    split at h
    · cases h; simp
    · split at h
      · cases h
      · split at h
        · cases h
        · rename_i hZ
          cases h
          simp [ih _ _ _ hZ]

/-- **C67 (partial).** For every number of samples, every random stream and whatever the linear program returns: the
routine returns as many samples as asked for, and every one projects to the requested active coordinates. -/
theorem c67_active_partial (linprog : ∀ {k r : ℕ}, LP k r → Option (Fin r → ℝ))
    (W : Matrix (Fin (n + r)) (Fin (n + r)) ℝ) (hW : Wᵀ * W = 1) (N : ℕ) (y : Fin n → ℝ) (draw : ℕ → ℕ → Fin r → ℝ)
    (u : ℕ → ℝ) (Xs : List (Fin (n + r) → ℝ)) (h : hitAndRun linprog W N y draw u = .ok Xs) :
    Xs.length = N ∧ ∀ x ∈ Xs, active W x = y := by
  unfold hitAndRun at h
  split at h
  · cases h
  · split at h
    · cases h
    · rename_i hZ
      cases h
      refine ⟨by rw [List.length_map, hitLoop_length _ _ _ _ hZ], fun x hx => ?_⟩
      obtain ⟨z, -, rfl⟩ := List.mem_map.1 hx
      exact active_lift hW y z

/-! ## The starting point -/

/-- The linear program solved for the starting point. -/
noncomputable def startLP (W : Matrix (Fin (n + r)) (Fin (n + r)) ℝ) (y : Fin n → ℝ) : LP ((n + r) + (n + r)) (r + 1) where
  c := Fin.lastCases (-1) fun _ => 0
  Aub := Fin.addCases (fun i => Fin.lastCases (√(∑ k, W2 W i k ^ 2)) (W2 W i))
    (fun i => Fin.lastCases (√(∑ k, W2 W i k ^ 2)) fun k => -W2 W i k)
  bub := Fin.addCases (fun i => 1 - shift W y i) (fun i => 1 + shift W y i)

lemma startPoint_eq (linprog : ∀ {k r : ℕ}, LP k r → Option (Fin r → ℝ))
    (W : Matrix (Fin (n + r)) (Fin (n + r)) ℝ) (y : Fin n → ℝ) :
    startPoint linprog W y = match linprog (startLP W y) with
      | some zc => .ok fun k => zc k.castSucc
      | none => .error .exception := by
  unfold startPoint linearProgramIneq startLP
  simp only [neg_neg]
  cases linprog (k := (n + r) + (n + r)) (r := r + 1) _ <;> rfl

lemma startLP_feasible (W : Matrix (Fin (n + r)) (Fin (n + r)) ℝ) (y : Fin n → ℝ) (v : Fin (r + 1) → ℝ) :
    (startLP W y).Feasible v ↔ ∀ i, |liftPoint W y (fun k => v k.castSucc) i| ≤
      1 - √(∑ k, W2 W i k ^ 2) * v (Fin.last r) := by
  have key : ∀ i, |liftPoint W y (fun k => v k.castSucc) i| ≤ 1 - √(∑ k, W2 W i k ^ 2) * v (Fin.last r) ↔
      (∑ j, (startLP W y).Aub (Fin.castAdd _ i) j * v j ≤ (startLP W y).bub (Fin.castAdd _ i)) ∧
      (∑ j, (startLP W y).Aub (Fin.natAdd _ i) j * v j ≤ (startLP W y).bub (Fin.natAdd _ i)) := by
    intro i
    rw [abs_le, lift_apply]
    simp only [startLP, Fin.addCases_left, Fin.addCases_right, Fin.sum_univ_castSucc, Fin.lastCases_castSucc,
      Fin.lastCases_last, neg_mul, Finset.sum_neg_distrib]
    constructor
    · rintro ⟨h1, h2⟩; constructor <;> linarith
    · rintro ⟨h1, h2⟩; constructor <;> linarith
  constructor
  · intro h i
    exact (key i).2 ⟨h _, h _⟩
  · intro h i
    refine Fin.addCases (fun i => ?_) (fun i => ?_) i
    · exact ((key i).1 (h i)).1
    · exact ((key i).1 (h i)).2

lemma W2_gram {W : Matrix (Fin (n + r)) (Fin (n + r)) ℝ} (hW : Wᵀ * W = 1) : (W2 W)ᵀ * W2 W = 1 := by
  ext a b
  have h : (Wᵀ * W) (Fin.natAdd n a) (Fin.natAdd n b) = (1 : Matrix _ _ ℝ) (Fin.natAdd n a) (Fin.natAdd n b) := by rw [hW]
  rw [Matrix.mul_apply] at h ⊢
  rw [show ∑ j, (W2 W)ᵀ a j * W2 W j b = ∑ j, Wᵀ (Fin.natAdd n a) j * W j (Fin.natAdd n b) from rfl, h]
  simp [Matrix.one_apply]

/-- The point of the box itself, in inactive coordinates. -/
lemma lift_of_active {W : Matrix (Fin (n + r)) (Fin (n + r)) ℝ} (hW : Wᵀ * W = 1) (x : Fin (n + r) → ℝ) :
    liftPoint W (active W x) (fun k => ∑ i, W2 W i k * x i) = x := by
  have h1 : (Fin.addCases (active W x) (fun k => ∑ i, W2 W i k * x i) : Fin (n + r) → ℝ) = Wᵀ *ᵥ x := by
    funext j
    refine Fin.addCases (fun k => ?_) (fun k => ?_) j
    · rw [Fin.addCases_left]; rfl
    · rw [Fin.addCases_right]; rfl
  rw [liftPoint, h1, Matrix.mulVec_mulVec, mul_eq_one_comm.1 hW, Matrix.one_mulVec]

lemma startLP_optimal (hr : 0 < r) {W : Matrix (Fin (n + r)) (Fin (n + r)) ℝ} (hW : Wᵀ * W = 1)
    (x : Fin (n + r) → ℝ) (hx : x ∈ Box (n + r)) : ∃ v, (startLP W (active W x)).Optimal v := by
  set y := active W x with hy
  set p := startLP W y with hp
  -- a feasible point with radius zero
  set v0 : Fin (r + 1) → ℝ := Fin.lastCases 0 fun k => ∑ i, W2 W i k * x i with hv0
  have hv0l : v0 (Fin.last r) = 0 := by simp only [hv0, Fin.lastCases_last]
  have hv0f : p.Feasible v0 := by
    rw [hp, startLP_feasible]
    intro i
    have : (fun k : Fin r => v0 k.castSucc) = fun k => ∑ i, W2 W i k * x i := by
      funext k; simp only [hv0, Fin.lastCases_castSucc]
    rw [this, hy, lift_of_active hW, hv0l, mul_zero, sub_zero]
    exact abs_le.2 (hx i)
  have hgram := W2_gram hW
  -- a row of `W2` that is not zero
  obtain ⟨i0, hi0⟩ : ∃ i0, 0 < √(∑ k, W2 W i0 k ^ 2) := by
    by_contra hc
    push Not at hc
    have h1 := congrFun (congrFun hgram ⟨0, hr⟩) ⟨0, hr⟩
    rw [Matrix.mul_apply, Matrix.one_apply_eq] at h1
    have h2 : ∀ i, W2 W i ⟨0, hr⟩ = 0 := by
      intro i
      have h3 := Real.sqrt_eq_zero'.1 (le_antisymm (hc i) (Real.sqrt_nonneg _))
      have h4 : W2 W i ⟨0, hr⟩ ^ 2 ≤ 0 := (Finset.single_le_sum (f := fun k => W2 W i k ^ 2) (fun k _ => sq_nonneg _)
        (Finset.mem_univ (⟨0, hr⟩ : Fin r))).trans h3
      exact pow_eq_zero_iff (two_ne_zero) |>.1 (le_antisymm h4 (sq_nonneg _))
    simp [h2, Matrix.transpose_apply] at h1
  set B : ℝ := 1 / √(∑ k, W2 W i0 k ^ 2) + ∑ k, ∑ i, |W2 W i k| * (1 + |shift W y i|) with hB
  set K : Set (Fin (r + 1) → ℝ) := {v | p.Feasible v ∧ 0 ≤ v (Fin.last r)} with hK
  have hterm : ∀ k, 0 ≤ ∑ i, |W2 W i k| * (1 + |shift W y i|) := fun k =>
    Finset.sum_nonneg fun i _ => mul_nonneg (abs_nonneg _) (by positivity)
  have hKsub : K ⊆ Set.Icc (fun _ => -B) (fun _ => B) := by
    rintro v ⟨hf, hnn⟩
    rw [hp, startLP_feasible] at hf
    have habs : ∀ j, |v j| ≤ B := by
      intro j
      refine Fin.lastCases ?_ (fun k => ?_) j
      · rw [abs_of_nonneg hnn]
        have h1 := (abs_nonneg _).trans (hf i0)
        have h2 : v (Fin.last r) ≤ 1 / √(∑ k, W2 W i0 k ^ 2) := by
          rw [le_div_iff₀ hi0]; linarith
        have h3 : 0 ≤ ∑ k, ∑ i, |W2 W i k| * (1 + |shift W y i|) := Finset.sum_nonneg fun k _ => hterm k
        linarith
      · -- z = W2ᵀ W2 z
        have h1 : v k.castSucc = ∑ i, W2 W i k * ∑ l, W2 W i l * v l.castSucc := by
          have := congrFun (congrArg (fun M => M *ᵥ fun l : Fin r => v l.castSucc) hgram) k
          simp only [Matrix.one_mulVec] at this
          rw [← this, ← Matrix.mulVec_mulVec]
          rfl
        have h2 : |v k.castSucc| ≤ ∑ i, |W2 W i k| * (1 + |shift W y i|) := by
          rw [h1]
          refine (Finset.abs_sum_le_sum_abs _ _).trans (Finset.sum_le_sum fun i _ => ?_)
          rw [abs_mul]
          refine mul_le_mul_of_nonneg_left ?_ (abs_nonneg _)
          have h3 := hf i
          rw [lift_apply] at h3
          have h4 : 0 ≤ √(∑ k, W2 W i k ^ 2) * v (Fin.last r) := mul_nonneg (Real.sqrt_nonneg _) hnn
          have h5 : ∑ l, W2 W i l * v l.castSucc = (shift W y i + ∑ l, W2 W i l * v l.castSucc) - shift W y i := by ring
          rw [h5]
          refine (abs_sub _ _).trans ?_
          linarith
        have h6 := Finset.single_le_sum (f := fun k => ∑ i, |W2 W i k| * (1 + |shift W y i|)) (fun k _ => hterm k)
          (Finset.mem_univ k)
        have h7 : 0 < 1 / √(∑ k, W2 W i0 k ^ 2) := by positivity
        linarith
    exact ⟨fun j => (abs_le.1 (habs j)).1, fun j => (abs_le.1 (habs j)).2⟩
  have hclosed : IsClosed K := by
    have : K = (⋂ i, {v | ∑ j, p.Aub i j * v j ≤ p.bub i}) ∩ {v | 0 ≤ v (Fin.last r)} := by
      ext v; simp [hK, LP.Feasible]
    rw [this]
    exact (isClosed_iInter fun i => isClosed_le (by fun_prop) continuous_const).inter
      (isClosed_le continuous_const (continuous_apply _))
  have hcomp : IsCompact K := isCompact_Icc.of_isClosed_subset hclosed hKsub
  obtain ⟨v, hvK, hmax⟩ := hcomp.exists_isMaxOn ⟨v0, hv0f, hv0l.ge⟩ (continuous_apply (Fin.last r)).continuousOn
  have hobj : ∀ w : Fin (r + 1) → ℝ, ∑ j, p.c j * w j = -w (Fin.last r) := by
    intro w
    simp [hp, startLP, Fin.sum_univ_castSucc]
  refine ⟨v, hvK.1, fun w hw => ?_⟩
  rw [hobj, hobj, neg_le_neg_iff]
  by_cases h : 0 ≤ w (Fin.last r)
  · exact hmax ⟨hw, h⟩
  · have := hvK.2
    linarith

/-- **C67 (partial).** The walk starts inside: if the requested active coordinates are those of some point of the box, the
linear program has a solution and the starting point it yields is in the box and has the requested active
coordinates. -/
theorem c67_start_partial (linprog : ∀ {k r : ℕ}, LP k r → Option (Fin r → ℝ)) (hLP : LinprogOK linprog) (hr : 0 < r)
    (W : Matrix (Fin (n + r)) (Fin (n + r)) ℝ) (hW : Wᵀ * W = 1) (x : Fin (n + r) → ℝ) (hx : x ∈ Box (n + r)) :
    ∃ z0, startPoint linprog W (active W x) = .ok z0 ∧ liftPoint W (active W x) z0 ∈ Box (n + r) ∧
      active W (liftPoint W (active W x) z0) = active W x := by
  obtain ⟨v, hv⟩ := (hLP _ _ (startLP W (active W x))).2 (startLP_optimal hr hW x hx)
  have hopt := (hLP _ _ _).1 v hv
  refine ⟨fun k => v k.castSucc, by rw [startPoint_eq]; simp only at hv; rw [hv], ?_, active_lift hW _ _⟩
  have hf := (startLP_feasible W (active W x) v).1 hopt.1
  have hnn : 0 ≤ v (Fin.last r) := by
    set v0 : Fin (r + 1) → ℝ := Fin.lastCases 0 fun k => ∑ i, W2 W i k * x i with hv0
    have hv0l : v0 (Fin.last r) = 0 := by simp only [hv0, Fin.lastCases_last]
    have hv0f : (startLP W (active W x)).Feasible v0 := by
      rw [startLP_feasible]
      intro i
      have : (fun k : Fin r => v0 k.castSucc) = fun k => ∑ i, W2 W i k * x i := by
        funext k; simp only [hv0, Fin.lastCases_castSucc]
      rw [this, lift_of_active hW, hv0l, mul_zero, sub_zero]
      exact abs_le.2 (hx i)
    have h1 := hopt.2 v0 hv0f
    simp only [startLP, Fin.sum_univ_castSucc, Fin.lastCases_castSucc, Fin.lastCases_last, zero_mul, Finset.sum_const_zero,
      hv0l, zero_add, mul_zero] at h1
    linarith
  intro i
  have h1 := hf i
  have h2 : 0 ≤ √(∑ k, W2 W i k ^ 2) * v (Fin.last r) := mul_nonneg (Real.sqrt_nonneg _) hnn
  exact abs_le.1 (h1.trans (by linarith))

/-! ## Steps -/

lemma amin_spec {α : Type} [LinearOrder α] : ∀ {l : List α} {v : α}, amin l = .ok v → v ∈ l ∧ ∀ a ∈ l, v ≤ a := by
  have key : ∀ (l : List α) (a : α), l.foldl min a ∈ a :: l ∧ ∀ b ∈ a :: l, l.foldl min a ≤ b := by
    intro l
    induction l with
    | nil => intro a; simp
    | cons c l ih =>
      intro a
      obtain ⟨h1, h2⟩ := ih (min a c)
      rw [List.foldl_cons]
      constructor
      · rcases List.mem_cons.1 h1 with h | h
        · rw [h]; rcases min_choice a c with h' | h' <;> simp [h']
        · simp [h]
      · intro b hb
        rcases List.mem_cons.1 hb with rfl | hb
        · exact (h2 _ List.mem_cons_self).trans (min_le_left _ _)
        · rcases List.mem_cons.1 hb with rfl | hb
          · exact (h2 _ List.mem_cons_self).trans (min_le_right _ _)
          · exact h2 b (List.mem_cons_of_mem _ hb)
  intro l v h
  rcases l with _ | ⟨a, l⟩
  · cases h
  · cases h; exact key l a

lemma amax_spec {α : Type} [LinearOrder α] : ∀ {l : List α} {v : α}, amax l = .ok v → v ∈ l ∧ ∀ a ∈ l, a ≤ v := by
  have key : ∀ (l : List α) (a : α), l.foldl max a ∈ a :: l ∧ ∀ b ∈ a :: l, b ≤ l.foldl max a := by
    intro l
    induction l with
    | nil => intro a; simp
    | cons c l ih =>
      intro a
      obtain ⟨h1, h2⟩ := ih (max a c)
      rw [List.foldl_cons]
      constructor
      · rcases List.mem_cons.1 h1 with h | h
        · rw [h]; rcases max_choice a c with h' | h' <;> simp [h']
        · simp [h]
      · intro b hb
        rcases List.mem_cons.1 hb with rfl | hb
        · exact (le_max_left _ _).trans (h2 _ List.mem_cons_self)
        · rcases List.mem_cons.1 hb with rfl | hb
          · exact (le_max_right _ _).trans (h2 _ List.mem_cons_self)
          · exact h2 b (List.mem_cons_of_mem _ hb)
  intro l v h
  rcases l with _ | ⟨a, l⟩
  · cases h
  · cases h; exact key l a

/-- A step from a point whose constraints all have slack above the tolerance keeps all constraints. -/
lemma hitStep_inside {k : ℕ} {A : Fin k → Fin r → ℝ} {b : Fin k → ℝ} {z0 d z1 : Fin r → ℝ} {u : ℝ}
    (hu : 0 ≤ u ∧ u ≤ 1) (hs : ∀ i, b i - dotA A z0 i < -(1/2^26)) (h : hitStep A b z0 d u = .ok z1) (i : Fin k) :
    b i ≤ dotA A z1 i := by
  unfold hitStep at h
  simp only at h
  split at h
  · cases h
  rename_i hi hhi
  split at h
  · cases h
  rename_i lo hlo
  split at h
  · cases h
  rename_i eps heps
  cases h
  obtain ⟨hmem, hle⟩ := amin_spec hhi
  obtain ⟨lmem, lle⟩ := amax_spec hlo
  unfold uniform at heps
  by_cases hc : hi = ⊥ ∨ hi = ⊤
  · rw [if_pos hc] at heps; cases heps
  rw [if_neg hc] at heps
  push Not at hc
  have hreal : ((hi.toReal : ℝ) : EReal) = hi := EReal.coe_toReal hc.2 hc.1
  -- no constraint is parallel to the direction
  have hup : ∀ j, dotA A d j ≤ 0 → dotA A d j < 0 ∧ hi.toReal ≤ (b j - dotA A z0 j) / dotA A d j := by
    intro j hj
    have hin : (if dotA A d j = 0 then (⊥ : EReal) else (((b j - dotA A z0 j) / dotA A d j : ℝ) : EReal)) ∈
        upperLimits (fun i => b i - dotA A z0 i) fun i => dotA A d i := by
      unfold upperLimits
      rw [List.mem_filterMap]
      exact ⟨j, List.mem_finRange j, by rw [if_pos ⟨hj, hs j⟩]⟩
    have h1 := hle _ hin
    by_cases h0 : dotA A d j = 0
    · rw [if_pos h0] at h1; exact absurd (le_bot_iff.1 h1) hc.1
    · rw [if_neg h0, ← hreal, EReal.coe_le_coe_iff] at h1
      exact ⟨lt_of_le_of_ne hj h0, h1⟩
  have hlow : ∀ j, 0 < dotA A d j → (b j - dotA A z0 j) / dotA A d j ≤ lo := by
    intro j hj
    apply lle
    unfold lowerLimits
    rw [List.mem_filterMap]
    exact ⟨j, List.mem_finRange j, by rw [if_pos ⟨hj, hs j⟩]⟩
  have hlo0 : lo < 0 := by
    unfold lowerLimits at lmem
    rw [List.mem_filterMap] at lmem
    obtain ⟨j, -, hj⟩ := lmem
    by_cases hc : dotA A d j > 0 ∧ b j - dotA A z0 j < -(1/2^26)
    · rw [if_pos hc] at hj
      rw [← Option.some.inj hj]
      exact div_neg_of_neg_of_pos (hc.2.trans (by norm_num)) hc.1
    · rw [if_neg hc] at hj; cases hj
  have hhi0 : 0 < hi.toReal := by
    unfold upperLimits at hmem
    rw [List.mem_filterMap] at hmem
    obtain ⟨j, -, hj⟩ := hmem
    by_cases hcj : dotA A d j ≤ 0 ∧ b j - dotA A z0 j < -(1/2^26)
    · rw [if_pos hcj] at hj
      have hne := (hup j hcj.1).1
      rw [if_neg hne.ne] at hj
      rw [← Option.some.inj hj, EReal.toReal_coe]
      exact div_pos_of_neg_of_neg (hcj.2.trans (by norm_num)) hne
    · rw [if_neg hcj] at hj; cases hj
  have he : eps = lo + u * (hi.toReal - lo) := by cases heps; rfl
  have he1 : lo ≤ eps := by rw [he]; nlinarith [hu.1]
  have he2 : eps ≤ hi.toReal := by rw [he]; nlinarith [hu.2]
  have hlin : dotA A (fun j => z0 j + eps * d j) i = dotA A z0 i + eps * dotA A d i := by
    simp only [dotA, mul_add, Finset.sum_add_distrib, Finset.mul_sum]
    congr 1
    exact Finset.sum_congr rfl fun j _ => by ring
  rw [hlin]
  rcases lt_or_ge 0 (dotA A d i) with hg | hg
  · have h1 := (hlow i hg).trans he1
    rw [div_le_iff₀ hg] at h1
    linarith
  · obtain ⟨hneg, h1⟩ := hup i hg
    have h2 := he2.trans h1
    rw [le_div_iff_of_neg hneg] at h2
    linarith

/-- All constraints hold strictly with a margin. -/
def Interior {m : ℕ} (x : Fin m → ℝ) : Prop := ∀ i, |x i| < 1 - 1/2^26

lemma slack_left (W : Matrix (Fin (n + r)) (Fin (n + r)) ℝ) (y : Fin n → ℝ) (z : Fin r → ℝ) (i : Fin (n + r)) :
    polyB W y (Fin.castAdd _ i) - dotA (polyA W) z (Fin.castAdd _ i) = -1 - liftPoint W y z i := by
  simp only [polyB, polyA, dotA, Fin.addCases_left, lift_apply]
  ring

lemma slack_right (W : Matrix (Fin (n + r)) (Fin (n + r)) ℝ) (y : Fin n → ℝ) (z : Fin r → ℝ) (i : Fin (n + r)) :
    polyB W y (Fin.natAdd _ i) - dotA (polyA W) z (Fin.natAdd _ i) = -1 + liftPoint W y z i := by
  simp only [polyB, polyA, dotA, Fin.addCases_right, lift_apply, neg_mul, Finset.sum_neg_distrib]
  ring

lemma slack_interior {W : Matrix (Fin (n + r)) (Fin (n + r)) ℝ} {y : Fin n → ℝ} {z : Fin r → ℝ}
    (h : Interior (liftPoint W y z)) (i) : polyB W y i - dotA (polyA W) z i < -(1/2^26) := by
  refine Fin.addCases (fun i => ?_) (fun i => ?_) i
  · rw [slack_left]; have := abs_lt.1 (h i); linarith
  · rw [slack_right]; have := abs_lt.1 (h i); linarith

lemma box_of_slack {W : Matrix (Fin (n + r)) (Fin (n + r)) ℝ} {y : Fin n → ℝ} {z : Fin r → ℝ}
    (h : ∀ i, polyB W y i ≤ dotA (polyA W) z i) : liftPoint W y z ∈ Box (n + r) := by
  intro i
  have h1 := slack_left W y z i
  have h2 := slack_right W y z i
  have h3 := h (Fin.castAdd _ i)
  have h4 := h (Fin.natAdd _ i)
  constructor <;> linarith

lemma interior_box {m : ℕ} {x : Fin m → ℝ} (h : Interior x) : x ∈ Box m := by
  intro i
  have := abs_lt.1 (h i)
  constructor <;> linarith

lemma hitLoop_inside {W : Matrix (Fin (n + r)) (Fin (n + r)) ℝ} {y : Fin n → ℝ} {draw : ℕ → ℕ → Fin r → ℝ} {u : ℕ → ℝ}
    (hu : ∀ i, 0 ≤ u i ∧ u i ≤ 1) (left : ℕ) :
    ∀ (i : ℕ) (z0 : Fin r → ℝ) (Z : List (Fin r → ℝ)), hitLoop (polyA W) (polyB W y) draw u left i z0 = .ok Z →
      ∀ (k : ℕ) (hk : k < Z.length), Interior (liftPoint W y ((z0 :: Z)[k]'(by rw [List.length_cons]; omega))) →
        liftPoint W y Z[k] ∈ Box (n + r) := by
  induction left with
  | zero => intro i z0 Z h k hk; cases h; simp at hk
  | succ l ih =>
    intro i z0 Z h k hk hint
    unfold hitLoop at h
    split at h
    · cases h
      rw [List.getElem_replicate]
      have : (z0 :: List.replicate (l + 1) z0)[k]'(by rw [List.length_cons]; omega) = z0 := by
        rcases k with _ | k
        · rfl
        · rw [List.getElem_cons_succ, List.getElem_replicate]
      rw [this] at hint
      exact interior_box hint
    · rename_i d hd
      split at h
      · cases h
      · rename_i z1 hz1
        split at h
        · cases h
        · rename_i Z' hZ'
          cases h
          rcases k with _ | k
          · rw [List.getElem_cons_zero] at hint ⊢
            exact box_of_slack fun i => hitStep_inside (hu _) (slack_interior hint) hz1 i
          · rw [List.getElem_cons_succ] at hint ⊢
            exact ih _ _ _ hZ' k (by simpa using hk) hint

/-- **C67 (partial).** Staying in the box: for every random stream, a sample lies in the box if the point before it (the
starting point, for the first sample) has every coordinate more than `2⁻²⁶` away from the faces. Without that the claim
is false: see `c67_box_violated`. -/
theorem c67_box_partial (linprog : ∀ {k r : ℕ}, LP k r → Option (Fin r → ℝ))
    (W : Matrix (Fin (n + r)) (Fin (n + r)) ℝ) (N : ℕ) (y : Fin n → ℝ) (draw : ℕ → ℕ → Fin r → ℝ)
    (u : ℕ → ℝ) (hu : ∀ i, 0 ≤ u i ∧ u i ≤ 1) (z0 : Fin r → ℝ) (hz : startPoint linprog W y = .ok z0)
    (Xs : List (Fin (n + r) → ℝ)) (h : hitAndRun linprog W N y draw u = .ok Xs) (k : ℕ) (hk : k < Xs.length)
    (hint : Interior ((liftPoint W y z0 :: Xs)[k]'(by rw [List.length_cons]; omega))) : Xs[k] ∈ Box (n + r) := by
  unfold hitAndRun at h
  rw [hz] at h
  simp only at h
  split at h
  · cases h
  · rename_i Z hZ
    cases h
    rw [List.length_map] at hk
    rw [List.getElem_map]
    refine hitLoop_inside hu N 0 z0 Z hZ k hk ?_
    rcases k with _ | k
    · exact hint
    · simpa using hint

/-- **C67, the routine fails when a coordinate is determined by the active coordinates.** If row `i` of the inactive block is
zero (the subspace contains a coordinate axis), the active coordinates leave that coordinate away from the faces, and a
direction is found, then every request for samples ends in an exception. -/
theorem c67_axis_violated (linprog : ∀ {k r : ℕ}, LP k r → Option (Fin r → ℝ))
    (W : Matrix (Fin (n + r)) (Fin (n + r)) ℝ) (N : ℕ) (hN : 0 < N) (y : Fin n → ℝ) (draw : ℕ → ℕ → Fin r → ℝ)
    (u : ℕ → ℝ) (i : Fin (n + r)) (hi : ∀ k, W2 W i k = 0) (hs : |shift W y i| < 1 - 1/2^26)
    (z0 : Fin r → ℝ) (hz : startPoint linprog W y = .ok z0) (d : Fin r → ℝ)
    (hd : findDirection (polyA W) (polyB W y) z0 (draw 0) = some d) :
    hitAndRun linprog W N y draw u = .error .overflowError ∨ hitAndRun linprog W N y draw u = .error .valueError := by
  obtain ⟨N, rfl⟩ : ∃ k, N = k + 1 := ⟨N - 1, by omega⟩
  have hstep : hitStep (polyA W) (polyB W y) z0 d (u 0) = .error .overflowError ∨
      hitStep (polyA W) (polyB W y) z0 d (u 0) = .error .valueError := by
    unfold hitStep
    simp only
    rcases hhi : amin (upperLimits (fun i => polyB W y i - dotA (polyA W) z0 i) fun i => dotA (polyA W) d i) with e | v
    · right
      unfold amin at hhi
      split at hhi
      · cases hhi; rfl
      · cases hhi
    · simp only
      have hv : v = ⊥ := by
        apply le_bot_iff.1
        apply (amin_spec hhi).2
        unfold upperLimits
        rw [List.mem_filterMap]
        have h0 : dotA (polyA W) d (Fin.castAdd _ i) = 0 := by
          simp [dotA, polyA, hi]
        have h1 : polyB W y (Fin.castAdd _ i) - dotA (polyA W) z0 (Fin.castAdd _ i) < -(1/2^26) := by
          rw [slack_left, lift_apply]
          simp only [hi, zero_mul, Finset.sum_const_zero, add_zero]
          have := abs_lt.1 hs
          linarith
        exact ⟨Fin.castAdd _ i, List.mem_finRange _, by rw [if_pos ⟨h0.le, h1⟩, if_pos h0]⟩
      rcases hlo : amax (lowerLimits (fun i => polyB W y i - dotA (polyA W) z0 i) fun i => dotA (polyA W) d i) with e | lo
      · right
        unfold amax at hlo
        split at hlo
        · cases hlo; rfl
        · cases hlo
      · left
        simp only [uniform, hv, true_or, if_true]
  unfold hitAndRun
  rw [hz]
  simp only
  unfold hitLoop
  rw [hd]
  simp only
  rcases hstep with h | h <;> rw [h] <;> simp

end EQ.Sub
