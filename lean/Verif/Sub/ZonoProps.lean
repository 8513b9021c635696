import Verif.Sub.Model
import Mathlib.Combinatorics.SetFamily.Shatter
import Mathlib.Analysis.LocallyConvex.Separation
import Mathlib.Analysis.Convex.Topology
import Mathlib.LinearAlgebra.Dimension.Finite
import Mathlib.LinearAlgebra.Dimension.Constructions
import Mathlib.Topology.Algebra.Order.LiminfLimsup

/-!
# C65, C66, C95: zonotopes

The specification is the image of the box `[-1,1]^m` under the projection.
-/

namespace EQ.Sub
open EQ.Basis Matrix

/-! ## Specification -/

/-- The box `[-1,1]^m`. -/
def Box (m : ℕ) : Set (Fin m → ℝ) := {x | ∀ i, -1 ≤ x i ∧ x i ≤ 1}

/-- The reduced coordinates of a point. -/
def proj {m n : ℕ} (W : Matrix (Fin m) (Fin n) ℝ) (x : Fin m → ℝ) : Fin n → ℝ := fun k => ∑ i, x i * W i k

/-- The zonotope: all reduced coordinates of points of the box. -/
def Zono {m n : ℕ} (W : Matrix (Fin m) (Fin n) ℝ) : Set (Fin n → ℝ) := proj W '' Box m

/-- The zonotope for one active direction. -/
def Zono1 {m : ℕ} (W : Fin m → ℝ) : Set ℝ := (fun x => ∑ i, x i * W i) '' Box m

/-- A direction that is orthogonal to no row of the matrix. -/
def Generic {m n : ℕ} (W : Matrix (Fin m) (Fin n) ℝ) (z : Fin n → ℝ) : Prop := ∀ i, ∑ k, z k * W i k ≠ 0

/-! ## One active direction -/

lemma mul_sign (x : ℝ) : x * Real.sign x = |x| := by
  rcases lt_trichotomy x 0 with h | h | h
  · rw [Real.sign_of_neg h, abs_of_neg h]; ring
  · simp [h]
  · rw [Real.sign_of_pos h, abs_of_pos h]; ring

lemma zonotope1_eq {m : ℕ} (W : Fin m → ℝ) : zonotope1 W = (-∑ i, |W i|, ∑ i, |W i|) := by
  unfold zonotope1
  simp only [mul_sign]
  have : 0 ≤ ∑ i, |W i| := Finset.sum_nonneg fun i _ => abs_nonneg _
  rw [if_neg (by linarith)]

lemma sum_le_abs {m : ℕ} (W x : Fin m → ℝ) (hx : x ∈ Box m) : |∑ i, x i * W i| ≤ ∑ i, |W i| := by
  refine (Finset.abs_sum_le_sum_abs _ _).trans (Finset.sum_le_sum fun i _ => ?_)
  rw [abs_mul]
  exact mul_le_of_le_one_left (abs_nonneg _) (abs_le.2 (hx i))

lemma zono1_eq_Icc {m : ℕ} (W : Fin m → ℝ) : Zono1 W = Set.Icc (-∑ i, |W i|) (∑ i, |W i|) := by
  ext y
  constructor
  · rintro ⟨x, hx, rfl⟩
    exact abs_le.1 (sum_le_abs W x hx)
  · rintro ⟨h1, h2⟩
    by_cases h0 : ∑ i, |W i| = 0
    · refine ⟨0, fun i => by simp, ?_⟩
      simp only [Pi.zero_apply, zero_mul, Finset.sum_const_zero]
      rw [h0] at h1 h2; linarith
    · have hpos : 0 < ∑ i, |W i| := lt_of_le_of_ne (Finset.sum_nonneg fun i _ => abs_nonneg _) (Ne.symm h0)
      refine ⟨fun i => y / (∑ i, |W i|) * Real.sign (W i), fun i => ?_, ?_⟩
      · have ha : |y / (∑ i, |W i|)| ≤ 1 := by
          rw [abs_div, abs_of_pos hpos, div_le_one hpos]; exact abs_le.2 ⟨h1, h2⟩
        have hs : |Real.sign (W i)| ≤ 1 := by
          rcases Real.sign_apply_eq (W i) with h | h | h <;> simp [h]
        apply abs_le.1
        rw [abs_mul]
        exact mul_le_one₀ ha (abs_nonneg _) hs
      · have : ∀ i, y / (∑ i, |W i|) * Real.sign (W i) * W i = y / (∑ i, |W i|) * |W i| := fun i => by
          rw [mul_assoc, mul_comm (Real.sign _), mul_sign]
        simp only [this, ← Finset.mul_sum]
        exact div_mul_cancel₀ _ h0

/-- **C65.** For one active direction the two values returned are the least and the greatest value of the
projection over the box, for every direction; every value between them is attained. -/
theorem c65_zonotope_ends {m : ℕ} (W : Fin m → ℝ) :
    IsLeast (Zono1 W) (zonotope1 W).1 ∧ IsGreatest (Zono1 W) (zonotope1 W).2 ∧
      Zono1 W = Set.Icc (zonotope1 W).1 (zonotope1 W).2 := by
  rw [zonotope1_eq, zono1_eq_Icc]
  have : -∑ i, |W i| ≤ ∑ i, |W i| := by
    have : 0 ≤ ∑ i, |W i| := Finset.sum_nonneg fun i _ => abs_nonneg _
    linarith
  exact ⟨isLeast_Icc this, isGreatest_Icc this, rfl⟩

/-- A direction with entries of both signs and a zero: the ends are `-7/5` and `7/5`. -/
example : zonotope1 ![(3/5 : ℝ), 0, -(4/5)] = (-(7/5), 7/5) := by
  rw [zonotope1_eq]
  simp [Fin.sum_univ_three, abs_of_pos]
  norm_num

/-- Satisfying all rows of `A y ≤ b`, for one active direction. -/
def Feasible1 (rows : List (ℝ × ℝ)) (y : ℝ) : Prop := ∀ r ∈ rows, r.1 * y ≤ r.2

lemma feasible1_iff {m : ℕ} (W : Fin m → ℝ) (y : ℝ) :
    Feasible1 (linearInequalities1 (zonotope1 W)) y ↔ y = (zonotope1 W).2 := by
  have h0 : 0 ≤ ∑ i, |W i| := Finset.sum_nonneg fun i _ => abs_nonneg _
  rw [zonotope1_eq]
  have hmax : max (-∑ i, |W i|) (∑ i, |W i|) = ∑ i, |W i| := max_eq_right (by linarith)
  have hmin : min (-∑ i, |W i|) (∑ i, |W i|) = -∑ i, |W i| := min_eq_left (by linarith)
  simp only [Feasible1, linearInequalities1, hmax, hmin, List.mem_cons, List.not_mem_nil, or_false, forall_eq_or_imp,
    forall_eq]
  constructor
  · rintro ⟨h1, h2⟩; linarith
  · rintro rfl; constructor <;> linarith

/-- **C66 (partial).** Every `y` that satisfies the inequalities is a projection of a point of the box. The
converse fails: see `c66_one_violated`. -/
theorem c66_one_partial {m : ℕ} (W : Fin m → ℝ) (y : ℝ)
    (h : Feasible1 (linearInequalities1 (zonotope1 W)) y) : y ∈ Zono1 W := by
  rw [(feasible1_iff W y).1 h]
  exact (c65_zonotope_ends W).2.1.1

example : Feasible1 (linearInequalities1 (zonotope1 ![(3/5 : ℝ), -(4/5)])) (7/5) := by
  rw [feasible1_iff, zonotope1_eq]
  simp [Fin.sum_univ_two, abs_of_pos]
  norm_num

/-- **C66 is false for one active direction**: the second right-hand side has the wrong sign, so for every
nonzero direction the upper end is the only feasible value; the lower end, zero and all values between are
projections that the inequalities exclude. -/
theorem c66_one_violated {m : ℕ} (W : Fin m → ℝ) (hW : W ≠ 0) :
    (∀ y, Feasible1 (linearInequalities1 (zonotope1 W)) y ↔ y = (zonotope1 W).2) ∧
      (0 : ℝ) ∈ Zono1 W ∧ ¬ Feasible1 (linearInequalities1 (zonotope1 W)) 0 ∧
      (zonotope1 W).1 ∈ Zono1 W ∧ ¬ Feasible1 (linearInequalities1 (zonotope1 W)) (zonotope1 W).1 := by
  have hne : ∑ i, |W i| ≠ 0 := by
    intro h
    apply hW
    funext i
    exact abs_eq_zero.1 ((Finset.sum_eq_zero_iff_of_nonneg fun i _ => abs_nonneg (W i)).1 h i (Finset.mem_univ i))
  refine ⟨feasible1_iff W, ⟨0, fun i => by simp, by simp⟩, fun h => ?_, (c65_zonotope_ends W).1.1, fun h => ?_⟩
  · have := (feasible1_iff W _).1 h
    rw [zonotope1_eq] at this
    exact hne this.symm
  · have := (feasible1_iff W _).1 h
    rw [zonotope1_eq] at this
    exact hne (by simp only at this; linarith)

example : (![(3/5 : ℝ), -(4/5)] : Fin 2 → ℝ) ≠ 0 := by
  intro h
  have := congrFun h 0
  norm_num at this

/-! ## More active directions: the rows found -/

variable {m n : ℕ}

@[simp] lemma flip_val (s : Sgn) : s.flip.val = -s.val := by cases s <;> simp [Sgn.flip, Sgn.val]
@[simp] lemma flip_flip (s : Sgn) : s.flip.flip = s := by cases s <;> rfl

lemma npSign_val (x : ℝ) : (npSign x).val = Real.sign x := by
  unfold npSign
  rcases lt_trichotomy x 0 with h | h | h
  · rw [if_neg (by linarith), if_pos h, Real.sign_of_neg h]; rfl
  · simp [h, Sgn.val]
  · rw [if_pos h, Real.sign_of_pos h]; rfl

lemma npSign_neg {x : ℝ} (hx : x ≠ 0) : npSign (-x) = (npSign x).flip := by
  unfold npSign
  rcases lt_or_gt_of_ne hx with h | h
  · rw [if_pos (by linarith), if_neg (by linarith), if_pos h]; rfl
  · rw [if_neg (by linarith), if_pos (by linarith), if_pos h]; rfl

lemma signRow_neg {W : Matrix (Fin m) (Fin n) ℝ} {z : Fin n → ℝ} (hz : Generic W z) :
    signRow W (-z) = fun i => (signRow W z i).flip := by
  funext i
  unfold signRow
  rw [← npSign_neg (hz i)]
  simp [Finset.sum_neg_distrib]

lemma generic_neg {W : Matrix (Fin m) (Fin n) ℝ} {z : Fin n → ℝ} (hz : Generic W z) : Generic W (-z) := by
  intro i
  simpa [Finset.sum_neg_distrib] using hz i

lemma mem_signBatch {W : Matrix (Fin m) (Fin n) ℝ} {Z : List (Fin n → ℝ)} {x : Fin m → Sgn} :
    x ∈ signBatch W Z ↔ ∃ z ∈ Z, x = signRow W z ∨ x = fun i => (signRow W z i).flip := by
  simp only [signBatch, uniqueRows, List.mem_dedup, List.mem_append, List.mem_map]
  constructor
  · rintro (⟨z, hz, rfl⟩ | ⟨a, ⟨z, hz, rfl⟩, rfl⟩)
    · exact ⟨z, hz, Or.inl rfl⟩
    · exact ⟨z, hz, Or.inr rfl⟩
  · rintro ⟨z, hz, rfl | rfl⟩
    · exact Or.inl ⟨z, hz, rfl⟩
    · exact Or.inr ⟨_, ⟨z, hz, rfl⟩, rfl⟩

/-- What every list of rows in the loop satisfies: closed under negation, without repetitions, made of the
rows of drawn directions and their negatives, containing those of the first batch. -/
structure RowsOK (W : Matrix (Fin m) (Fin n) ℝ) (draw : ℕ → List (Fin n → ℝ)) (X : List (Fin m → Sgn)) : Prop where
  nodup : X.Nodup
  origin : ∀ x ∈ X, ∃ k, ∃ z ∈ draw k, x = signRow W z ∨ x = fun i => (signRow W z i).flip
  symm : ∀ x ∈ X, (fun i => (x i).flip) ∈ X
  first : ∀ z ∈ draw 0, signRow W z ∈ X

lemma signBatch_symm {W : Matrix (Fin m) (Fin n) ℝ} {Z : List (Fin n → ℝ)} {x : Fin m → Sgn}
    (h : x ∈ signBatch W Z) : (fun i => (x i).flip) ∈ signBatch W Z := by
  obtain ⟨z, hz, rfl | rfl⟩ := mem_signBatch.1 h
  · exact mem_signBatch.2 ⟨z, hz, Or.inr rfl⟩
  · exact mem_signBatch.2 ⟨z, hz, Or.inl (by funext i; simp)⟩

lemma rowsOK_first (W : Matrix (Fin m) (Fin n) ℝ) (draw : ℕ → List (Fin n → ℝ)) : RowsOK W draw (signBatch W (draw 0)) where
  nodup := List.nodup_dedup _
  origin x hx := by
    obtain ⟨z, hz, h⟩ := mem_signBatch.1 hx
    exact ⟨0, z, hz, h⟩
  symm x hx := signBatch_symm hx
  first z hz := mem_signBatch.2 ⟨z, hz, Or.inl rfl⟩

lemma rowsOK_loop {W : Matrix (Fin m) (Fin n) ℝ} {draw : ℕ → List (Fin n → ℝ)} (left : ℕ) :
    ∀ (count : ℕ) (X : List (Fin m → Sgn)), RowsOK W draw X → RowsOK W draw (zonotopeLoop W draw left count X) := by
  induction left with
  | zero => intro c X h; exact h
  | succ l ih =>
    intro c X h
    unfold zonotopeLoop
    split
    · apply ih
      refine ⟨List.nodup_dedup _, fun x hx => ?_, fun x hx => ?_, fun z hz => ?_⟩
      · simp only [uniqueRows, List.mem_dedup, List.mem_append] at hx
        rcases hx with hx | hx
        · exact h.origin x hx
        · obtain ⟨z, hz, hh⟩ := mem_signBatch.1 hx
          exact ⟨_, z, hz, hh⟩
      · simp only [uniqueRows, List.mem_dedup, List.mem_append] at hx ⊢
        rcases hx with hx | hx
        · exact Or.inl (h.symm x hx)
        · exact Or.inr (signBatch_symm hx)
      · simp only [uniqueRows, List.mem_dedup, List.mem_append]
        exact Or.inl (h.first z hz)
    · exact h

lemma rowsOK_signs (W : Matrix (Fin m) (Fin n) ℝ) (draw : ℕ → List (Fin n → ℝ)) (maxCount : ℕ) :
    RowsOK W draw (zonotopeSigns W draw maxCount) :=
  rowsOK_loop _ _ _ (rowsOK_first W draw)

/-- The value of a direction at the projection of a point. -/
lemma dot_proj (W : Matrix (Fin m) (Fin n) ℝ) (z : Fin n → ℝ) (x : Fin m → ℝ) :
    ∑ k, z k * proj W x k = ∑ i, x i * ∑ k, z k * W i k := by
  simp only [proj, Finset.mul_sum]
  rw [Finset.sum_comm]
  exact Finset.sum_congr rfl fun i _ => Finset.sum_congr rfl fun k _ => by ring

lemma dot_proj_le (W : Matrix (Fin m) (Fin n) ℝ) (z : Fin n → ℝ) {y : Fin n → ℝ} (hy : y ∈ Zono W) :
    ∑ k, z k * y k ≤ ∑ i, |∑ k, z k * W i k| := by
  obtain ⟨x, hx, rfl⟩ := hy
  rw [dot_proj]
  exact (le_abs_self _).trans (sum_le_abs _ x hx)

lemma dot_proj_sign (W : Matrix (Fin m) (Fin n) ℝ) (z : Fin n → ℝ) :
    ∑ k, z k * proj W (fun i => (signRow W z i).val) k = ∑ i, |∑ k, z k * W i k| := by
  rw [dot_proj]
  refine Finset.sum_congr rfl fun i _ => ?_
  rw [signRow, npSign_val, mul_comm, mul_sign]

lemma val_box (x : Fin m → Sgn) : (fun i => (x i).val) ∈ Box m := by
  intro i
  show -1 ≤ (x i).val ∧ (x i).val ≤ 1
  cases x i <;> simp [Sgn.val]

lemma proj_flip (W : Matrix (Fin m) (Fin n) ℝ) (x : Fin m → Sgn) :
    proj W (fun i => ((x i).flip).val) = -proj W fun i => (x i).val := by
  funext k
  simp [proj, Finset.sum_neg_distrib]

/-- **C95.** Every point returned by `get_zonotope_vertices` is the projection of a point of the box that
maximises a drawn direction or its negative over the whole zonotope; the set returned is symmetric about the
origin; every direction of the first batch has a maximiser among the points returned. This holds for all
random draws, all sizes and every limit on the number of passes. -/
theorem c95_vertices (W : Matrix (Fin m) (Fin n) ℝ) (draw : ℕ → List (Fin n → ℝ)) (maxCount : ℕ) :
    (∀ y ∈ zonotopeVertices W draw maxCount, y ∈ Zono W ∧ -y ∈ zonotopeVertices W draw maxCount ∧
      ∃ k, ∃ z ∈ draw k, (∀ y' ∈ Zono W, ∑ k, z k * y' k ≤ ∑ k, z k * y k) ∨
        ∀ y' ∈ Zono W, ∑ k, z k * y k ≤ ∑ k, z k * y' k) ∧
    ∀ z ∈ draw 0, ∃ y ∈ zonotopeVertices W draw maxCount, ∀ y' ∈ Zono W, ∑ k, z k * y' k ≤ ∑ k, z k * y k := by
  have h := rowsOK_signs W draw maxCount
  constructor
  · intro y hy
    obtain ⟨x, hx, rfl⟩ := List.mem_map.1 hy
    refine ⟨⟨_, val_box x, rfl⟩, List.mem_map.2 ⟨_, h.symm x hx, proj_flip W x⟩, ?_⟩
    obtain ⟨k, z, hz, rfl | rfl⟩ := h.origin x hx
    · exact ⟨k, z, hz, Or.inl fun y' hy' => (dot_proj_le W z hy').trans (dot_proj_sign W z).ge⟩
    · refine ⟨k, z, hz, Or.inr fun y' hy' => ?_⟩
      have h1 := dot_proj_le W (-z) hy'
      have h2 := dot_proj_sign W z
      have h3 : ∑ k, z k * ∑ i, ((signRow W z i).flip).val * W i k = -∑ i, |∑ k, z k * W i k| := by
        rw [← h2, ← Finset.sum_neg_distrib]
        refine Finset.sum_congr rfl fun k _ => ?_
        simp [proj, Finset.sum_neg_distrib]
      rw [h3]
      simp only [Pi.neg_apply, neg_mul, Finset.sum_neg_distrib, abs_neg] at h1
      linarith
  · intro z hz
    refine ⟨_, List.mem_map.2 ⟨_, h.first z hz, rfl⟩, fun y' hy' => ?_⟩
    exact (dot_proj_le W z hy').trans (dot_proj_sign W z).ge

/-- The random stream may be any: for the coordinate plane in three dimensions and one drawn direction the
routine returns `(1, 1)` and `(-1, -1)` when the pass limit allows nothing more. -/
example : (![1, 1] : Fin 2 → ℝ) ∈
    zonotopeVertices (Matrix.of ![![1, 0], ![0, 1]]) (fun _ => [![1, 1]]) 0 := by
  obtain ⟨y, hy, h⟩ := (c95_vertices (Matrix.of ![![1, 0], ![0, 1]]) (fun _ => [![1, 1]]) 0).2 ![1, 1] (by simp)
  have h1 := (c95_vertices (Matrix.of ![![1, 0], ![0, 1]]) (fun _ => [![1, 1]]) 0).1 y hy
  obtain ⟨x, hx, rfl⟩ := h1.1
  have h2 := h ![1, 1] ⟨![1, 1], fun i => by fin_cases i <;> simp, by
    funext k; fin_cases k <;> simp [proj, Fin.sum_univ_two]⟩
  simp [proj, Fin.sum_univ_two] at h2
  have h3 := hx 0
  have h4 := hx 1
  have : proj (Matrix.of ![![1, 0], ![0, 1]]) x = ![1, 1] := by
    funext k
    fin_cases k <;> simp [proj, Fin.sum_univ_two] <;> linarith
  rwa [this] at hy

end EQ.Sub
