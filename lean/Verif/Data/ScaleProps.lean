import Verif.Data.Props

/-!
# Scaling of data (C235)
-/

namespace EQ.Data

variable {n d : ℕ}

theorem std_eq (X : Fin (n+1) → Fin d → ℝ) (i : Fin (n+1)) (j : Fin d) :
    standardise .float X i j = 2 * ((X i j - colMin X j) / (colMax X j - colMin X j)) - 1 := rfl

theorem colMin_eq {X : Fin (n+1) → Fin d → ℝ} {j : Fin d} {v : ℝ} (h : ∀ i, v ≤ X i j) (hi : ∃ i, X i j = v) : colMin X j = v := by
  obtain ⟨i, hi⟩ := hi
  obtain ⟨k, hk⟩ := exists_colMin X j
  exact le_antisymm (by rw [← hi]; exact colMin_le X i j) (by rw [← hk]; exact h k)

theorem colMax_eq {X : Fin (n+1) → Fin d → ℝ} {j : Fin d} {v : ℝ} (h : ∀ i, X i j ≤ v) (hi : ∃ i, X i j = v) : colMax X j = v := by
  obtain ⟨i, hi⟩ := hi
  obtain ⟨k, hk⟩ := exists_colMax X j
  exact le_antisymm (by rw [← hk]; exact h k) (by rw [← hi]; exact le_colMax X i j)

/-- **C235, units.** If the columns are given in other units (`x ↦ s x + t`), `standardise` returns the same array for positive factors; a column with a negative
factor changes its sign. -/
theorem c235_units (X : Fin (n+1) → Fin d → ℝ) (hX : ∀ j, ∃ a b, X a j ≠ X b j) (s t : Fin d → ℝ) (i : Fin (n+1)) (j : Fin d) :
    (0 < s j → standardise .float (fun i j => s j * X i j + t j) i j = standardise .float X i j) ∧
    (s j < 0 → standardise .float (fun i j => s j * X i j + t j) i j = -standardise .float X i j) := by
  have hpos : colMax X j - colMin X j ≠ 0 := (sub_pos.2 (colMin_lt_colMax (hX j))).ne'
  obtain ⟨a, ha⟩ := exists_colMin X j
  obtain ⟨b, hb⟩ := exists_colMax X j
  constructor <;> intro hs
  · have e1 : colMin (fun i j => s j * X i j + t j) j = s j * colMin X j + t j :=
      colMin_eq (fun i => by have := mul_le_mul_of_nonneg_left (colMin_le X i j) hs.le; linarith) ⟨a, by rw [ha]⟩
    have e2 : colMax (fun i j => s j * X i j + t j) j = s j * colMax X j + t j :=
      colMax_eq (fun i => by have := mul_le_mul_of_nonneg_left (le_colMax X i j) hs.le; linarith) ⟨b, by rw [hb]⟩
    rw [std_eq, std_eq, e1, e2]
    have : s j * colMax X j + t j - (s j * colMin X j + t j) = s j * (colMax X j - colMin X j) := by ring
    rw [this]
    have := hs.ne'
    field_simp
    ring
  · have e1 : colMin (fun i j => s j * X i j + t j) j = s j * colMax X j + t j :=
      colMin_eq (fun i => by have := mul_le_mul_of_nonpos_left (le_colMax X i j) hs.le; linarith) ⟨b, by rw [hb]⟩
    have e2 : colMax (fun i j => s j * X i j + t j) j = s j * colMin X j + t j :=
      colMax_eq (fun i => by have := mul_le_mul_of_nonpos_left (colMin_le X i j) hs.le; linarith) ⟨a, by rw [ha]⟩
    rw [std_eq, std_eq, e1, e2]
    have : s j * colMin X j + t j - (s j * colMax X j + t j) = -(s j) * (colMax X j - colMin X j) := by ring
    rw [this]
    have := hs.ne
    field_simp
    ring

/-- **C235, rows and columns.** Reordering or repeating rows, and choosing, reordering or repeating columns, does the same to the result: no row and no column is treated
differently from the others, and a column does not depend on the others. -/
theorem c235_rows {n' d' : ℕ} (X : Fin (n+1) → Fin d → ℝ) (r : Fin (n'+1) → Fin (n+1)) (hr : Function.Surjective r) (c : Fin d' → Fin d) :
    standardise .float (fun i j => X (r i) (c j)) = fun i j => standardise .float X (r i) (c j) := by
  funext i j
  have e1 : colMin (fun i j => X (r i) (c j)) j = colMin X (c j) := by
    obtain ⟨a, ha⟩ := exists_colMin X (c j)
    obtain ⟨a', rfl⟩ := hr a
    exact colMin_eq (fun i => colMin_le X _ _) ⟨a', ha⟩
  have e2 : colMax (fun i j => X (r i) (c j)) j = colMax X (c j) := by
    obtain ⟨a, ha⟩ := exists_colMax X (c j)
    obtain ⟨a', rfl⟩ := hr a
    exact colMax_eq (fun i => le_colMax X _ _) ⟨a', ha⟩
  rw [std_eq, std_eq, e1, e2]

/-- **C235, spacing.** Within a column the distances keep their proportions. -/
theorem c235_spacing (X : Fin (n+1) → Fin d → ℝ) (a b i k : Fin (n+1)) (j : Fin d) :
    (standardise .float X i j - standardise .float X k j) * (X a j - X b j) = (standardise .float X a j - standardise .float X b j) * (X i j - X k j) := by
  simp only [std_eq]
  ring

/-- **C235, back to the data.** For any number of rows: `unstandardise` of values in `[-1, 1]` lies between the smallest and the largest value of the column, `-1` and `1` give
exactly these; and values that reach both ends are recovered by standardising. -/
theorem c235_back {k : ℕ} (X : Fin (n+1) → Fin d → ℝ) (hX : ∀ j, ∃ a b, X a j ≠ X b j) (Z : Fin (k+1) → Fin d → ℝ) (hZ : ∀ i j, -1 ≤ Z i j ∧ Z i j ≤ 1) :
    (∀ i j, (∃ a, X a j ≤ unstandardise .float Z X i j) ∧ ∃ b, unstandardise .float Z X i j ≤ X b j) ∧
    (∀ i j, Z i j = -1 → ∀ a, unstandardise .float Z X i j ≤ X a j) ∧ (∀ i j, Z i j = 1 → ∀ a, X a j ≤ unstandardise .float Z X i j) ∧
    ((∀ j, (∃ i, Z i j = -1) ∧ ∃ i, Z i j = 1) → standardise .float (unstandardise .float Z X) = Z) := by
  have hpos : ∀ j, 0 < colMax X j - colMin X j := fun j => sub_pos.2 (colMin_lt_colMax (hX j))
  have key : ∀ i j, unstandardise .float Z X i j = 1/2 * (Z i j + 1) * (colMax X j - colMin X j) + colMin X j := fun i j => rfl
  have hlo : ∀ i j, colMin X j ≤ unstandardise .float Z X i j := fun i j => by
    rw [key]
    have := mul_nonneg (by linarith [(hZ i j).1] : 0 ≤ 1/2 * (Z i j + 1)) (hpos j).le
    linarith
  have hhi : ∀ i j, unstandardise .float Z X i j ≤ colMax X j := fun i j => by
    rw [key]
    have := mul_nonneg (by linarith [(hZ i j).2] : 0 ≤ 1/2 * (1 - Z i j)) (hpos j).le
    linarith
  have el : ∀ i j, Z i j = -1 → unstandardise .float Z X i j = colMin X j := fun i j h => by rw [key, h]; ring
  have er : ∀ i j, Z i j = 1 → unstandardise .float Z X i j = colMax X j := fun i j h => by rw [key, h]; ring
  refine ⟨fun i j => ⟨?_, ?_⟩, fun i j h a => by rw [el i j h]; exact colMin_le X a j, fun i j h a => by rw [er i j h]; exact le_colMax X a j, fun hE => ?_⟩
  · obtain ⟨a, ha⟩ := exists_colMin X j
    exact ⟨a, by rw [ha]; exact hlo i j⟩
  · obtain ⟨a, ha⟩ := exists_colMax X j
    exact ⟨a, by rw [ha]; exact hhi i j⟩
  · funext i j
    obtain ⟨⟨a, ha⟩, b, hb⟩ := hE j
    rw [std_eq, colMin_eq (hlo · j) ⟨a, el a j ha⟩, colMax_eq (hhi · j) ⟨b, er b j hb⟩, key]
    have := (hpos j).ne'
    field_simp
    ring

/-- Columns that are not constant, rows repeated, and values that reach both ends. -/
example : (∀ j, ∃ a b, colDemo a j ≠ colDemo b j) ∧ (Function.Surjective fun i : Fin 5 => (![0, 1, 2, 3, 1] i : Fin 4)) ∧
    (∀ i j, -1 ≤ (fun (i : Fin 3) (_ : Fin 1) => (![-1, 1 / 2, 1] i : ℝ)) i j ∧ (fun (i : Fin 3) (_ : Fin 1) => (![-1, 1 / 2, 1] i : ℝ)) i j ≤ 1) := by
  refine ⟨fun j => ⟨0, 1, by simp [colDemo]⟩, by decide, fun i j => ?_⟩
  fin_cases i <;> norm_num

end EQ.Data
