import Mathlib.Data.List.Basic
import Mathlib.Analysis.SpecialFunctions.Pow.Real

/-!
# Specification vocabulary for index sets (independent of the model)
-/

namespace EQ.Basis.Spec

/-- `m` is the largest entry of `l`. -/
def MaxOf (m : ℕ) (l : List ℕ) : Prop := m ∈ l ∧ ∀ x ∈ l, x ≤ m

/-- Component-wise order on multi-indices of equal length. -/
def Below (a b : List ℕ) : Prop := List.Forall₂ (· ≤ ·) a b

/-- A finite index set is downward closed. -/
def DownClosed (L : List (List ℕ)) : Prop := ∀ a b, b ∈ L → Below a b → a ∈ L

/-- Lexicographic order of rows of equal length, spelled out: the first difference decides. -/
def LexLt (a b : List ℕ) : Prop :=
  ∃ pre x y s t, a = pre ++ x :: s ∧ b = pre ++ y :: t ∧ x < y

/-- Graded lexicographic order: lower total degree first, ties lexicographically. -/
def GradedLt (a b : List ℕ) : Prop := a.sum < b.sum ∨ (a.sum = b.sum ∧ LexLt a b)

/-- The zero multi-index. -/
def zeroRow (d : ℕ) : List ℕ := List.replicate d 0

/-- Unit multi-index `n · e_i`. -/
def purePower (d i n : ℕ) : List ℕ := (List.replicate d 0).set i n

/-- Decimal key read off a non-decreasing list: first entry has the smallest place value. -/
def decimalKey : List ℕ → ℕ
  | [] => 0
  | a :: as => a + 10 * decimalKey as

/-- `s` is the non-decreasing rearrangement of `row`. -/
def IsSortedRow (row s : List ℕ) : Prop := s.Perm row ∧ s.Pairwise (· ≤ ·)

end EQ.Basis.Spec
