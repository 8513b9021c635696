import Verif.Solver.MinNormProps
import Mathlib.LinearAlgebra.FiniteDimensional.Basic

/-!
# The minimum-norm method: the columns it uses, superposition and recovery (C243)
-/

namespace EQ.Solver
open Matrix EQ.Basis

variable {m n : ℕ}

/-- The result vanishes except at the first pivots. -/
theorem minimumNorm_support (qr : PivotedQR m n) (r : ℕ) (hr : r ≤ n) (b : Vec m) (x : Vec n) (hx : minimumNorm qr r hr b = .ok x)
    (j : Fin n) (hj : ∀ l : Fin r, j ≠ qr.pvec (Fin.castLE hr l)) : x j = 0 := by
  unfold minimumNorm at hx
  by_cases h : r = m
  swap
  · rw [dif_neg h] at hx
    cases hx
  rw [dif_pos h] at hx
  dsimp only at hx
  by_cases h0 : Matrix.det (fun i j : Fin r => qr.R (Fin.cast h i) (Fin.castLE hr j)) = 0
  · rw [if_pos h0] at hx
    cases hx
  rw [if_neg h0] at hx
  rw [← Except.ok.inj hx]
  unfold mulVec dotProduct
  refine Finset.sum_eq_zero fun l _ => ?_
  have hne : qr.pvec.symm j ≠ Fin.castLE hr l := fun e => hj l (by rw [← e, Equiv.apply_symm_apply])
  refine mul_eq_zero_of_left ?_ _
  exact if_neg hne

/-- A linear map that reaches every right-hand side from the vectors on `m` given places is one-to-one there. -/
theorem unique_on_places (A : Mat m n) (f : Fin m → Fin n) (hf : Function.Injective f)
    (hs : ∀ b : Vec m, ∃ x : Vec n, (∀ j, (∀ l, j ≠ f l) → x j = 0) ∧ A.mulVec x = b) (x z : Vec n)
    (hx : ∀ j, (∀ l, j ≠ f l) → x j = 0) (hz : ∀ j, (∀ l, j ≠ f l) → z j = 0) (he : A.mulVec x = A.mulVec z) : x = z := by
  classical
  let B : Mat m m := fun i l => A i (f l)
  have hB : ∀ x : Vec n, (∀ j, (∀ l, j ≠ f l) → x j = 0) → A.mulVec x = B.mulVec fun l => x (f l) := by
    intro x hx
    funext i
    show ∑ j, A i j * x j = ∑ l, A i (f l) * x (f l)
    rw [← Finset.sum_image (f := fun j => A i j * x j) (s := Finset.univ) (g := f) fun a _ b _ h => hf h]
    refine (Finset.sum_subset (Finset.subset_univ _) fun j _ hj => ?_).symm
    rw [hx j fun l e => hj (Finset.mem_image.2 ⟨l, Finset.mem_univ _, e.symm⟩), mul_zero]
  have hsurj : Function.Surjective B.mulVecLin := by
    intro b
    obtain ⟨x, h1, h2⟩ := hs b
    exact ⟨fun l => x (f l), by rw [mulVecLin_apply, ← hB x h1, h2]⟩
  have hinj := LinearMap.injective_iff_surjective.2 hsurj
  have e : (fun l => x (f l)) = fun l => z (f l) := hinj (by rw [mulVecLin_apply, mulVecLin_apply, ← hB x hx, ← hB z hz, he])
  funext j
  by_cases h : ∀ l, j ≠ f l
  · rw [hx j h, hz j h]
  · push Not at h
    obtain ⟨l, rfl⟩ := h
    exact congrFun e l

/-- **C243.** For a matrix with independent rows there is a set of as many columns as rows, the same for all outputs, such that the method returns
the only solution that vanishes on all other columns. -/
theorem c243_columns (A : Mat m n) (hA : LinearIndependent ℝ A.row) (qr : PivotedQR m n) (hqr : qr.Spec A) :
    ∃ J : Finset (Fin n), J.card = m ∧ ∀ b, ∃ x, minimumNorm qr A.rank A.rank_le_width b = .ok x ∧ (∀ j, j ∉ J → x j = 0) ∧
      A.mulVec x = b ∧ ∀ z, (∀ j, j ∉ J → z j = 0) → A.mulVec z = b → z = x := by
  classical
  have hle := indep_le hA
  set f : Fin m → Fin n := fun l => qr.pvec (Fin.castLE hle l) with hf
  have hfi : Function.Injective f := fun a b h => Fin.castLE_injective hle (qr.pvec.injective h)
  have hmem : ∀ j, j ∉ Finset.univ.image f ↔ ∀ l, j ≠ f l := by
    intro j
    simp only [Finset.mem_image, Finset.mem_univ, true_and, not_exists, ne_eq, eq_comm]
  have hsup : ∀ b x, minimumNorm qr A.rank A.rank_le_width b = .ok x → ∀ j, (∀ l, j ≠ f l) → x j = 0 := by
    intro b x hx j hj
    refine minimumNorm_support qr _ _ b x hx j fun l => ?_
    have := hj (Fin.cast (rank_row hA) l)
    exact this
  have hsol : ∀ b : Vec m, ∃ x : Vec n, (∀ j, (∀ l, j ≠ f l) → x j = 0) ∧ A.mulVec x = b := by
    intro b
    obtain ⟨x, h1, h2, -⟩ := c44_minimum_norm_partial A hA qr hqr b
    exact ⟨x, hsup b x h1, h2⟩
  refine ⟨Finset.univ.image f, ?_, fun b => ?_⟩
  · rw [Finset.card_image_of_injective _ hfi, Finset.card_univ, Fintype.card_fin]
  · obtain ⟨x, h1, h2, -⟩ := c44_minimum_norm_partial A hA qr hqr b
    refine ⟨x, h1, fun j hj => hsup b x h1 j ((hmem j).1 hj), h2, fun z hz hzb => ?_⟩
    exact unique_on_places A f hfi hsol z x (fun j hj => hz j ((hmem j).2 hj)) (hsup b x h1) (hzb.trans h2.symm)

/-- **C243, superposition.** A combination of outputs gives the same combination of coefficients. -/
theorem c243_superposition (A : Mat m n) (hA : LinearIndependent ℝ A.row) (qr : PivotedQR m n) (hqr : qr.Spec A) (b b' : Vec m) (s t : ℝ) :
    ∃ x x', minimumNorm qr A.rank A.rank_le_width b = .ok x ∧ minimumNorm qr A.rank A.rank_le_width b' = .ok x' ∧
      minimumNorm qr A.rank A.rank_le_width (s • b + t • b') = .ok (s • x + t • x') := by
  obtain ⟨J, -, hJ⟩ := c243_columns A hA qr hqr
  obtain ⟨x, h1, h2, h3, -⟩ := hJ b
  obtain ⟨x', h1', h2', h3', -⟩ := hJ b'
  obtain ⟨y, e1, -, -, e4⟩ := hJ (s • b + t • b')
  refine ⟨x, x', h1, h1', ?_⟩
  rw [e1, e4 (s • x + t • x') (fun j hj => by simp [h2 j hj, h2' j hj]) (by rw [mulVec_add, mulVec_smul, mulVec_smul, h3, h3'])]

/-- The equation `3 x + 4 y = b`: the second column is the first pivot. -/
example : ∃ qr : PivotedQR 1 2, qr.Spec !![3, 4] ∧ LinearIndependent ℝ (Matrix.row (!![3, 4] : Mat 1 2)) := by
  refine ⟨⟨1, !![4, 3], Equiv.swap 0 1⟩, ?_, ?_⟩
  · constructor
    · simp
    · intro i j
      fin_cases i <;> fin_cases j <;> simp
    · intro i j h
      fin_cases i
      simp at h
    · intro i j k h
      fin_cases i
      fin_cases j <;> fin_cases k <;> simp at h ⊢ <;> norm_num [abs_le]
  · rw [Fintype.linearIndependent_iff]
    intro g hg i
    have := congrFun hg 0
    simp at this
    fin_cases i
    exact this

end EQ.Solver
