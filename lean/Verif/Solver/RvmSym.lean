import Verif.Solver.RvmProps
import Mathlib.LinearAlgebra.Matrix.Permutation
import Mathlib.LinearAlgebra.UnitaryGroup
import Mathlib.Analysis.SpecialFunctions.Log.Basic
import Mathlib.Tactic.FinCases

/-!
# The relevance vector machine: order, sign and units of the data (C215)
-/

namespace EQ.Solver
open Matrix EQ.Basis

variable {K card : ℕ}

/-! ## Specification -/

/-- The passes of the loop without the stopping test. -/
noncomputable def Rvm.passes (inv : Inv) (b : Vec K) : ℕ → Rvm K card → Outcome (Rvm K card)
  | 0, s => some (.ok s)
  | n + 1, s =>
    match s.step inv b with
    | none => none
    | some (.error e) => some (.error e)
    | some (.ok s') => passes inv b n s'

/-- The coefficients after exactly `n` passes. -/
noncomputable def fitAfter (inv : Inv) (A : Mat K card) (b : Vec K) (n : ℕ) : Outcome (Vec card) :=
  match Rvm.init inv A b with
  | .error e => some (.error e)
  | .ok s =>
    match s.passes inv b n with
    | none => none
    | some (.error e) => some (.error e)
    | some (.ok s') => some s'.scatter

/-- An outcome with the coefficients changed by `f`. -/
def omap {α β : Type} (f : α → β) : Outcome α → Outcome β
  | none => none
  | some (.error e) => some (.error e)
  | some (.ok x) => some (.ok (f x))

/-! ## The new state of a pass -/

/-- Some columns of a matrix. -/
def colsOf {r : ℕ} (keep : List (Fin r)) (Phi : Mat K r) : Mat K keep.length := fun i j => Phi i (keep.get j)

/-- The state after a pass, from the present columns, `gamma` and `mu`. -/
noncomputable def mkNext {r : ℕ} (keep : List (Fin r)) (Phi : Mat K r) (γ μ : Vec r) (b : Vec K) (rem rest : List (Fin card)) (Ls : List ℝ) : Rvm K card :=
  let alpha : Vec keep.length := fun j => γ (keep.get j) / μ (keep.get j) ^ 2
  let alpha0 := (K - ∑ j, γ j) / ((b - Phi.mulVec μ) ⬝ᵥ (b - Phi.mulVec μ))
  let Phi' := colsOf keep Phi
  ⟨keep.length, Phi', alpha, alpha0, (precision Phi' alpha alpha0)⁻¹, alpha0 • ((precision Phi' alpha alpha0)⁻¹ * Phi'ᵀ).mulVec b, rem, rest, Ls⟩

/-- The positions kept. -/
noncomputable def keepOf {r : ℕ} (γ : Vec r) : List (Fin r) := (List.finRange r).filter fun j => 1e-10 ≤ γ j

/-- The positions dropped. -/
noncomputable def dropOf {r : ℕ} (γ : Vec r) : List (Fin r) := (List.finRange r).filter fun j => γ j < 1e-10

/-- The columns dropped. -/
noncomputable def outOf {r : ℕ} (γ : Vec r) (rem : List (Fin card)) : List (Fin card) := ((dropOf γ).mapM fun j : Fin r => rem[j.val]?).getD []

/-- The state after a pass. -/
noncomputable def nextOf {r : ℕ} (Phi : Mat K r) (γ μ : Vec r) (b : Vec K) (rem rest : List (Fin card)) (Ls : List ℝ) : Rvm K card :=
  mkNext (keepOf γ) Phi γ μ b (Rvm.setdiff1d rem (outOf γ rem)) (rest ++ outOf γ rem) Ls

/-- The data of a state that matter to a pass. -/
theorem step_cases (inv : Inv) (hinv : InvContract inv) {A : Mat K card} {b : Vec K} {s : Rvm K card} {g : Fin s.r → Fin card} (h : s.Good A b g) :
    s.step inv b = if (∃ j, s.mu j = 0) ∨ b - s.Phi.mulVec s.mu = 0 then none
      else some (.ok (nextOf s.Phi s.gamma s.mu b s.remaining s.removed (s.allL ++ [s.L b s.C⁻¹]))) := by
  unfold Rvm.step
  have h1 : (s.alpha0 = 0 ∨ (∃ j, s.alpha j = 0) ∨ (∃ j, s.mu j = 0) ∨ b - s.Phi.mulVec s.mu = 0) ↔ (∃ j, s.mu j = 0) ∨ b - s.Phi.mulVec s.mu = 0 := by
    constructor
    · rintro (h0 | ⟨j, hj⟩ | h0)
      · exact absurd h0 h.a0.ne'
      · exact absurd hj (h.apos j).ne'
      · exact h0
    · exact fun h0 => .inr (.inr h0)
  by_cases hz : (∃ j, s.mu j = 0) ∨ b - s.Phi.mulVec s.mu = 0
  · rw [if_pos (h1.2 hz), if_pos hz]
  rw [if_neg (mt h1.1 hz), if_neg hz]
  push Not at hz
  obtain ⟨hmu, hres⟩ := hz
  have hK : 0 < K := by
    rcases Nat.eq_zero_or_pos K with rfl | hK
    · exact absurd (Subsingleton.elim _ _) hres
    · exact hK
  have hCeq : s.C = (1 / s.alpha0) • covScaled s.Phi s.alpha s.alpha0 := by
    unfold Rvm.C covScaled
    rw [smul_add, smul_smul, one_div_mul_cancel h.a0.ne', one_smul]
  have hC : IsUnit s.C.det := by
    rw [hCeq]
    exact ((covScaled_posDef s.Phi s.alpha s.alpha0 h.a0 h.apos).smul
      (one_div_pos.2 h.a0)).det_pos.ne'.isUnit
  have hg : ∀ j, 1e-10 ≤ s.gamma (s.keep.get j) := by
    intro j
    have := List.get_mem s.keep j
    generalize s.keep.get j = k at this
    unfold Rvm.keep at this
    simpa using (List.mem_filter.1 this).2
  have hapos : ∀ j, 0 < s.gamma (s.keep.get j) / s.mu (s.keep.get j) ^ 2 := by
    intro j
    exact div_pos (lt_of_lt_of_le (by norm_num) (hg j)) (by have := hmu (s.keep.get j); positivity)
  have htr : ∑ j, s.gamma j < K := by
    have := trace_lt s.Phi s.alpha s.alpha0 hK h.a0 h.apos
    rw [← h.sigma] at this
    exact this
  have ha0 : 0 < (K - ∑ j, s.gamma j) / ((b - s.Phi.mulVec s.mu) ⬝ᵥ (b - s.Phi.mulVec s.mu)) :=
    div_pos (by linarith) (dot_self_pos hres)
  have hpost := posterior_ok (fun i j => s.Phi i (s.keep.get j) : Mat K s.keep.length)
    (fun j => s.gamma (s.keep.get j) / s.mu (s.keep.get j) ^ 2) _ inv hinv b ha0 hapos
  have hout : outOf s.gamma s.remaining = s.drop.map g := by
    have := h.dropped
    unfold Rvm.dropped at this
    unfold outOf
    rw [show dropOf s.gamma = s.drop from rfl, this]
    rfl
  rw [(hinv _ _).1 hC, h.dropped]
  simp only
  rw [hpost]
  unfold nextOf
  rw [hout]
  rfl

theorem cov_unit {A : Mat K card} {b : Vec K} {s : Rvm K card} {g : Fin s.r → Fin card} (h : s.Good A b g) : IsUnit s.C.det := by
  have hCeq : s.C = (1 / s.alpha0) • covScaled s.Phi s.alpha s.alpha0 := by
    unfold Rvm.C covScaled
    rw [smul_add, smul_smul, one_div_mul_cancel h.a0.ne', one_smul]
  rw [hCeq]
  exact ((covScaled_posDef s.Phi s.alpha s.alpha0 h.a0 h.apos).smul (one_div_pos.2 h.a0)).det_pos.ne'.isUnit

/-! ## Rotations of the data -/

/-- A state with the rows transformed by `Q`. -/
def Rvm.rot (Q : Mat K K) (s : Rvm K card) : Rvm K card := { s with Phi := Q * s.Phi }

section rot
variable {Q : Mat K K} (hQ : Qᵀ * Q = 1)
include hQ

theorem rot_gram {r : ℕ} (Phi : Mat K r) : (Q * Phi)ᵀ * (Q * Phi) = Phiᵀ * Phi := by
  rw [transpose_mul, Matrix.mul_assoc, ← Matrix.mul_assoc Qᵀ, hQ, Matrix.one_mul]

theorem rot_dot (v w : Vec K) : Q.mulVec v ⬝ᵥ Q.mulVec w = v ⬝ᵥ w := by
  rw [dotProduct_mulVec, vecMul_mulVec, hQ, Matrix.vecMul_one]

theorem rot_precision {r : ℕ} (Phi : Mat K r) (alpha : Vec r) (alpha0 : ℝ) : precision (Q * Phi) alpha alpha0 = precision Phi alpha alpha0 := by
  unfold precision
  rw [rot_gram hQ]

theorem rot_rhs {r m : ℕ} (S : Mat m r) (Phi : Mat K r) (b : Vec K) : (S * (Q * Phi)ᵀ).mulVec (Q.mulVec b) = (S * Phiᵀ).mulVec b := by
  rw [mulVec_mulVec, transpose_mul, Matrix.mul_assoc, Matrix.mul_assoc, hQ, Matrix.mul_one]

theorem rot_next {r : ℕ} (Phi : Mat K r) (γ μ : Vec r) (b : Vec K) (rem rest : List (Fin card)) (Ls : List ℝ) :
    nextOf (Q * Phi) γ μ (Q.mulVec b) rem rest Ls = (nextOf Phi γ μ b rem rest Ls).rot Q := by
  have e0 : Q.mulVec b - (Q * Phi).mulVec μ = Q.mulVec (b - Phi.mulVec μ) := by
    rw [mulVec_sub, mulVec_mulVec]
  have e1 : colsOf (keepOf γ) (Q * Phi) = Q * colsOf (keepOf γ) Phi := rfl
  unfold nextOf mkNext Rvm.rot
  simp only
  rw [e0, rot_dot hQ, e1, rot_precision hQ, rot_rhs hQ]

theorem rot_L (s : Rvm K card) (b : Vec K) (hC : IsUnit s.C.det) : (s.rot Q).L (Q.mulVec b) (s.rot Q).C⁻¹ = s.L b s.C⁻¹ := by
  have hQ' : Q * Qᵀ = 1 := mul_eq_one_comm.1 hQ
  have e1 : (s.rot Q).C = Q * s.C * Qᵀ := by
    unfold Rvm.C Rvm.rot
    simp only
    rw [Matrix.mul_add, Matrix.add_mul, transpose_mul, Matrix.mul_smul, Matrix.smul_mul, Matrix.mul_one, hQ']
    simp only [Matrix.mul_assoc]
  have e2 : (s.rot Q).C⁻¹ = Q * s.C⁻¹ * Qᵀ := by
    rw [e1]
    apply inv_eq_right_inv
    calc Q * s.C * Qᵀ * (Q * s.C⁻¹ * Qᵀ) = Q * s.C * (Qᵀ * Q) * s.C⁻¹ * Qᵀ := by simp only [Matrix.mul_assoc]
      _ = Q * (s.C * s.C⁻¹) * Qᵀ := by rw [hQ, Matrix.mul_one, Matrix.mul_assoc Q]
      _ = 1 := by rw [mul_nonsing_inv _ hC, Matrix.mul_one, hQ']
  have e3 : (s.rot Q).C.det = s.C.det := by
    rw [e1, det_mul_right_comm, hQ', Matrix.one_mul]
  unfold Rvm.L
  rw [e2, e3]
  congr 2
  rw [mulVec_mulVec, Matrix.mul_assoc, hQ, Matrix.mul_one, ← mulVec_mulVec, rot_dot hQ]

theorem rot_good {A : Mat K card} {b : Vec K} {s : Rvm K card} {g : Fin s.r → Fin card} (h : s.Good A b g) : (s.rot Q).Good (Q * A) (Q.mulVec b) g := by
  refine ⟨h.mono, h.rem, fun i j => ?_, h.part, h.a0, h.apos, ?_, ?_⟩
  · show (Q * s.Phi) i j = (Q * A) i (g j)
    have e1 : (Q * s.Phi) i j = ∑ k, Q i k * s.Phi k j := rfl
    have e2 : (Q * A) i (g j) = ∑ k, Q i k * A k (g j) := rfl
    exact e1.trans (Eq.trans (Finset.sum_congr rfl fun k _ => congrArg (Q i k * ·) (h.col k j)) e2.symm)
  · show s.Sigma = (precision (Q * s.Phi) s.alpha s.alpha0)⁻¹
    rw [rot_precision hQ, h.sigma]
  · show s.mu = s.alpha0 • ((precision (Q * s.Phi) s.alpha s.alpha0)⁻¹ * (Q * s.Phi)ᵀ).mulVec (Q.mulVec b)
    rw [rot_precision hQ, rot_rhs hQ, h.mu]

end rot

section rot
variable {Q : Mat K K} (hQ : Qᵀ * Q = 1)
include hQ

theorem rot_step (inv : Inv) (hinv : InvContract inv) {A : Mat K card} {b : Vec K} {s : Rvm K card} {g : Fin s.r → Fin card} (h : s.Good A b g) :
    (s.rot Q).step inv (Q.mulVec b) = omap (Rvm.rot Q) (s.step inv b) := by
  rw [step_cases inv hinv h, step_cases inv hinv (rot_good hQ h), rot_L hQ s b (cov_unit h)]
  have e0 : Q.mulVec b - (Q * s.Phi).mulVec s.mu = Q.mulVec (b - s.Phi.mulVec s.mu) := by
    rw [mulVec_sub, mulVec_mulVec]
  have e1 : Q.mulVec b - (s.rot Q).Phi.mulVec (s.rot Q).mu = 0 ↔ b - s.Phi.mulVec s.mu = 0 := by
    show Q.mulVec b - (Q * s.Phi).mulVec s.mu = 0 ↔ _
    rw [e0]
    constructor
    · intro h0
      have := congrArg (Qᵀ.mulVec) h0
      rwa [mulVec_mulVec, hQ, one_mulVec, mulVec_zero] at this
    · intro h0
      rw [h0, mulVec_zero]
  have e2 : (∃ j, (s.rot Q).mu j = 0) ↔ ∃ j, s.mu j = 0 := Iff.rfl
  by_cases hz : (∃ j, s.mu j = 0) ∨ b - s.Phi.mulVec s.mu = 0
  · rw [if_pos hz, if_pos (hz.imp e2.2 e1.2)]
    rfl
  · rw [if_neg hz, if_neg (mt (Or.imp e2.1 e1.1) hz)]
    show _ = some (Except.ok _)
    rw [← rot_next hQ]
    rfl

theorem rot_loop (inv : Inv) (hinv : InvContract inv) {A : Mat K card} {b : Vec K} (n : ℕ) : ∀ (s : Rvm K card) (g : Fin s.r → Fin card), s.Good A b g →
    (s.rot Q).loop inv (Q.mulVec b) n = omap (Rvm.rot Q) (s.loop inv b n) := by
  induction n with
  | zero => intro s g _; rfl
  | succ n ih =>
    intro s g h
    unfold Rvm.loop
    rw [rot_step hQ inv hinv h]
    rcases Rvm.step_good inv hinv h with h1 | ⟨s', g', h1, h2⟩
    · rw [h1]; rfl
    · rw [h1]
      show (if (s'.rot Q).stop then some (Except.ok (s'.rot Q)) else (s'.rot Q).loop inv (Q.mulVec b) n) = omap (Rvm.rot Q) (if s'.stop then _ else _)
      rw [show (s'.rot Q).stop = s'.stop from rfl, ih s' g' h2]
      split_ifs <;> rfl

theorem rot_init (inv : Inv) (hinv : InvContract inv) (A : Mat K card) (b : Vec K) (s : Rvm K card) (h : Rvm.init inv A b = .ok s) :
    Rvm.init inv (Q * A) (Q.mulVec b) = .ok (s.rot Q) := by
  unfold Rvm.init at h ⊢
  rw [posterior_ok A 1 1 inv hinv b one_pos fun _ => one_pos] at h
  rw [posterior_ok (Q * A) 1 1 inv hinv _ one_pos fun _ => one_pos, rot_precision hQ, rot_rhs hQ]
  obtain rfl := Except.ok.inj h
  rfl

end rot

/-! ## The sign of the outputs -/

/-- A state with the sign of the coefficients changed. -/
def Rvm.neg (s : Rvm K card) : Rvm K card := { s with mu := -s.mu }

theorem neg_next {r : ℕ} (Phi : Mat K r) (γ μ : Vec r) (b : Vec K) (rem rest : List (Fin card)) (Ls : List ℝ) :
    nextOf Phi γ (-μ) (-b) rem rest Ls = (nextOf Phi γ μ b rem rest Ls).neg := by
  have e0 : -b - Phi.mulVec (-μ) = -(b - Phi.mulVec μ) := by
    rw [mulVec_neg]; abel
  unfold nextOf mkNext Rvm.neg
  simp only
  rw [e0]
  simp only [neg_dotProduct, dotProduct_neg, neg_neg, Pi.neg_apply, neg_sq, mulVec_neg, smul_neg]

theorem neg_good {A : Mat K card} {b : Vec K} {s : Rvm K card} {g : Fin s.r → Fin card} (h : s.Good A b g) : s.neg.Good A (-b) g := by
  refine ⟨h.mono, h.rem, h.col, h.part, h.a0, h.apos, h.sigma, ?_⟩
  show -s.mu = s.alpha0 • ((precision s.Phi s.alpha s.alpha0)⁻¹ * s.Phiᵀ).mulVec (-b)
  rw [mulVec_neg, smul_neg, ← h.mu]

theorem neg_L (s : Rvm K card) (b : Vec K) : s.neg.L (-b) s.neg.C⁻¹ = s.L b s.C⁻¹ := by
  show s.L (-b) s.C⁻¹ = s.L b s.C⁻¹
  unfold Rvm.L
  rw [mulVec_neg, neg_dotProduct, dotProduct_neg, neg_neg]

theorem neg_step (inv : Inv) (hinv : InvContract inv) {A : Mat K card} {b : Vec K} {s : Rvm K card} {g : Fin s.r → Fin card} (h : s.Good A b g) :
    s.neg.step inv (-b) = omap Rvm.neg (s.step inv b) := by
  rw [step_cases inv hinv h, step_cases inv hinv (neg_good h), neg_L]
  have e1 : -b - s.neg.Phi.mulVec s.neg.mu = 0 ↔ b - s.Phi.mulVec s.mu = 0 := by
    show -b - s.Phi.mulVec (-s.mu) = 0 ↔ _
    rw [mulVec_neg, ← neg_eq_zero]
    constructor <;> intro h0 <;> rw [← h0] <;> abel
  have e2 : (∃ j, s.neg.mu j = 0) ↔ ∃ j, s.mu j = 0 := exists_congr fun j => neg_eq_zero
  by_cases hz : (∃ j, s.mu j = 0) ∨ b - s.Phi.mulVec s.mu = 0
  · rw [if_pos hz, if_pos (hz.imp e2.2 e1.2)]
    rfl
  · rw [if_neg hz, if_neg (mt (Or.imp e2.1 e1.1) hz)]
    show _ = some (Except.ok _)
    rw [← neg_next]
    rfl

theorem neg_loop (inv : Inv) (hinv : InvContract inv) {A : Mat K card} {b : Vec K} (n : ℕ) : ∀ (s : Rvm K card) (g : Fin s.r → Fin card), s.Good A b g →
    s.neg.loop inv (-b) n = omap Rvm.neg (s.loop inv b n) := by
  induction n with
  | zero => intro s g _; rfl
  | succ n ih =>
    intro s g h
    unfold Rvm.loop
    rw [neg_step inv hinv h]
    rcases Rvm.step_good inv hinv h with h1 | ⟨s', g', h1, h2⟩
    · rw [h1]; rfl
    · rw [h1]
      show (if s'.neg.stop then some (Except.ok s'.neg) else s'.neg.loop inv (-b) n) = omap Rvm.neg (if s'.stop then _ else _)
      rw [show s'.neg.stop = s'.stop from rfl, ih s' g' h2]
      split_ifs <;> rfl

/-! ## The units of the outputs -/

/-- Two states with the same columns and `gamma`, of which the coefficients differ by the factor `c`. -/
def Like (c : ℝ) (s s' : Rvm K card) : Prop := ∃ (a : Vec s.r) (a0 : ℝ) (S : Mat s.r s.r) (Ls : List ℝ),
  s' = ⟨s.r, s.Phi, a, a0, S, c • s.mu, s.remaining, s.removed, Ls⟩ ∧ ∀ j, a j * S j j = s.alpha j * s.Sigma j j

theorem inv_factor {r : ℕ} (k : ℝ) (hk : k ≠ 0) (M : Mat r r) : (k⁻¹ • M)⁻¹ = k • M⁻¹ := by
  by_cases h : IsUnit M.det
  · apply inv_eq_right_inv
    rw [Matrix.smul_mul, Matrix.mul_smul, smul_smul, inv_mul_cancel₀ hk, one_smul, mul_nonsing_inv _ h]
  · have h' : ¬IsUnit (k⁻¹ • M).det := by
      rw [det_smul]
      intro h0
      exact h (isUnit_of_mul_isUnit_right h0)
    rw [nonsing_inv_apply_not_isUnit _ h, nonsing_inv_apply_not_isUnit _ h', smul_zero]

theorem scale_next (c : ℝ) (hc : c ≠ 0) {r : ℕ} (Phi : Mat K r) (γ μ : Vec r) (b : Vec K) (rem rest : List (Fin card)) (Ls Ls' : List ℝ) :
    Like c (nextOf Phi γ μ b rem rest Ls) (nextOf Phi γ (c • μ) (c • b) rem rest Ls') := by
  have hc2 : c ^ 2 ≠ 0 := pow_ne_zero 2 hc
  set keep := keepOf γ with hk
  set Phi' := colsOf keep Phi with hP
  set α : Vec keep.length := fun j => γ (keep.get j) / μ (keep.get j) ^ 2 with hα
  set α0 : ℝ := (K - ∑ j, γ j) / ((b - Phi.mulVec μ) ⬝ᵥ (b - Phi.mulVec μ)) with hα0
  have e0 : c • b - Phi.mulVec (c • μ) = c • (b - Phi.mulVec μ) := by
    rw [mulVec_smul, smul_sub]
  have e1 : (fun j => γ (keep.get j) / (c • μ) (keep.get j) ^ 2 : Vec keep.length) = (c ^ 2)⁻¹ • α := by
    funext j
    simp only [hα, Pi.smul_apply, smul_eq_mul, mul_pow]
    rw [div_eq_mul_inv, mul_inv, div_eq_mul_inv]
    ring
  have e2 : (K - ∑ j, γ j) / ((c • b - Phi.mulVec (c • μ)) ⬝ᵥ (c • b - Phi.mulVec (c • μ))) = (c ^ 2)⁻¹ * α0 := by
    rw [e0, smul_dotProduct, dotProduct_smul, hα0, smul_eq_mul, smul_eq_mul, ← mul_assoc, ← pow_two, div_eq_mul_inv, mul_inv, div_eq_mul_inv]
    ring
  have e3 : precision Phi' ((c ^ 2)⁻¹ • α) ((c ^ 2)⁻¹ * α0) = (c ^ 2)⁻¹ • precision Phi' α α0 := by
    unfold precision
    rw [smul_add, smul_smul, diagonal_smul]
  refine ⟨(c ^ 2)⁻¹ • α, (c ^ 2)⁻¹ * α0, c ^ 2 • (precision Phi' α α0)⁻¹, Ls', ?_, fun j => ?_⟩
  · unfold nextOf mkNext
    simp only
    rw [e1, e2, e3, inv_factor _ hc2]
    congr 1
    rw [Matrix.smul_mul, smul_mulVec, mulVec_smul, smul_smul, smul_smul, smul_smul]
    congr 1
    field_simp
    exact hα0
  · show (c ^ 2)⁻¹ * α j * (c ^ 2 * (precision Phi' α α0)⁻¹ j j) = α j * (precision Phi' α α0)⁻¹ j j
    field_simp

theorem like_step (inv : Inv) (hinv : InvContract inv) {A : Mat K card} {b : Vec K} (c : ℝ) (hc : c ≠ 0) {s s' : Rvm K card} {g : Fin s.r → Fin card}
    {g' : Fin s'.r → Fin card} (h : s.Good A b g) (h' : s'.Good A (c • b) g') (hl : Like c s s') :
    (s.step inv b = none ∧ s'.step inv (c • b) = none) ∨ ∃ t t' k k', s.step inv b = some (.ok t) ∧ s'.step inv (c • b) = some (.ok t') ∧ t.Good A b k ∧ t'.Good A (c • b) k' ∧ Like c t t' := by
  have q := step_cases inv hinv h
  have q' := step_cases inv hinv h'
  have r := Rvm.step_good inv hinv h
  have r' := Rvm.step_good inv hinv h'
  obtain ⟨a, a0, S, Ls, rfl, hg⟩ := hl
  set s' : Rvm K card := ⟨s.r, s.Phi, a, a0, S, c • s.mu, s.remaining, s.removed, Ls⟩ with hs'
  have e0 : c • b - s.Phi.mulVec (c • s.mu) = c • (b - s.Phi.mulVec s.mu) := by
    rw [mulVec_smul, smul_sub]
  have e1 : c • b - s'.Phi.mulVec s'.mu = 0 ↔ b - s.Phi.mulVec s.mu = 0 := by
    show c • b - s.Phi.mulVec (c • s.mu) = 0 ↔ _
    rw [e0, smul_eq_zero]
    exact or_iff_right hc
  have e2 : (∃ j, s'.mu j = 0) ↔ ∃ j, s.mu j = 0 := exists_congr fun j => by
    show c * s.mu j = 0 ↔ _
    rw [mul_eq_zero]
    exact or_iff_right hc
  have e3 : s'.gamma = s.gamma := by
    funext j
    show 1 - a j * S j j = 1 - s.alpha j * s.Sigma j j
    rw [hg]
  by_cases hz : (∃ j, s.mu j = 0) ∨ b - s.Phi.mulVec s.mu = 0
  · rw [if_pos hz] at q
    rw [if_pos (hz.imp e2.2 e1.2)] at q'
    exact .inl ⟨q, q'⟩
  · rw [if_neg hz] at q
    rw [if_neg (mt (Or.imp e2.1 e1.1) hz), e3] at q'
    right
    rcases r with r | ⟨t, k, r, ht⟩
    · rw [r] at q; exact absurd q (by simp)
    rcases r' with r' | ⟨t', k', r', ht'⟩
    · rw [r'] at q'; exact absurd q' (by simp)
    refine ⟨t, t', k, k', r, r', ht, ht', ?_⟩
    rw [r] at q
    rw [r'] at q'
    rw [Except.ok.inj (Option.some.inj q), Except.ok.inj (Option.some.inj q')]
    exact scale_next c hc _ _ _ _ _ _ _ _

theorem like_passes (inv : Inv) (hinv : InvContract inv) {A : Mat K card} {b : Vec K} (c : ℝ) (hc : c ≠ 0) (n : ℕ) : ∀ (s s' : Rvm K card) (g : Fin s.r → Fin card)
    (g' : Fin s'.r → Fin card), s.Good A b g → s'.Good A (c • b) g' → Like c s s' →
    (s.passes inv b n = none ∧ s'.passes inv (c • b) n = none) ∨ ∃ t t', s.passes inv b n = some (.ok t) ∧ s'.passes inv (c • b) n = some (.ok t') ∧ Like c t t' := by
  induction n with
  | zero => intro s s' _ _ _ _ hl; exact .inr ⟨s, s', rfl, rfl, hl⟩
  | succ n ih =>
    intro s s' g g' h h' hl
    unfold Rvm.passes
    rcases like_step inv hinv c hc h h' hl with ⟨h1, h2⟩ | ⟨t, t', k, k', h1, h2, h3, h4, h5⟩
    · rw [h1, h2]; exact .inl ⟨rfl, rfl⟩
    · rw [h1, h2]
      exact ih t t' k k' h3 h4 h5

theorem lookup_smul (c : ℝ) (i : Fin card) : ∀ (l : List (Fin card)) (m : List ℝ), ((l.zip (m.map fun x => c * x)).lookup i).getD 0 = c * ((l.zip m).lookup i).getD 0 := by
  intro l
  induction l with
  | nil => simp
  | cons a l ih =>
    intro m
    cases m with
    | nil => simp
    | cons x m =>
      simp only [List.map_cons, List.zip_cons_cons, List.lookup_cons]
      cases i == a
      · exact ih m
      · rfl

theorem like_scatter (c : ℝ) {s s' : Rvm K card} (hl : Like c s s') : some s'.scatter = omap (c • ·) (some s.scatter) := by
  obtain ⟨a, a0, S, Ls, rfl, -⟩ := hl
  unfold Rvm.scatter
  simp only
  split_ifs with h
  · show some (Except.ok _) = some (Except.ok _)
    congr 2
    funext i
    have : List.ofFn (c • s.mu) = (List.ofFn s.mu).map fun x => c * x := by
      rw [List.map_ofFn]; rfl
    rw [this]
    exact lookup_smul c i _ _
  · rfl

/-- The loop makes some number of passes: at least three, unless the limit is reached before. -/
theorem loop_passes (inv : Inv) (b : Vec K) (n : ℕ) : ∀ s : Rvm K card, ∃ m ≤ n, min (3 - s.allL.length) n ≤ m ∧ s.loop inv b n = s.passes inv b m := by
  induction n with
  | zero => intro s; exact ⟨0, le_rfl, by simp, rfl⟩
  | succ n ih =>
    intro s
    unfold Rvm.loop
    cases hs : s.step inv b with
    | none =>
      refine ⟨n + 1, le_rfl, min_le_right _ _, ?_⟩
      simp only [Rvm.passes, hs]
    | some o =>
      cases o with
      | error e =>
        refine ⟨n + 1, le_rfl, min_le_right _ _, ?_⟩
        simp only [Rvm.passes, hs]
      | ok s' =>
        have hlen : s'.allL.length = s.allL.length + 1 := by
          unfold Rvm.step at hs
          split_ifs at hs
          have hs := Option.some.inj hs
          split at hs
          · simp at hs
          split at hs
          · simp at hs
          simp only at hs
          split at hs
          · simp at hs
          rw [← Except.ok.inj hs]
          simp
        by_cases hst : s'.stop
        · refine ⟨1, by omega, ?_, ?_⟩
          · have h3 : 3 ≤ s'.allL.length := by
              by_contra hlt
              unfold Rvm.stop at hst
              match hL : s'.allL with
              | [] => rw [hL] at hst; simp at hst
              | [x] => rw [hL] at hst; simp at hst
              | [x, y] =>
                rw [hL] at hst
                simp at hst
                obtain ⟨h1, h2⟩ := hst
                rw [div_self h1, abs_one] at h2
                norm_num at h2
              | x :: y :: z :: l => rw [hL] at hlt; simp at hlt
            have : 3 - s.allL.length ≤ 1 := by omega
            exact (min_le_left _ _).trans this
          · simp only [Rvm.passes, hs, hst, if_true]
        · obtain ⟨m, h1, h2, h3⟩ := ih s'
          refine ⟨m + 1, by omega, ?_, ?_⟩
          · rw [hlen] at h2
            have := min_le_iff.1 h2
            rw [min_le_iff]
            omega
          · simp only [Rvm.passes, hs, hst]
            simpa using h3

/-! ## A run with one column -/

/-- The column `(1, 0)`. -/
def oneCol : Mat 2 1 := fun i _ => ![1, 0] i

/-- The matrix with one entry. -/
def cell (x : ℝ) : Mat 1 1 := fun _ _ => x

/-- The state with this column. -/
noncomputable def one (a a0 b1 : ℝ) (Ls : List ℝ) : Rvm 2 1 := ⟨1, oneCol, fun _ => a, a0, cell (1 / (a0 + a)), fun _ => a0 / (a0 + a) * b1, [0], [], Ls⟩

/-- The value appended to `all_L`. -/
noncomputable def oneL (a a0 b1 b2 : ℝ) : ℝ :=
  -(1 / 2) * ((2 : ℕ) * Real.log (2 * Real.pi) + Real.log ((1 / a0 + 1 / a) * (1 / a0)) + (b1 ^ 2 / (1 / a0 + 1 / a) + b2 ^ 2 * a0))

theorem one_precision (a a0 : ℝ) : precision oneCol (fun _ => a) a0 = cell (a0 + a) := by
  ext i j
  obtain rfl := Subsingleton.elim i 0
  obtain rfl := Subsingleton.elim j 0
  simp [precision, oneCol, cell, mul_apply, Fin.sum_univ_two]

theorem one_inv (x : ℝ) (hx : x ≠ 0) : (cell x)⁻¹ = cell (1 / x) := by
  apply inv_eq_right_inv
  ext i j
  obtain rfl := Subsingleton.elim i 0
  obtain rfl := Subsingleton.elim j 0
  simp [mul_apply, cell, hx]

theorem one_mu (a a0 b1 b2 : ℝ) : a0 • (cell (1 / (a0 + a)) * oneColᵀ).mulVec ![b1, b2] = fun _ => a0 / (a0 + a) * b1 := by
  ext i
  obtain rfl := Subsingleton.elim i 0
  simp only [Pi.smul_apply, mulVec, dotProduct, mul_apply, transpose_apply, Fin.sum_univ_one, Fin.sum_univ_two, oneCol, cell, smul_eq_mul]
  simp
  ring

theorem one_good (a a0 b1 b2 : ℝ) (Ls : List ℝ) (ha : 0 < a) (h0 : 0 < a0) : (one a a0 b1 Ls).Good oneCol ![b1, b2] id := by
  have hp := one_precision a a0
  have hi := one_inv (a0 + a) (by positivity)
  refine ⟨strictMono_id, rfl, fun _ _ => rfl, ?_, h0, fun _ => ha, ?_, ?_⟩
  · exact List.Perm.refl _
  · show cell (1 / (a0 + a)) = (precision oneCol (fun _ => a) a0)⁻¹
    rw [hp, hi]
  · show (fun _ => a0 / (a0 + a) * b1) = a0 • ((precision oneCol (fun _ => a) a0)⁻¹ * oneColᵀ).mulVec ![b1, b2]
    rw [hp, hi, one_mu]

theorem one_init (inv : Inv) (hinv : InvContract inv) (b1 b2 : ℝ) : Rvm.init inv oneCol ![b1, b2] = .ok (one 1 1 b1 []) := by
  have hp := one_precision 1 1
  unfold Rvm.init
  rw [posterior_ok oneCol 1 1 inv hinv _ one_pos fun _ => one_pos]
  rw [show (1 : Vec 1) = fun _ => 1 from rfl, hp, one_inv _ (by norm_num), one_mu]
  rfl

theorem one_value (a a0 b1 b2 : ℝ) (Ls : List ℝ) (ha : 0 < a) (h0 : 0 < a0) : (one a a0 b1 Ls).L ![b1, b2] (one a a0 b1 Ls).C⁻¹ = oneL a a0 b1 b2 := by
  have hC : (one a a0 b1 Ls).C = !![1 / a0 + 1 / a, 0; 0, 1 / a0] := by
    show (1 / a0) • (1 : Mat 2 2) + oneCol * (diagonal (fun _ => 1 / a) : Mat 1 1) * oneColᵀ = _
    ext i j
    rw [Matrix.add_apply, mul_apply]
    simp only [mul_diagonal, transpose_apply, Fin.sum_univ_one, oneCol, Matrix.smul_apply, one_apply]
    fin_cases i <;> fin_cases j <;> simp
  have hI : (one a a0 b1 Ls).C⁻¹ = !![1 / (1 / a0 + 1 / a), 0; 0, a0] := by
    rw [hC]
    apply inv_eq_right_inv
    have : 1 / a0 + 1 / a ≠ 0 := by positivity
    ext i j
    fin_cases i <;> fin_cases j <;> simp [mul_apply, Fin.sum_univ_two]
    · rw [← one_div, ← one_div]; exact mul_inv_cancel₀ this
    · exact inv_mul_cancel₀ h0.ne'
  unfold Rvm.L oneL
  rw [hI, hC, det_fin_two]
  have hpos : 0 ≤ (1 / a0 + 1 / a) * (1 / a0) := by positivity
  congr 2
  · congr 2
    simp only [of_apply, cons_val', cons_val_zero, cons_val_fin_one, cons_val_one, mul_zero, sub_zero]
    exact abs_of_nonneg hpos
  · simp only [mulVec, dotProduct, Fin.sum_univ_two]
    simp
    ring

/-- One pass. -/
theorem one_step (inv : Inv) (hinv : InvContract inv) (a a0 b1 b2 a' a0' : ℝ) (Ls : List ℝ) (ha : 0 < a) (h0 : 0 < a0) (hb1 : b1 ≠ 0) (hb2 : b2 ≠ 0) (hγ : a ≤ a0)
    (ha' : a' = (a0 + a) / (a0 * b1 ^ 2)) (ha0' : a0' = (2 - a0 / (a0 + a)) / ((a / (a0 + a) * b1) ^ 2 + b2 ^ 2)) :
    (one a a0 b1 Ls).step inv ![b1, b2] = some (.ok (one a' a0' b1 (Ls ++ [oneL a a0 b1 b2]))) := by
  have hs : 0 < a0 + a := by positivity
  have hres : ![b1, b2] - oneCol.mulVec (fun _ => a0 / (a0 + a) * b1) = ![a / (a0 + a) * b1, b2] := by
    ext i
    simp only [Pi.sub_apply, mulVec, dotProduct, Fin.sum_univ_one, oneCol]
    fin_cases i
    · simp
      field_simp
      ring
    · simp
  have hgam : (one a a0 b1 Ls).gamma = fun _ => a0 / (a0 + a) := by
    funext j
    show 1 - a * (1 / (a0 + a)) = _
    field_simp
    ring
  have hpos' : 0 < a' := by rw [ha']; positivity
  have hpos0 : 0 < a0' := by
    rw [ha0']
    have : a0 / (a0 + a) ≤ 1 := (div_le_one hs).2 (by linarith)
    refine div_pos (by linarith) (by positivity)
  rw [step_cases inv hinv (one_good a a0 b1 b2 Ls ha h0), if_neg, one_value a a0 b1 b2 Ls ha h0, hgam]
  · congr 2
    have hge : (1e-10 : ℝ) ≤ a0 / (a0 + a) := by
      rw [le_div_iff₀ hs]
      norm_num
      linarith
    have hk : keepOf (fun _ : Fin 1 => a0 / (a0 + a)) = [0] := by
      unfold keepOf
      rw [List.filter_eq_self.2 fun j _ => by simpa using hge]
      rfl
    have hd : dropOf (fun _ : Fin 1 => a0 / (a0 + a)) = [] := by
      unfold dropOf
      rw [List.filter_eq_nil_iff.2 fun j _ => by simpa using hge]
    have ho : outOf (fun _ : Fin 1 => a0 / (a0 + a)) ([0] : List (Fin 1)) = [] := by
      unfold outOf
      rw [hd]
      rfl
    show nextOf oneCol (fun _ : Fin 1 => a0 / (a0 + a)) (fun _ => a0 / (a0 + a) * b1) ![b1, b2] [0] [] (Ls ++ [oneL a a0 b1 b2]) = _
    unfold nextOf
    rw [hk, ho]
    unfold mkNext
    simp only
    rw [hres]
    have e1 : (fun _ => a0 / (a0 + a) / (a0 / (a0 + a) * b1) ^ 2 : Vec 1) = fun _ => a' := by
      funext _
      rw [ha']
      field_simp
    have e2 : (((2 : ℕ) : ℝ) - ∑ _j : Fin 1, a0 / (a0 + a)) / (![a / (a0 + a) * b1, b2] ⬝ᵥ ![a / (a0 + a) * b1, b2]) = a0' := by
      rw [ha0', dotProduct, Fin.sum_univ_two, Fin.sum_univ_one]
      simp
      ring
    have e3 : colsOf [0] oneCol = oneCol := rfl
    show (⟨1, oneCol, (fun _ => a0 / (a0 + a) / (a0 / (a0 + a) * b1) ^ 2 : Vec 1), (((2 : ℕ) : ℝ) - ∑ _j : Fin 1, a0 / (a0 + a)) / (![a / (a0 + a) * b1, b2] ⬝ᵥ ![a / (a0 + a) * b1, b2]),
      (precision oneCol (fun _ => a0 / (a0 + a) / (a0 / (a0 + a) * b1) ^ 2 : Vec 1) ((((2 : ℕ) : ℝ) - ∑ _j : Fin 1, a0 / (a0 + a)) / (![a / (a0 + a) * b1, b2] ⬝ᵥ ![a / (a0 + a) * b1, b2])))⁻¹,
      ((((2 : ℕ) : ℝ) - ∑ _j : Fin 1, a0 / (a0 + a)) / (![a / (a0 + a) * b1, b2] ⬝ᵥ ![a / (a0 + a) * b1, b2])) •
        ((precision oneCol (fun _ => a0 / (a0 + a) / (a0 / (a0 + a) * b1) ^ 2 : Vec 1) ((((2 : ℕ) : ℝ) - ∑ _j : Fin 1, a0 / (a0 + a)) / (![a / (a0 + a) * b1, b2] ⬝ᵥ ![a / (a0 + a) * b1, b2])))⁻¹ * oneColᵀ).mulVec ![b1, b2],
      _, _, _⟩ : Rvm 2 1) = _
    rw [e1, e2, one_precision, one_inv _ (by positivity), one_mu]
    unfold one
    congr 1
    simp [Rvm.setdiff1d]
  · rintro (⟨j, hj⟩ | h)
    · have hj : a0 / (a0 + a) * b1 = 0 := hj
      exact absurd hj (by positivity)
    · have h : ![b1, b2] - oneCol.mulVec (fun _ => a0 / (a0 + a) * b1) = 0 := h
      rw [hres] at h
      exact hb2 (congrFun h 1)

theorem one_scatter (a a0 b1 : ℝ) (Ls : List ℝ) : (one a a0 b1 Ls).scatter = .ok fun _ => a0 / (a0 + a) * b1 := by
  unfold Rvm.scatter
  rw [if_pos (show (one a a0 b1 Ls).remaining.length = (one a a0 b1 Ls).r from rfl)]
  congr 1
  funext i
  obtain rfl := Subsingleton.elim i 0
  simp [one]

theorem one_stop (a a0 b1 x y z : ℝ) : (one a a0 b1 [x, y, z]).stop = decide (z - x ≠ 0 ∧ |(z - y) / (z - x)| < 1e-3) := rfl

theorem one_stop2 (a a0 b1 x y : ℝ) : (one a a0 b1 [x, y]).stop = false := by
  show decide (y - x ≠ 0 ∧ |(y - x) / (y - x)| < 1e-3) = false
  rw [decide_eq_false_iff_not]
  rintro ⟨h1, h2⟩
  rw [div_self h1, abs_one] at h2
  norm_num at h2

/-! ## Theorems -/

/-- **C215, order of the samples.** For all samples, rotations of the rows of the system do not change what the relevance vector machine returns (or the way in which it fails). -/
theorem c215_rotation (inv : Inv) (hinv : InvContract inv) (Q : Mat K K) (hQ : Qᵀ * Q = 1) (A : Mat K card) (b : Vec K) (maxIter : Option ℕ) :
    rvm1d inv (Q * A) (Q.mulVec b) maxIter = rvm1d inv A b maxIter := by
  obtain ⟨s, g, h1, h2⟩ := Rvm.init_good inv hinv A b
  unfold rvm1d
  rw [h1, rot_init hQ inv hinv A b s h1]
  simp only
  rw [rot_loop hQ inv hinv _ s g h2]
  rcases Rvm.loop_good inv hinv A b (maxIter.getD 1000) s g h2 with h3 | ⟨s', g', h3, -⟩ <;> rw [h3] <;> rfl

/-- **C215, order of the samples.** Listing the samples in another order does not change what the relevance vector machine returns. -/
theorem c215_order (inv : Inv) (hinv : InvContract inv) (σ : Equiv.Perm (Fin K)) (A : Mat K card) (b : Vec K) (maxIter : Option ℕ) :
    rvm1d inv (fun i j => A (σ i) j) (fun i => b (σ i)) maxIter = rvm1d inv A b maxIter := by
  have hQ : (σ.permMatrix ℝ)ᵀ * σ.permMatrix ℝ = 1 := by
    rw [transpose_permMatrix, ← permMatrix_mul]
    simp
  have := c215_rotation inv hinv (σ.permMatrix ℝ) hQ A b maxIter
  rw [← this]
  congr 1
  · ext i j
    simp [Equiv.Perm.permMatrix, PEquiv.toMatrix_toPEquiv_mul]
  · funext i
    simp [permMatrix_mulVec]

/-- **C215, sign of the outputs.** Changing the sign of all outputs changes the sign of all coefficients. -/
theorem c215_sign (inv : Inv) (hinv : InvContract inv) (A : Mat K card) (b : Vec K) (maxIter : Option ℕ) :
    rvm1d inv A (-b) maxIter = omap (fun x => -x) (rvm1d inv A b maxIter) := by
  obtain ⟨s, g, h1, h2⟩ := Rvm.init_good inv hinv A b
  have h1' : Rvm.init inv A (-b) = .ok s.neg := by
    unfold Rvm.init at h1 ⊢
    rw [posterior_ok A 1 1 inv hinv b one_pos fun _ => one_pos] at h1
    rw [posterior_ok A 1 1 inv hinv _ one_pos fun _ => one_pos, mulVec_neg, smul_neg]
    obtain rfl := Except.ok.inj h1
    rfl
  unfold rvm1d
  rw [h1, h1']
  simp only
  by_cases hm : maxIter.getD 1000 = 0
  · rw [if_pos hm, if_pos hm]; rfl
  rw [if_neg hm, if_neg hm, neg_loop inv hinv _ s g h2]
  rcases Rvm.loop_good inv hinv A b (maxIter.getD 1000) s g h2 with h3 | ⟨s', g', h3, h4⟩
  · rw [h3]; rfl
  rw [h3]
  show some s'.neg.scatter = omap (fun x => -x) (some s'.scatter)
  have hl : Like (-1) s' s'.neg := ⟨s'.alpha, s'.alpha0, s'.Sigma, s'.allL, by unfold Rvm.neg; rw [neg_one_smul], fun _ => rfl⟩
  rw [like_scatter (-1) hl]
  simp only [neg_one_smul]

/-- **C215, units of the outputs.** The coefficients after any given number of passes follow the units of the outputs: multiplying all outputs by `c` multiplies them by `c`. -/
theorem c215_units_partial (inv : Inv) (hinv : InvContract inv) (A : Mat K card) (b : Vec K) (c : ℝ) (hc : c ≠ 0) (n : ℕ) :
    fitAfter inv A (c • b) n = omap (c • ·) (fitAfter inv A b n) := by
  obtain ⟨s, g, h1, h2⟩ := Rvm.init_good inv hinv A b
  obtain ⟨s', g', h1', h2'⟩ := Rvm.init_good inv hinv A (c • b)
  have hl : Like c s s' := by
    unfold Rvm.init at h1 h1'
    rw [posterior_ok A 1 1 inv hinv _ one_pos fun _ => one_pos] at h1 h1'
    obtain rfl := Except.ok.inj h1
    obtain rfl := Except.ok.inj h1'
    exact ⟨_, _, _, _, by rw [mulVec_smul, smul_comm], fun _ => rfl⟩
  unfold fitAfter
  rw [h1, h1']
  simp only
  rcases like_passes inv hinv c hc n s s' g g' h2 h2' hl with ⟨h3, h4⟩ | ⟨t, t', h3, h4, h5⟩
  · rw [h3, h4]; rfl
  · rw [h3, h4]
    exact like_scatter c h5

/-- **C215, number of passes.** What is returned are the coefficients after some number of passes, at most `max_iter` and at least three unless `max_iter` is less. -/
theorem c215_passes (inv : Inv) (hinv : InvContract inv) (A : Mat K card) (b : Vec K) (m : ℕ) (hm : m ≠ 0) :
    ∃ n ≤ m, min 3 m ≤ n ∧ rvm1d inv A b (some m) = fitAfter inv A b n := by
  obtain ⟨s, g, h1, h2⟩ := Rvm.init_good inv hinv A b
  have hL : s.allL = [] := by
    unfold Rvm.init at h1
    rw [posterior_ok A 1 1 inv hinv _ one_pos fun _ => one_pos] at h1
    rw [← Except.ok.inj h1]
  obtain ⟨n, h3, h4, h5⟩ := loop_passes inv b m s
  refine ⟨n, h3, by simpa [hL] using h4, ?_⟩
  unfold rvm1d fitAfter
  rw [h1]
  simp only [Option.getD_some]
  rw [if_neg hm, h5]
  rcases s.passes inv b n with _ | (_ | _) <;> rfl

/-- **C215, violated.** The number of passes depends on the units: the first value of the likelihood belongs to the fixed starting weights and does not follow the units, and the stopping test divides by the
distance from it. With the column `(1, 0)` and at most four passes, the outputs `(2, 1)` get four passes and the outputs `(20, 10)` three: the second coefficient is not ten times the first. -/
theorem c215_units_violated (inv : Inv) (hinv : InvContract inv) : ∃ x y : Vec 1, rvm1d inv oneCol ![2, 1] (some 4) = some (.ok x) ∧
    rvm1d inv oneCol ((10 : ℝ) • ![2, 1]) (some 4) = some (.ok y) ∧ y ≠ (10 : ℝ) • x := by
  obtain ⟨a4, ha4⟩ : ∃ a, a = ((20750/22349 : ℝ) + 125/336) / (20750/22349 * 2 ^ 2) := ⟨_, rfl⟩
  obtain ⟨c4, hc4⟩ : ∃ a, a = (2 - (20750/22349 : ℝ) / (20750/22349 + 125/336)) / ((125/336 / (20750/22349 + 125/336) * 2) ^ 2 + 1 ^ 2) := ⟨_, rfl⟩
  have s1 := fun Ls => one_step inv hinv 1 1 2 1 (1/2) (3/4) Ls (by norm_num) (by norm_num) (by norm_num) (by norm_num) (by norm_num) (by norm_num) (by norm_num)
  have s2 := fun Ls => one_step inv hinv (1/2) (3/4) 2 1 (5/12) (35/41) Ls (by norm_num) (by norm_num) (by norm_num) (by norm_num) (by norm_num) (by norm_num) (by norm_num)
  have s3 := fun Ls => one_step inv hinv (5/12) (35/41) 2 1 (125/336) (20750/22349) Ls (by norm_num) (by norm_num) (by norm_num) (by norm_num) (by norm_num) (by norm_num) (by norm_num)
  have s4 := fun Ls => one_step inv hinv (125/336) (20750/22349) 2 1 a4 c4 Ls (by norm_num) (by norm_num) (by norm_num) (by norm_num) (by norm_num) ha4 hc4
  have t1 := fun Ls => one_step inv hinv 1 1 20 10 (1/200) (3/400) Ls (by norm_num) (by norm_num) (by norm_num) (by norm_num) (by norm_num) (by norm_num) (by norm_num)
  have t2 := fun Ls => one_step inv hinv (1/200) (3/400) 20 10 (5/1200) (35/4100) Ls (by norm_num) (by norm_num) (by norm_num) (by norm_num) (by norm_num) (by norm_num) (by norm_num)
  have t3 := fun Ls => one_step inv hinv (5/1200) (35/4100) 20 10 (125/33600) (20750/2234900) Ls (by norm_num) (by norm_num) (by norm_num) (by norm_num) (by norm_num) (by norm_num) (by norm_num)
  -- bounds of the logarithms
  have l1 : Real.log (369/392) ≤ 369/392 - 1 := Real.log_le_sub_one_of_pos (by norm_num)
  have l2 : 1 - 392/369 ≤ Real.log (369/392) := by
    have := Real.one_sub_inv_le_log_of_pos (x := 369/392) (by norm_num)
    norm_num at this ⊢
    exact this
  have l3 : Real.log (205/98) ≤ 205/98 - 1 := Real.log_le_sub_one_of_pos (by norm_num)
  have l4 : 0 ≤ Real.log (205/98) := Real.log_nonneg (by norm_num)
  have l5 : Real.log 10 ≤ 10 - 1 := Real.log_le_sub_one_of_pos (by norm_num)
  have l6 : 0 ≤ Real.log 10 := Real.log_nonneg (by norm_num)
  -- the outputs (2, 1)
  have d21 : oneL (5/12) (35/41) 2 1 - oneL (1/2) (3/4) 2 1 = -(1/2) * (Real.log (369/392) + (28/25 + 35/41 - 39/20)) := by
    have e : Real.log (369/392) = Real.log (205/49) - Real.log (40/9) := by
      rw [← Real.log_div (by norm_num) (by norm_num)]; norm_num
    rw [e]
    unfold oneL
    norm_num
    ring
  have d20 : oneL (5/12) (35/41) 2 1 - oneL 1 1 2 1 = -(1/2) * (Real.log (205/98) + (28/25 + 35/41 - 3)) := by
    have e : Real.log (205/98) = Real.log (205/49) - Real.log 2 := by
      rw [← Real.log_div (by norm_num) (by norm_num)]; norm_num
    rw [e]
    unfold oneL
    norm_num
    ring
  have st : ¬(oneL (5/12) (35/41) 2 1 - oneL 1 1 2 1 ≠ 0 ∧ |(oneL (5/12) (35/41) 2 1 - oneL (1/2) (3/4) 2 1) / (oneL (5/12) (35/41) 2 1 - oneL 1 1 2 1)| < 1e-3) := by
    rw [d21, d20]
    rintro ⟨h1, h2⟩
    rw [abs_div, div_lt_iff₀ (abs_pos.2 h1)] at h2
    have u1 : |-(1/2) * (Real.log (205/98) + (28/25 + 35/41 - 3))| ≤ 1 := by
      rw [abs_le]; constructor <;> linarith
    have u2 := le_abs_self (-(1/2) * (Real.log (369/392) + (28/25 + 35/41 - 39/20)))
    norm_num at h2 u1 u2 l1
    linarith
  -- the outputs (20, 10)
  have f21 : oneL (5/1200) (35/4100) 20 10 - oneL (1/200) (3/400) 20 10 = -(1/2) * (Real.log (369/392) + (28/25 + 35/41 - 39/20)) := by
    have e : Real.log (369/392) = Real.log (2050000/49) - Real.log (400000/9) := by
      rw [← Real.log_div (by norm_num) (by norm_num)]; norm_num
    rw [e]
    unfold oneL
    norm_num
    ring
  have f20 : oneL (5/1200) (35/4100) 20 10 - oneL 1 1 20 10 = -(1/2) * (4 * Real.log 10 + Real.log (205/98) + (28/25 + 35/41 - 300)) := by
    have e : 4 * Real.log 10 + Real.log (205/98) = Real.log (2050000/49) - Real.log 2 := by
      have : (4 : ℝ) * Real.log 10 = Real.log (10 ^ 4) := by rw [Real.log_pow]; norm_num
      rw [this, ← Real.log_mul (by norm_num) (by norm_num), ← Real.log_div (by norm_num) (by norm_num)]; norm_num
    rw [e]
    unfold oneL
    norm_num
    ring
  have tt : oneL (5/1200) (35/4100) 20 10 - oneL 1 1 20 10 ≠ 0 ∧ |(oneL (5/1200) (35/4100) 20 10 - oneL (1/200) (3/400) 20 10) / (oneL (5/1200) (35/4100) 20 10 - oneL 1 1 20 10)| < 1e-3 := by
    rw [f21, f20]
    have u1 : 100 ≤ -(1/2) * (4 * Real.log 10 + Real.log (205/98) + (28/25 + 35/41 - 300)) := by linarith
    have u2 : |-(1/2) * (Real.log (369/392) + (28/25 + 35/41 - 39/20))| ≤ 1/20 := by
      rw [abs_le]; constructor <;> linarith
    refine ⟨by linarith, ?_⟩
    rw [abs_div, abs_of_pos (by linarith : 0 < -(1/2) * (4 * Real.log 10 + Real.log (205/98) + (28/25 + 35/41 - 300))), div_lt_iff₀ (by linarith)]
    norm_num at u1 u2 ⊢
    linarith
  have hv : (10 : ℝ) • ![2, 1] = (![20, 10] : Vec 2) := by
    ext i; fin_cases i <;> norm_num
  refine ⟨fun _ => c4 / (c4 + a4) * 2, fun _ => 20750/2234900 / (20750/2234900 + 125/33600) * 20, ?_, ?_, ?_⟩
  · have hl : (one 1 1 2 []).loop inv ![2, 1] 4 = some (.ok (one a4 c4 2 [oneL 1 1 2 1, oneL (1/2) (3/4) 2 1, oneL (5/12) (35/41) 2 1, oneL (125/336) (20750/22349) 2 1])) := by
      simp only [Rvm.loop, s1, s2, s3, s4, List.nil_append, List.cons_append]
      rw [if_neg (by simp [Rvm.stop, one]), if_neg (by rw [one_stop2]; simp), if_neg (by rw [one_stop, decide_eq_true_iff]; exact st)]
      split_ifs <;> rfl
    unfold rvm1d
    rw [one_init inv hinv]
    simp only [Option.getD_some]
    rw [if_neg (by norm_num), hl]
    simp only
    rw [one_scatter]
  · have hl : (one 1 1 20 []).loop inv ![20, 10] 4 = some (.ok (one (125/33600) (20750/2234900) 20 [oneL 1 1 20 10, oneL (1/200) (3/400) 20 10, oneL (5/1200) (35/4100) 20 10])) := by
      simp only [Rvm.loop, t1, t2, t3, List.nil_append, List.cons_append]
      rw [if_neg (by simp [Rvm.stop, one]), if_neg (by rw [one_stop2]; simp), if_pos (by rw [one_stop, decide_eq_true_iff]; exact tt)]
    unfold rvm1d
    rw [hv, one_init inv hinv]
    simp only [Option.getD_some]
    rw [if_neg (by norm_num), hl]
    simp only
    rw [one_scatter]
  · intro h
    have := congrFun h 0
    simp only [Pi.smul_apply, smul_eq_mul] at this
    rw [ha4, hc4] at this
    norm_num at this

/-- Two samples and one column: the run returns coefficients; with the samples exchanged it returns the same, with the sign of the outputs changed the negative. -/
example : ∃ inv, InvContract inv ∧ ∃ x, rvm1d inv oneCol ![2, 1] (some 4) = some (.ok x) ∧
    rvm1d inv (fun i j => oneCol (Equiv.swap 0 1 i) j) (fun i => ![2, 1] (Equiv.swap 0 1 i)) (some 4) = some (.ok x) ∧ rvm1d inv oneCol (-![2, 1]) (some 4) = some (.ok (-x)) := by
  obtain ⟨inv, hinv⟩ := exists_inv
  obtain ⟨x, -, h, -⟩ := c215_units_violated inv hinv
  refine ⟨inv, hinv, x, h, ?_, ?_⟩
  · rw [c215_order inv hinv]
    exact h
  · rw [c215_sign inv hinv, h]
    rfl

end EQ.Solver
