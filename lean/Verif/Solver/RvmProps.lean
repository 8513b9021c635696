import Verif.Solver.RvmModel
import Verif.Solver.LinProps
import Mathlib.LinearAlgebra.Matrix.PosDef
import Mathlib.Analysis.Matrix.PosDef
import Mathlib.Algebra.Order.Star.Real

/-!
# The relevance vector machine (C49, C87)
-/

namespace EQ.Solver
open Matrix EQ.Basis

variable {K card : ℕ}

/-- What is assumed of `np.linalg.inv`. -/
def InvContract (inv : Inv) : Prop := ∀ r (M : Mat r r),
  (IsUnit M.det → inv r M = .ok M⁻¹) ∧ (¬IsUnit M.det → inv r M = .error .linAlgError)

/-- The penalised sum of squares. -/
noncomputable def ridgeLoss (A : Mat K card) (b : Vec K) (alpha0 : ℝ) (alpha x : Vec card) : ℝ :=
  alpha0 * sqRes A b x + ∑ i, alpha i * x i ^ 2

section posterior
variable {r : ℕ} (Phi : Mat K r) (alpha : Vec r) (alpha0 : ℝ)

/-- The matrix inverted in each pass. -/
def precision : Mat r r := alpha0 • (Phiᵀ * Phi) + diagonal alpha

theorem precision_posDef (h0 : 0 < alpha0) (h : ∀ j, 0 < alpha j) :
    (precision Phi alpha alpha0).PosDef := by
  have h1 : (Phiᵀ * Phi).PosSemidef := by
    have := Matrix.posSemidef_conjTranspose_mul_self Phi
    rwa [conjTranspose_eq_transpose_of_trivial] at this
  exact Matrix.PosDef.posSemidef_add (h1.smul h0.le) (Matrix.PosDef.diagonal h)

theorem precision_unit (h0 : 0 < alpha0) (h : ∀ j, 0 < alpha j) :
    IsUnit (precision Phi alpha alpha0).det :=
  (precision_posDef Phi alpha alpha0 h0 h).det_pos.ne'.isUnit

theorem posterior_ok (inv : Inv) (hinv : InvContract inv) (b : Vec K) (h0 : 0 < alpha0)
    (h : ∀ j, 0 < alpha j) : posterior inv b Phi alpha alpha0 =
      .ok ((precision Phi alpha alpha0)⁻¹,
        alpha0 • ((precision Phi alpha alpha0)⁻¹ * Phiᵀ).mulVec b) := by
  unfold posterior
  rw [show alpha0 • (Phiᵀ * Phi) + diagonal alpha = precision Phi alpha alpha0 from rfl,
    (hinv _ _).1 (precision_unit Phi alpha alpha0 h0 h)]

/-- The matrix `C` of the loop, times `alpha_0`. -/
noncomputable def covScaled : Mat K K := 1 + alpha0 • (Phi * diagonal (fun j => 1 / alpha j) * Phiᵀ)

theorem covScaled_posDef (h0 : 0 < alpha0) (h : ∀ j, 0 < alpha j) :
    (covScaled Phi alpha alpha0).PosDef := by
  have hd : (diagonal fun j => 1 / alpha j : Mat r r).PosSemidef :=
    (Matrix.PosDef.diagonal fun j => one_div_pos.2 (h j)).posSemidef
  have h1 : (Phi * diagonal (fun j => 1 / alpha j) * Phiᵀ).PosSemidef := by
    have := hd.mul_mul_conjTranspose_same Phi
    rwa [conjTranspose_eq_transpose_of_trivial] at this
  exact Matrix.PosDef.add_posSemidef Matrix.PosDef.one (h1.smul h0.le)

theorem woodbury (h0 : 0 < alpha0) (h : ∀ j, 0 < alpha j) :
    covScaled Phi alpha alpha0 * (1 - alpha0 • (Phi * (precision Phi alpha alpha0)⁻¹ * Phiᵀ)) = 1 := by
  set S := (precision Phi alpha alpha0)⁻¹ with hS
  have hPS : precision Phi alpha alpha0 * S = 1 :=
    mul_nonsing_inv _ (precision_unit Phi alpha alpha0 h0 h)
  set D : Mat r r := diagonal fun j => 1 / alpha j with hD
  have hDD : D * diagonal alpha = 1 := by
    rw [hD, diagonal_mul_diagonal, ← diagonal_one]
    congr 1; ext j
    rw [one_div, inv_mul_cancel₀ (h j).ne']
  have key : D = S + alpha0 • (D * (Phiᵀ * Phi) * S) := by
    calc D = D * (precision Phi alpha alpha0 * S) := by rw [hPS, mul_one]
      _ = D * ((alpha0 • (Phiᵀ * Phi) + diagonal alpha) * S) := rfl
      _ = D * diagonal alpha * S + alpha0 • (D * (Phiᵀ * Phi) * S) := by
        rw [Matrix.add_mul, Matrix.mul_add, Matrix.smul_mul, Matrix.mul_smul, ← Matrix.mul_assoc D (Phiᵀ * Phi),
          ← Matrix.mul_assoc D (diagonal alpha), add_comm]
      _ = _ := by rw [hDD, one_mul]
  have h2 : Phi * D * Phiᵀ = Phi * S * Phiᵀ + alpha0 • (Phi * D * Phiᵀ * (Phi * S * Phiᵀ)) := by
    conv_lhs => rw [key]
    simp only [Matrix.mul_add, Matrix.add_mul, Matrix.mul_smul, Matrix.smul_mul, Matrix.mul_assoc]
  unfold covScaled
  rw [← hD, Matrix.mul_sub, Matrix.mul_one, Matrix.mul_smul, Matrix.add_mul, Matrix.one_mul,
    Matrix.smul_mul, ← h2]
  simp

theorem trace_lt (hK : 0 < K) (h0 : 0 < alpha0) (h : ∀ j, 0 < alpha j) :
    ∑ j, (1 - alpha j * (precision Phi alpha alpha0)⁻¹ j j) < K := by
  set S := (precision Phi alpha alpha0)⁻¹ with hS
  have hPS : precision Phi alpha alpha0 * S = 1 :=
    mul_nonsing_inv _ (precision_unit Phi alpha alpha0 h0 h)
  have h1 : ∑ j, (1 - alpha j * S j j) = (1 - diagonal alpha * S).trace := by
    simp [trace, diagonal_mul]
  have h2 : 1 - diagonal alpha * S = alpha0 • (Phiᵀ * Phi * S) := by
    rw [← hPS, precision, Matrix.add_mul, Matrix.smul_mul]; abel
  have h3 : (alpha0 • (Phiᵀ * Phi * S)).trace = (alpha0 • (Phi * S * Phiᵀ)).trace := by
    rw [trace_smul, trace_smul, Matrix.mul_assoc, trace_mul_comm]
  have : Nonempty (Fin K) := ⟨⟨0, hK⟩⟩
  have hpos := (covScaled_posDef Phi alpha alpha0 h0 h).inv.trace_pos
  rw [inv_eq_right_inv (woodbury Phi alpha alpha0 h0 h), trace_sub, trace_one] at hpos
  rw [h1, h2, h3]
  simp only [Fintype.card_fin] at hpos
  linarith

end posterior

/-! ## The invariant -/

/-- The bookkeeping is right: the columns of `Phi` are the columns of `A` listed (in increasing
order) in `remaining_coeff_ind`, which together with `removed` lists every column once; the weights
are positive; `Sigma` and `mu` belong to the present `Phi`, `alpha`, `alpha_0`. -/
structure Rvm.Good (A : Mat K card) (b : Vec K) (s : Rvm K card) (g : Fin s.r → Fin card) : Prop where
  mono : StrictMono g
  rem : s.remaining = (List.finRange s.r).map g
  col : ∀ i j, s.Phi i j = A i (g j)
  part : (s.remaining ++ s.removed).Perm (List.finRange card)
  a0 : 0 < s.alpha0
  apos : ∀ j, 0 < s.alpha j
  sigma : s.Sigma = (precision s.Phi s.alpha s.alpha0)⁻¹
  mu : s.mu = s.alpha0 • ((precision s.Phi s.alpha s.alpha0)⁻¹ * s.Phiᵀ).mulVec b

theorem Rvm.init_good (inv : Inv) (hinv : InvContract inv) (A : Mat K card) (b : Vec K) :
    ∃ s g, Rvm.init inv A b = .ok s ∧ s.Good A b g := by
  unfold Rvm.init
  rw [posterior_ok A 1 1 inv hinv b one_pos fun _ => one_pos]
  exact ⟨_, fun j => j, rfl, ⟨strictMono_id, by simp, fun _ _ => rfl, by simp, one_pos,
    fun _ => one_pos, rfl, rfl⟩⟩

theorem mapM_some {α β : Type} (f : α → Option β) (g : α → β) (l : List α)
    (h : ∀ a ∈ l, f a = some (g a)) : l.mapM f = some (l.map g) := by
  induction l with
  | nil => rfl
  | cons a l ih =>
    rw [List.mapM_cons, h a (by simp), ih fun b hb => h b (by simp [hb])]
    rfl

section step
variable {A : Mat K card} {b : Vec K} {s : Rvm K card} {g : Fin s.r → Fin card}

theorem Rvm.Good.dropped (h : s.Good A b g) : s.dropped = some (s.drop.map g) := by
  unfold Rvm.dropped
  refine mapM_some _ _ _ fun j _ => ?_
  rw [h.rem]
  simp

theorem Rvm.pairwise_keep (h : s.Good A b g) : (s.keep.map g).Pairwise (· < ·) := by
  rw [List.pairwise_map]
  exact ((List.pairwise_lt_finRange s.r).filter _).imp fun hij => h.mono hij

theorem Rvm.Good.setdiff (h : s.Good A b g) :
    Rvm.setdiff1d s.remaining (s.drop.map g) = s.keep.map g := by
  have hf : s.remaining.filter (fun i => i ∉ s.drop.map g) = s.keep.map g := by
    rw [h.rem, List.filter_map]
    unfold Rvm.keep
    congr 1
    refine List.filter_congr fun j _ => ?_
    simp only [Function.comp, decide_eq_decide]
    rw [List.mem_map_of_injective h.mono.injective]
    simp [Rvm.drop]
  have hsub := Rvm.pairwise_keep h
  have hnd : (s.keep.map g).Nodup := hsub.imp fun h => ne_of_lt h
  unfold Rvm.setdiff1d
  rw [hf, hnd.dedup]
  exact List.mergeSort_of_pairwise (hsub.imp fun h => by simpa using h.le)

/-- One pass keeps the bookkeeping right, and raises nothing. -/
theorem Rvm.step_good (inv : Inv) (hinv : InvContract inv) (h : s.Good A b g) :
    s.step inv b = none ∨ ∃ s' g', s.step inv b = some (.ok s') ∧ s'.Good A b g' := by
  unfold Rvm.step
  split_ifs with hz
  · exact .inl rfl
  right
  push Not at hz
  obtain ⟨-, -, hmu, hres⟩ := hz
  have hK : 0 < K := by
    rcases Nat.eq_zero_or_pos K with rfl | hK
    · exact absurd (Subsingleton.elim _ _) hres
    · exact hK
  have hCeq : s.C = (1 / s.alpha0) • covScaled s.Phi s.alpha s.alpha0 := by
    unfold Rvm.C covScaled
    rw [smul_add, smul_smul, one_div_mul_cancel h.a0.ne', one_smul]
  have hC : IsUnit s.C.det := by
    rw [hCeq]
    exact ((covScaled_posDef s.Phi s.alpha s.alpha0 h.a0 h.apos).smul
      (one_div_pos.2 h.a0)).det_pos.ne'.isUnit
  have hg : ∀ j, 1e-10 ≤ s.gamma (s.keep.get j) := by
    intro j
    have := List.get_mem s.keep j
    generalize s.keep.get j = k at this
    unfold Rvm.keep at this
    simpa using (List.mem_filter.1 this).2
  have hapos : ∀ j, 0 < s.gamma (s.keep.get j) / s.mu (s.keep.get j) ^ 2 := by
    intro j
    exact div_pos (lt_of_lt_of_le (by norm_num) (hg j)) (by have := hmu (s.keep.get j); positivity)
  have htr : ∑ j, s.gamma j < K := by
    have := trace_lt s.Phi s.alpha s.alpha0 hK h.a0 h.apos
    rw [← h.sigma] at this
    exact this
  have ha0 : 0 < (K - ∑ j, s.gamma j) / ((b - s.Phi.mulVec s.mu) ⬝ᵥ (b - s.Phi.mulVec s.mu)) :=
    div_pos (by linarith) (dot_self_pos hres)
  have hpost := posterior_ok (fun i j => s.Phi i (s.keep.get j) : Mat K s.keep.length)
    (fun j => s.gamma (s.keep.get j) / s.mu (s.keep.get j) ^ 2) _ inv hinv b ha0 hapos
  rw [(hinv _ _).1 hC, h.dropped]
  simp only
  rw [hpost]
  refine ⟨_, fun j => g (s.keep.get j), rfl, ?_⟩
  have hmono : StrictMono fun j => s.keep.get j :=
    ((List.pairwise_lt_finRange s.r).filter _).sortedLT.strictMono_get
  have hkeep : s.keep = (List.finRange s.keep.length).map fun j => s.keep.get j := by
    refine List.ext_get (by simp) fun i h1 h2 => ?_
    simp
  refine ⟨h.mono.comp hmono, ?_, fun i j => h.col i _, ?_, ha0, hapos, rfl, rfl⟩
  · simp only [h.setdiff]
    conv_lhs => rw [hkeep]
    rw [List.map_map]
    rfl
  · simp only [h.setdiff]
    refine List.Perm.trans ?_ h.part
    have h1 : (s.keep ++ s.drop).Perm (List.finRange s.r) := by
      have := List.filter_append_perm (fun j : Fin s.r => decide (1e-10 ≤ s.gamma j)) (List.finRange s.r)
      refine List.Perm.trans (List.Perm.of_eq ?_) this
      unfold Rvm.keep Rvm.drop
      refine congrArg _ (List.filter_congr fun j _ => ?_)
      simp [← not_le]
    have h2 := h1.map g
    rw [List.map_append, ← h.rem] at h2
    refine List.Perm.trans ?_ (h2.append_right s.removed)
    rw [List.append_assoc]
    exact List.Perm.append_left _ List.perm_append_comm

end step

theorem Rvm.loop_good (inv : Inv) (hinv : InvContract inv) (A : Mat K card) (b : Vec K) (fuel : ℕ) :
    ∀ (s : Rvm K card) g, s.Good A b g →
      s.loop inv b fuel = none ∨ ∃ s' g', s.loop inv b fuel = some (.ok s') ∧ s'.Good A b g' := by
  induction fuel with
  | zero => intro s g h; exact .inr ⟨s, g, rfl, h⟩
  | succ fuel ih =>
    intro s g h
    unfold Rvm.loop
    rcases Rvm.step_good inv hinv h with h1 | ⟨s', g', h1, h2⟩
    · rw [h1]; exact .inl rfl
    · rw [h1]
      simp only
      split_ifs
      · exact .inr ⟨s', g', rfl, h2⟩
      · exact ih s' g' h2

theorem lookup_zip_map {r : ℕ} {g : Fin r → Fin card} (hg : Function.Injective g) (v : Fin r → ℝ) :
    ∀ l : List (Fin r), (∀ j ∈ l, ((l.map g).zip (l.map v)).lookup (g j) = some (v j)) ∧
      ∀ i, (∀ j, g j ≠ i) → ((l.map g).zip (l.map v)).lookup i = none := by
  intro l
  induction l with
  | nil => simp
  | cons a l ih =>
    refine ⟨fun j hj => ?_, fun i hi => ?_⟩
    · simp only [List.map_cons, List.zip_cons_cons, List.lookup_cons]
      by_cases hja : j = a
      · subst hja; simp
      · have hne : (g j == g a) = false := by
          simpa using fun h => hja (hg h)
        rw [hne]
        exact ih.1 j ((List.mem_cons.1 hj).resolve_left hja)
    · simp only [List.map_cons, List.zip_cons_cons, List.lookup_cons]
      have hne : (i == g a) = false := by simpa using fun h => hi a h.symm
      rw [hne]
      exact ih.2 i hi

/-- The entries written by `mean_coeffs[remaining_coeff_ind] = mu`. -/
theorem Rvm.Good.scatter {A : Mat K card} {b : Vec K} {s : Rvm K card} {g : Fin s.r → Fin card}
    (h : s.Good A b g) : ∃ x, s.scatter = .ok x ∧ (∀ j, x (g j) = s.mu j) ∧
      ∀ i, (∀ j, g j ≠ i) → x i = 0 := by
  unfold Rvm.scatter
  rw [if_pos (by rw [h.rem]; simp)]
  refine ⟨_, rfl, fun j => ?_, fun i hi => ?_⟩
  · rw [h.rem, List.ofFn_eq_map, (lookup_zip_map h.mono.injective s.mu _).1 j (List.mem_finRange j)]
    rfl
  · rw [h.rem, List.ofFn_eq_map, (lookup_zip_map h.mono.injective s.mu _).2 i hi]
    rfl

/-- C49, bookkeeping. Whatever happens in the loop, for every matrix, data and number of passes: the
lists of kept and removed columns together contain every column exactly once, the kept ones are
listed in increasing order, and the `j`-th column of the working matrix is the `j`-th kept column. -/
theorem c49_rvm_partition (inv : Inv) (hinv : InvContract inv) (A : Mat K card) (b : Vec K) (n : ℕ)
    (s s' : Rvm K card) (hs : Rvm.init inv A b = .ok s) (h : s.loop inv b n = some (.ok s')) :
    (s'.remaining ++ s'.removed).Perm (List.finRange card) ∧ s'.remaining.Pairwise (· < ·) ∧
    s'.remaining.length = s'.r ∧
    ∀ j : Fin s'.r, ∃ c, s'.remaining[(j : ℕ)]? = some c ∧ ∀ i, s'.Phi i j = A i c := by
  obtain ⟨s1, g, h1, h2⟩ := Rvm.init_good inv hinv A b
  rw [hs] at h1
  obtain rfl := Except.ok.inj h1
  rcases Rvm.loop_good inv hinv A b n s g h2 with h3 | ⟨s2, g', h3, h4⟩
  · rw [h] at h3; simp at h3
  · rw [h] at h3
    obtain rfl := Except.ok.inj (Option.some.inj h3)
    refine ⟨h4.part, ?_, by rw [h4.rem]; simp, fun j => ⟨g' j, by rw [h4.rem]; simp, fun i => h4.col i j⟩⟩
    rw [h4.rem, List.pairwise_map]
    exact (List.pairwise_lt_finRange s'.r).imp fun hij => h4.mono hij

/-- A stationary point of the penalised sum of squares on the kept columns is its strict minimiser. -/
theorem ridge_unique (A : Mat K card) (b : Vec K) (alpha0 : ℝ) (alpha x : Vec card) (h0 : 0 < alpha0)
    (hpos : ∀ i, 0 < alpha i) (kept : Finset (Fin card)) (hx : ∀ i ∉ kept, x i = 0)
    (hstat : ∀ i ∈ kept, alpha0 * ∑ k, A k i * (A.mulVec x k - b k) + alpha i * x i = 0)
    (z : Vec card) (hz : ∀ i ∉ kept, z i = 0) (hne : z ≠ x) :
    ridgeLoss A b alpha0 alpha x < ridgeLoss A b alpha0 alpha z := by
  set d : Vec card := z - x with hd
  have hzx : z = x + d := by rw [hd]; abel
  have hA : ∀ k, A.mulVec z k = A.mulVec x k + A.mulVec d k := by
    intro k; rw [hzx, mulVec_add]; rfl
  have hcross : alpha0 * ∑ k, (A.mulVec x k - b k) * A.mulVec d k + ∑ i, alpha i * x i * d i = 0 := by
    have h1 : ∑ k, (A.mulVec x k - b k) * A.mulVec d k =
        ∑ i, (∑ k, A k i * (A.mulVec x k - b k)) * d i := by
      simp only [mulVec, dotProduct, Finset.mul_sum, Finset.sum_mul]
      rw [Finset.sum_comm]
      refine Finset.sum_congr rfl fun i _ => Finset.sum_congr rfl fun k _ => ?_
      ring
    rw [h1, Finset.mul_sum, ← Finset.sum_add_distrib]
    refine Finset.sum_eq_zero fun i _ => ?_
    by_cases hi : i ∈ kept
    · have := hstat i hi
      linear_combination d i * this
    · have : d i = 0 := by simp [hd, hx i hi, hz i hi]
      rw [this]; ring
  have hexp : ridgeLoss A b alpha0 alpha z = ridgeLoss A b alpha0 alpha x +
      (alpha0 * ∑ k, A.mulVec d k ^ 2 + ∑ i, alpha i * d i ^ 2) +
      2 * (alpha0 * ∑ k, (A.mulVec x k - b k) * A.mulVec d k + ∑ i, alpha i * x i * d i) := by
    unfold ridgeLoss sqRes
    simp only [hA]
    rw [hzx]
    simp only [Pi.add_apply, Finset.mul_sum, mul_add]
    rw [← sub_eq_zero]
    have e1 : ∑ k, alpha0 * (A.mulVec x k + A.mulVec d k - b k) ^ 2 =
        ∑ k, (alpha0 * (A.mulVec x k - b k) ^ 2) + ∑ k, alpha0 * A.mulVec d k ^ 2 +
        ∑ k, 2 * (alpha0 * ((A.mulVec x k - b k) * A.mulVec d k)) := by
      rw [← Finset.sum_add_distrib, ← Finset.sum_add_distrib]
      exact Finset.sum_congr rfl fun k _ => by ring
    have e2 : ∑ i, alpha i * (x i + d i) ^ 2 =
        ∑ i, alpha i * x i ^ 2 + ∑ i, alpha i * d i ^ 2 + ∑ i, 2 * (alpha i * x i * d i) := by
      rw [← Finset.sum_add_distrib, ← Finset.sum_add_distrib]
      exact Finset.sum_congr rfl fun k _ => by ring
    rw [e1, e2]
    ring
  have hpos1 : 0 ≤ alpha0 * ∑ k, A.mulVec d k ^ 2 :=
    mul_nonneg h0.le (Finset.sum_nonneg fun _ _ => sq_nonneg _)
  have hpos2 : 0 < ∑ i, alpha i * d i ^ 2 := by
    have hdne : d ≠ 0 := fun h => hne (by rw [hzx, h, add_zero])
    obtain ⟨i, hi⟩ := Function.ne_iff.1 hdne
    refine Finset.sum_pos' (fun i _ => mul_nonneg (hpos i).le (sq_nonneg _)) ⟨i, Finset.mem_univ _, ?_⟩
    have : d i ≠ 0 := hi
    have := hpos i
    positivity
  rw [hexp, hcross]
  linarith

/-- C49. For every matrix, every one-dimensional right-hand side and every positive iteration limit,
unless a division by zero occurs: no exception is raised, and there are positive weights and a set of
kept columns such that the result vanishes outside the kept columns and is the only minimiser of the
penalised sum of squares over the kept columns. -/
theorem c49_rvm (inv : Inv) (hinv : InvContract inv) (A : Mat K card) (b : Vec K)
    (maxIter : Option ℕ) (hm : maxIter ≠ some 0) :
    rvm1d inv A b maxIter = none ∨
    ∃ x, rvm1d inv A b maxIter = some (.ok x) ∧
      ∃ (kept : Finset (Fin card)) (alpha0 : ℝ) (alpha : Vec card), 0 < alpha0 ∧ (∀ i, 0 < alpha i) ∧
        (∀ i ∉ kept, x i = 0) ∧
        ∀ z : Vec card, (∀ i ∉ kept, z i = 0) → z ≠ x →
          ridgeLoss A b alpha0 alpha x < ridgeLoss A b alpha0 alpha z := by
  obtain ⟨s, g, h1, h2⟩ := Rvm.init_good inv hinv A b
  unfold rvm1d
  rw [h1]
  simp only
  have hfuel : maxIter.getD 1000 ≠ 0 := by
    cases maxIter with
    | none => simp
    | some k => simpa using hm
  rw [if_neg hfuel]
  rcases Rvm.loop_good inv hinv A b (maxIter.getD 1000) s g h2 with h3 | ⟨s', g', h3, h4⟩
  · rw [h3]; exact .inl rfl
  rw [h3]
  right
  obtain ⟨x, hx, hx1, hx2⟩ := h4.scatter
  simp only
  rw [hx]
  classical
  refine ⟨x, rfl, Finset.univ.image g', s'.alpha0,
    fun i => if h : ∃ j, g' j = i then s'.alpha h.choose else 1, h4.a0, fun i => ?_, fun i hi => ?_, ?_⟩
  · dsimp only
    split_ifs
    · exact h4.apos _
    · exact one_pos
  · exact hx2 i fun j hj => hi (Finset.mem_image.2 ⟨j, Finset.mem_univ _, hj⟩)
  · refine ridge_unique A b _ _ x h4.a0 (fun i => ?_) _ (fun i hi => ?_) (fun i hi => ?_)
    · split_ifs
      · exact h4.apos _
      · exact one_pos
    · exact hx2 i fun j hj => hi (Finset.mem_image.2 ⟨j, Finset.mem_univ _, hj⟩)
    · obtain ⟨j, -, rfl⟩ := Finset.mem_image.1 hi
      have hex : ∃ j', g' j' = g' j := ⟨j, rfl⟩
      rw [dif_pos hex, h4.mono.injective hex.choose_spec, hx1]
      -- the linear system solved by `mu`
      have hsys : (precision s'.Phi s'.alpha s'.alpha0).mulVec s'.mu = s'.alpha0 • s'.Phiᵀ.mulVec b := by
        rw [h4.mu, mulVec_smul, mulVec_mulVec, ← Matrix.mul_assoc,
          mul_nonsing_inv _ (precision_unit _ _ _ h4.a0 h4.apos), Matrix.one_mul]
      have hAx : ∀ k, A.mulVec x k = s'.Phi.mulVec s'.mu k := by
        intro k
        simp only [mulVec, dotProduct]
        rw [← Finset.sum_subset (Finset.subset_univ (Finset.univ.image g'))
          (fun i _ hi => by
            rw [hx2 i fun j hj => hi (Finset.mem_image.2 ⟨j, Finset.mem_univ _, hj⟩), mul_zero]),
          Finset.sum_image fun a _ b _ h => h4.mono.injective h]
        exact Finset.sum_congr rfl fun j _ => by rw [h4.col, hx1]
      have := congrFun hsys j
      simp only [precision, add_mulVec, smul_mulVec, Pi.add_apply, Pi.smul_apply, smul_eq_mul,
        mulVec_diagonal, ← mulVec_mulVec] at this
      simp only [hAx, ← h4.col, mul_sub, Finset.sum_sub_distrib]
      have e1 : (s'.Phiᵀ.mulVec (s'.Phi.mulVec s'.mu)) j = ∑ k, s'.Phi k j * s'.Phi.mulVec s'.mu k := rfl
      have e2 : (s'.Phiᵀ.mulVec b) j = ∑ k, s'.Phi k j * b k := rfl
      rw [e1, e2] at this
      linarith

theorem exists_inv : ∃ inv : Inv, InvContract inv := by
  classical
  exact ⟨fun r M => if IsUnit M.det then .ok M⁻¹ else .error .linAlgError,
    fun r M => ⟨fun h => if_pos h, fun h => if_neg h⟩⟩

/-- A single pass without division by zero. -/
theorem rvm1d_one_ne_none (inv : Inv) (A : Mat K card) (b : Vec K) (s : Rvm K card)
    (h : Rvm.init inv A b = .ok s) (h0 : s.alpha0 ≠ 0) (h1 : ∀ j, s.alpha j ≠ 0) (h2 : ∀ j, s.mu j ≠ 0)
    (h3 : b - s.Phi.mulVec s.mu ≠ 0) : rvm1d inv A b (some 1) ≠ none := by
  have hstep : ∃ o, s.step inv b = some o := by
    unfold Rvm.step
    rw [if_neg]
    · exact ⟨_, rfl⟩
    · push Not
      exact ⟨h0, h1, h2, h3⟩
  obtain ⟨o, ho⟩ := hstep
  unfold rvm1d
  rw [h]
  simp only [Option.getD_some, one_ne_zero, if_false, Rvm.loop]
  rw [ho]
  cases o with
  | error e => simp
  | ok s' => simp

/-- A run without division by zero: one column, one row, one pass. -/
example (inv : Inv) (hinv : InvContract inv) :
    rvm1d inv (!![1] : Mat 1 1) ![2] (some 1) ≠ none := by
  have hp : precision (!![1] : Mat 1 1) 1 1 = !![2] := by
    ext i j; fin_cases i; fin_cases j; norm_num [precision, mul_apply]
  have hi : (!![2] : Mat 1 1)⁻¹ = !![1/2] := by
    apply inv_eq_right_inv
    ext i j; fin_cases i; fin_cases j; norm_num
  have hmu : (1 : ℝ) • ((!![1/2] : Mat 1 1) * (!![1] : Mat 1 1)ᵀ).mulVec (![2] : Vec 1) = ![1] := by
    ext i; fin_cases i
    simp only [Pi.smul_apply, mulVec, dotProduct, mul_apply, Fin.sum_univ_one, transpose_apply]
    norm_num
  have hres : (![2] : Vec 1) - (!![1] : Mat 1 1).mulVec ![1] = ![1] := by
    ext i; fin_cases i; norm_num [mulVec, dotProduct]
  have h1 : (![1] : Vec 1) ≠ 0 := fun h => by simpa using congrFun h 0
  refine rvm1d_one_ne_none inv _ _ ⟨1, !![1], 1, 1, !![1/2], ![1], List.finRange 1, [], []⟩ ?_
    one_ne_zero (fun _ => one_ne_zero) (fun j => by fin_cases j; simp) (by simp only [hres]; exact h1)
  unfold Rvm.init
  rw [posterior_ok _ 1 1 inv hinv _ one_pos fun _ => one_pos, hp, hi, hmu]

/-! ## The right-hand side as a column -/

/-- C87, the part that holds: with a one-dimensional right-hand side no pass meets a shape mismatch, whatever is kept. -/
theorem c87_vector_shapes_partial (K card : ℕ) (kept : List ℕ) : rvmShapes K card [K] kept = .ok () := by
  have hstep : ∀ r k, RvmShapes.step K [K] k ⟨[r], [r, r], [K, r], [r, r], [r]⟩ =
      .ok ⟨[k], [k, k], [K, k], [k, k], [k]⟩ := by
    intro r k
    simp [RvmShapes.step, diagShape, matmulShape, transposeShape, bcast, bcastAxis, takeShape,
      Except.map, bind, Except.bind]
  have hloop : ∀ (kept : List ℕ) r, kept.foldlM (fun s k => RvmShapes.step K [K] k s)
      (⟨[r], [r, r], [K, r], [r, r], [r]⟩ : RvmShapes) =
      .ok ⟨[kept.getLastD r], [kept.getLastD r, kept.getLastD r], [K, kept.getLastD r],
        [kept.getLastD r, kept.getLastD r], [kept.getLastD r]⟩ := by
    intro kept
    induction kept with
    | nil => intro r; rfl
    | cons k kept ih =>
      intro r
      rw [List.foldlM_cons, hstep]
      simp only [bind, Except.bind]
      rw [ih]
      cases kept with
      | nil => rfl
      | cons a l => rfl
  have hinit : RvmShapes.init K card [K] = .ok ⟨[card], [card, card], [K, card], [card, card], [card]⟩ := by
    simp [RvmShapes.init, diagShape, matmulShape, bcast, bcastAxis, Except.map, bind, Except.bind]
  unfold rvmShapes
  rw [hinit]
  simp only [bind, Except.bind]
  rw [hloop]
  simp [assignShape]

/-- C87, violated for the right-hand side that `set_model` supplies, a column: with more rows than
columns of the matrix, every run of at least two passes, and every run of one pass that keeps a
number of columns other than one, ends with `ValueError`. -/
theorem c87_column_violated (K card k : ℕ) (rest : List ℕ) (hk : k ≤ card) (hK : card < K)
    (h : rest ≠ [] ∨ k ≠ 1) : rvmShapes K card [K, 1] (k :: rest) = .error .valueError := by
  have hinit : RvmShapes.init K card [K, 1] =
      .ok ⟨[card], [card, card], [K, card], [card, card], [card, 1]⟩ := by
    simp [RvmShapes.init, diagShape, matmulShape, bcast, bcastAxis, Except.map, bind, Except.bind]
  have hb1 : bcastAxis card 1 = .ok card := by
    unfold bcastAxis
    split_ifs with h1
    · rfl
    · rfl
    · simp at *
  have hstep : RvmShapes.step K [K, 1] k ⟨[card], [card, card], [K, card], [card, card], [card, 1]⟩ =
      .ok ⟨[k, card], [k], [K, k], [k, k], [k, 1]⟩ := by
    have hself : ∀ a, bcastAxis a a = .ok a := fun a => by simp [bcastAxis]
    simp [RvmShapes.step, diagShape, matmulShape, transposeShape, bcast, hb1, hself, takeShape,
      Except.map, bind, Except.bind, hk]
  have hstep2 : ∀ k', RvmShapes.step K [K, 1] k' ⟨[k, card], [k], [K, k], [k, k], [k, 1]⟩ =
      .error .valueError := by
    intro k'
    have hne : K ≠ k := by omega
    simp [RvmShapes.step, diagShape, matmulShape, transposeShape, bind, Except.bind, hne]
  unfold rvmShapes
  rw [hinit]
  simp only [bind, Except.bind, List.foldlM_cons]
  rw [hstep]
  simp only
  cases rest with
  | nil =>
    have hk1 : k ≠ 1 := by simpa using h
    simp [assignShape, hk1, pure, Except.pure]
  | cons k' rest =>
    simp only [List.foldlM_cons, bind, Except.bind]
    rw [hstep2]

/-- For instance ten rows and four columns, three of them kept. -/
example : rvmShapes 10 4 [10, 1] [3, 3, 3] = .error .valueError :=
  c87_column_violated 10 4 3 [3, 3] (by norm_num) (by norm_num) (.inl (by simp))

end EQ.Solver
