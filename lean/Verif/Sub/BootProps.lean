import Verif.Sub.RidgeDemo

/-!
# C143: bootstrap ranges of the eigenvalues
-/

namespace EQ.Sub
open EQ.Basis EQ.Param EQ.Sampling EQ.Poly Matrix MvPolynomial
variable {K k m n : ℕ}

/-! ## Specification -/

/-- The mean over the points `x` of the products of partial derivatives of `f`. -/
noncomputable def Spec.meanGrad (f : MvPolynomial (Fin m) ℝ) (x : Matrix (Fin K) (Fin m) ℝ) : Matrix (Fin m) (Fin m) ℝ :=
  fun a b => (∑ i, eval (x i) (pderiv a f) * eval (x i) (pderiv b f)) / K

/-- `lam` are the eigenvalues of `C`, with multiplicities, in descending order. -/
def Spec.Spectrum (C : Matrix (Fin m) (Fin m) ℝ) (lam : Fin m → ℝ) : Prop :=
  Antitone lam ∧ ∃ W : Matrix (Fin m) (Fin m) ℝ, Wᵀ * W = 1 ∧ C * W = W * diagonal lam

/-! ## Lemmas -/

/-- The matrix of partial derivatives. -/
noncomputable def gradMat (f : MvPolynomial (Fin m) ℝ) (x : Matrix (Fin K) (Fin m) ℝ) : Matrix (Fin m) (Fin K) ℝ :=
  Matrix.of fun v i => eval (x i) (pderiv v f)

theorem meanGrad_cov (f : MvPolynomial (Fin m) ℝ) (x : Matrix (Fin K) (Fin m) ℝ) : gradientCovariance (gradMat f x) = Spec.meanGrad f x := by
  ext a b
  simp only [gradientCovariance, gradMat, Spec.meanGrad, mul_apply, of_apply, transpose_apply, Finset.sum_div]
  exact Finset.sum_congr rfl fun i _ => by ring

theorem meanGrad_perm (f : MvPolynomial (Fin m) ℝ) (x : Matrix (Fin K) (Fin m) ℝ) {b : Fin K → Fin K} (hb : Function.Bijective b) :
    Spec.meanGrad f (x.submatrix b id) = Spec.meanGrad f x := by
  ext a c
  simp only [Spec.meanGrad]
  congr 1
  exact (hb.sum_comp fun i => eval (x i) (pderiv a f) * eval (x i) (pderiv c f))

theorem meanGrad_symm (f : MvPolynomial (Fin m) ℝ) (x : Matrix (Fin K) (Fin m) ℝ) : (Spec.meanGrad f x)ᵀ = Spec.meanGrad f x := by
  rw [← meanGrad_cov, cov_symm]

theorem flip_orth {W : Matrix (Fin m) (Fin m) ℝ} {C : Matrix (Fin m) (Fin m) ℝ} {e : Fin m → ℝ} (h : EighOK C e W) :
    Spec.Spectrum C fun j => e j.rev :=
  ⟨fun _ _ hab => h.2.2 (Fin.rev_le_rev.2 hab), fun i j => W i j.rev, perm_orth h.1 Fin.rev_injective, perm_eigen h.2.1 _⟩

theorem spectrum_nonneg {f : MvPolynomial (Fin m) ℝ} {x : Matrix (Fin (k + 1)) (Fin m) ℝ} {lam : Fin m → ℝ}
    (h : Spec.Spectrum (Spec.meanGrad f x) lam) (j : Fin m) : 0 ≤ lam j := by
  obtain ⟨-, W, h1, h2⟩ := h
  rw [← meanGrad_cov] at h2
  have h3 : Wᵀ * (gradientCovariance (gradMat f x) * W) = diagonal lam := by
    rw [h2, ← Matrix.mul_assoc, h1, Matrix.one_mul]
  have h4 := congrFun (congrFun h3 j) j
  rw [diagonal_apply_eq] at h4
  rw [← h4]
  have h5 : (Wᵀ * (gradientCovariance (gradMat f x) * W)) j j =
      ∑ i, (1 / ((k + 1 : ℕ) : ℝ)) * (∑ a, W a j * eval (x i) (pderiv a f)) ^ 2 := by
    rw [mul_apply]
    have : ∀ a, (gradientCovariance (gradMat f x) * W) a j =
        ∑ i, eval (x i) (pderiv a f) * (1 / ((k + 1 : ℕ) : ℝ)) * ∑ b, W b j * eval (x i) (pderiv b f) := fun a => cov_mulVec _ (fun b => W b j) a
    simp only [this, transpose_apply, Finset.mul_sum (s := (Finset.univ : Finset (Fin (k + 1))))]
    rw [Finset.sum_comm]
    refine Finset.sum_congr rfl fun i _ => ?_
    have e : ∀ (q S : ℝ) (u w : Fin m → ℝ), S = ∑ a, u a * w a → ∑ a, u a * (w a * q * S) = q * S ^ 2 := by
      intro q S u w hS
      rw [show q * S ^ 2 = (∑ a, u a * w a) * (q * S) by rw [← hS]; ring, Finset.sum_mul]
      exact Finset.sum_congr rfl fun a _ => by ring
    exact e _ _ (fun a => W a j) (fun a => eval (x i) (pderiv a f)) rfl
  rw [h5]
  positivity

theorem argsort_monotone {e : Fin m → ℝ} {idx : Fin m → Fin m} (he : Monotone e) (hi : ArgsortOK e idx) (j : Fin m) : e (idx j) = e j := by
  have h1 := Tuple.unique_monotone (f := e) (σ := Equiv.ofBijective idx hi.1) (τ := Equiv.refl _) hi.2 he
  exact congrFun h1 j

theorem min_least {l : List ℝ} (h : l ≠ []) : IsLeast {a | a ∈ l} (l.min?.getD 0) := by
  cases hm : l.min? with
  | none => exact absurd (List.min?_eq_none_iff.1 hm) h
  | some a =>
    rw [List.min?_eq_some_iff] at hm
    exact ⟨hm.1, fun b hb => hm.2 b hb⟩

theorem max_greatest {l : List ℝ} (h : l ≠ []) : IsGreatest {a | a ∈ l} (l.max?.getD 0) := by
  cases hm : l.max? with
  | none => exact absurd (List.max?_eq_none_iff.1 hm) h
  | some a =>
    rw [List.max?_eq_some_iff] at hm
    exact ⟨hm.1, fun b hb => hm.2 b hb⟩

/-- The eigenvalues of trial `t`, in descending order. -/
noncomputable def trialEigs (E : External m) (f : MvPolynomial (Fin m) ℝ) (X : Matrix (Fin K) (Fin m) ℝ) (b : Fin K → Fin K) : Fin m → ℝ :=
  fun j => (E.eigh (Spec.meanGrad f (X.submatrix b id))).1 j.rev

theorem bootTrial_eq (E : External m) (P : Fin m → MParam) (hm : 0 < m) (p : ℕ) (c : List ℝ) (hc : c.length = (fitElements m p).length)
    (X : Matrix (Fin K) (Fin m) ℝ) (b : Fin K → Fin K) :
    bootTrial E ⟨orderBasis P p, c⟩ X b = .ok (trialEigs E (comb P p c) X b) := by
  unfold bootTrial
  rw [polygrad_comb P hm p c hc]
  refine congrArg Except.ok ?_
  unfold trialEigs
  rw [← meanGrad_cov]
  rfl

theorem bootstrap_eq (E : External m) (P : Fin m → MParam) (hm : 0 < m) (p : ℕ) (c : List ℝ) (hc : c.length = (fitElements m p).length)
    (X : Matrix (Fin (k + 1)) (Fin m) ℝ) (ys : Fin (k + 1) → ℝ) (draws : Fin 50 → Fin (k + 1) → Fin (k + 1)) :
    ∃ s, activeOfPoly E ⟨orderBasis P p, c⟩ X ys = .ok s ∧
      (∀ j, s.eigenvalues j = (E.eigh (Spec.meanGrad (comb P p c) X)).1 (E.argsort (E.eigh (Spec.meanGrad (comb P p c) X)).1 j.rev)) ∧
      ∃ lo hi, bootstrapOfPoly E ⟨orderBasis P p, c⟩ X ys draws = .ok (s, lo, hi) ∧
        ∀ j, IsLeast (Set.range fun t => trialEigs E (comb P p c) X (draws t) j) (lo j) ∧
          IsGreatest (Set.range fun t => trialEigs E (comb P p c) X (draws t) j) (hi j) := by
  unfold bootstrapOfPoly activeOfPoly
  rw [polygrad_comb P hm p c hc]
  simp only
  have e : (List.ofFn draws).mapM (bootTrial E ⟨orderBasis P p, c⟩ X) = .ok ((List.ofFn draws).map (trialEigs E (comb P p c) X)) := by
    rw [show bootTrial E ⟨orderBasis P p, c⟩ X = fun b => pure (trialEigs E (comb P p c) X b) from
      _root_.funext fun b => bootTrial_eq E P hm p c hc X b, List.mapM_pure]
    rfl
  rw [e]
  refine ⟨_, rfl, fun j => ?_, _, _, rfl, fun j => ?_⟩
  · exact congrArg (fun C => (E.eigh C).1 (E.argsort (E.eigh C).1 j.rev)) (meanGrad_cov (comb P p c) X)
  · have hs : {a | a ∈ ((List.ofFn draws).map (trialEigs E (comb P p c) X)).map fun t => t j} =
        Set.range fun t => trialEigs E (comb P p c) X (draws t) j := by
      ext a
      simp only [List.map_map, List.mem_map, List.mem_ofFn, Set.mem_setOf_eq, Set.mem_range, exists_exists_eq_and]
      rfl
    have hne : (((List.ofFn draws).map (trialEigs E (comb P p c) X)).map fun t => t j) ≠ [] := by
      rw [ne_eq, ← List.length_eq_zero_iff]
      simp
    exact ⟨hs ▸ min_least hne, hs ▸ max_greatest hne⟩

/-! ## Theorems -/

/-- C143, part: bootstrapping succeeds and leaves the subspace and the eigenvalues as without it. The bounds are the least and the
greatest of the eigenvalues over the trials, where the eigenvalues of a trial are those of the mean over the drawn points. So the
bounds are non-negative and descend, and the lower ones are at most the upper ones. If some trial draws every point once, the eigenvalues
lie between the bounds; without this they need not (`c143_range_violated`). -/
theorem c143_range_partial {E : External m} (hE : ExternalOK E) (P : Fin m → MParam) (hm : 0 < m) (p : ℕ) (c : List ℝ)
    (hc : c.length = (fitElements m p).length) (X : Matrix (Fin (k + 1)) (Fin m) ℝ) (ys : Fin (k + 1) → ℝ)
    (draws : Fin 50 → Fin (k + 1) → Fin (k + 1)) :
    ∃ s lo hi, activeOfPoly E ⟨orderBasis P p, c⟩ X ys = .ok s ∧ bootstrapOfPoly E ⟨orderBasis P p, c⟩ X ys draws = .ok (s, lo, hi) ∧
      Spec.Spectrum (Spec.meanGrad (comb P p c) X) s.eigenvalues ∧
      (∃ lam : Fin 50 → Fin m → ℝ, (∀ t, Spec.Spectrum (Spec.meanGrad (comb P p c) (X.submatrix (draws t) id)) (lam t)) ∧
        ∀ j, IsLeast (Set.range fun t => lam t j) (lo j) ∧ IsGreatest (Set.range fun t => lam t j) (hi j)) ∧
      Antitone lo ∧ Antitone hi ∧ (∀ j, 0 ≤ lo j ∧ lo j ≤ hi j) ∧
      ((∃ t, Function.Bijective (draws t)) → ∀ j, lo j ≤ s.eigenvalues j ∧ s.eigenvalues j ≤ hi j) := by
  obtain ⟨s, h1, h2, lo, hi, h3, h4⟩ := bootstrap_eq E P hm p c hc X ys draws
  have hsp : ∀ t, Spec.Spectrum (Spec.meanGrad (comb P p c) (X.submatrix (draws t) id)) (trialEigs E (comb P p c) X (draws t)) :=
    fun t => flip_orth (hE.eigh _ (meanGrad_symm _ _))
  have he := hE.eigh _ (meanGrad_symm (comb P p c) X)
  have hs : s.eigenvalues = fun j => (E.eigh (Spec.meanGrad (comb P p c) X)).1 j.rev := by
    ext j
    rw [h2 j, argsort_monotone he.2.2 (hE.argsort _)]
  refine ⟨s, lo, hi, h1, h3, hs ▸ flip_orth he, ⟨_, hsp, h4⟩, fun a b hab => ?_, fun a b hab => ?_, fun j => ?_, ?_⟩
  · obtain ⟨t, ht⟩ := (h4 a).1.1
    exact ((h4 b).1.2 ⟨t, rfl⟩).trans (((hsp t).1 hab).trans ht.le)
  · obtain ⟨t, ht⟩ := (h4 b).2.1
    exact ht.ge.trans (((hsp t).1 hab).trans ((h4 a).2.2 ⟨t, rfl⟩))
  · obtain ⟨t, ht⟩ := (h4 j).1.1
    exact ⟨ht ▸ spectrum_nonneg (hsp t) j, ((h4 j).1.2 ⟨t, rfl⟩).trans ((h4 j).2.2 ⟨t, rfl⟩)⟩
  · rintro ⟨t, ht⟩ j
    have e : s.eigenvalues j = trialEigs E (comb P p c) X (draws t) j := by
      rw [hs, trialEigs, meanGrad_perm _ _ ht]
    rw [e]
    exact ⟨(h4 j).1.2 ⟨t, rfl⟩, (h4 j).2.2 ⟨t, rfl⟩⟩

theorem spectrum_zero {lam : Fin m → ℝ} (h : Spec.Spectrum 0 lam) (j : Fin m) : lam j = 0 := by
  obtain ⟨-, W, h1, h2⟩ := h
  have h3 : diagonal lam = 0 := by
    rw [← Matrix.one_mul (diagonal lam), ← h1, Matrix.mul_assoc, ← h2, Matrix.zero_mul, Matrix.mul_zero]
  simpa using congrFun (congrFun h3 j) j

/-- C143 is false: whenever the gradient vanishes at some but not all of the points, trials that draw only points at which it vanishes
give ranges that do not contain the leading eigenvalue. -/
theorem c143_range_violated {E : External m} (hE : ExternalOK E) (P : Fin m → MParam) (hm : 0 < m) (p : ℕ) (c : List ℝ)
    (hc : c.length = (fitElements m p).length) (X : Matrix (Fin (k + 1)) (Fin m) ℝ) (ys : Fin (k + 1) → ℝ) (i₀ i₁ : Fin (k + 1))
    (v : Fin m) (h₀ : ∀ v, eval (X i₀) (pderiv v (comb P p c)) = 0) (h₁ : eval (X i₁) (pderiv v (comb P p c)) ≠ 0) :
    ∃ draws s lo hi, bootstrapOfPoly E ⟨orderBasis P p, c⟩ X ys draws = .ok (s, lo, hi) ∧ hi ⟨0, hm⟩ < s.eigenvalues ⟨0, hm⟩ := by
  obtain ⟨s, lo, hi, -, h3, h4, ⟨lam, h5, h6⟩, -⟩ := c143_range_partial hE P hm p c hc X ys fun _ _ => i₀
  refine ⟨_, s, lo, hi, h3, ?_⟩
  have e0 : hi ⟨0, hm⟩ = 0 := by
    obtain ⟨t, ht⟩ := (h6 ⟨0, hm⟩).2.1
    rw [← ht]
    have : Spec.meanGrad (comb P p c) (X.submatrix (fun _ : Fin (k + 1) => i₀) id) = 0 := by
      ext a b
      have : ∀ i v, eval (X.submatrix (fun _ : Fin (k + 1) => i₀) id i) (pderiv v (comb P p c)) = 0 := fun _ v => h₀ v
      simp [Spec.meanGrad, this]
    exact spectrum_zero (this ▸ h5 t) _
  rw [e0]
  by_contra hn
  have hz : ∀ j, s.eigenvalues j = 0 := fun j =>
    le_antisymm ((h4.1 (show (⟨0, hm⟩ : Fin m) ≤ j from Fin.le_def.2 (Nat.zero_le _))).trans (not_lt.1 hn)) (spectrum_nonneg h4 j)
  obtain ⟨-, W, h7, h8⟩ := h4
  have h9 : Spec.meanGrad (comb P p c) X = 0 := by
    have hW : W * Wᵀ = 1 := mul_eq_one_comm.1 h7
    rw [← Matrix.mul_one (Spec.meanGrad _ _), ← hW, ← Matrix.mul_assoc, h8, show s.eigenvalues = 0 from _root_.funext hz]
    simp
  have h10 := congrFun (congrFun h9 v) v
  have h11 : (0 : ℝ) < ∑ i, eval (X i) (pderiv v (comb P p c)) * eval (X i) (pderiv v (comb P p c)) :=
    Finset.sum_pos' (fun i _ => mul_self_nonneg _) ⟨i₁, Finset.mem_univ _, mul_self_pos.2 h₁⟩
  simp only [Spec.meanGrad, Matrix.zero_apply] at h10
  have : (0 : ℝ) < ((k + 1 : ℕ) : ℝ) := by positivity
  exact (div_pos h11 this).ne' h10

/-- Non-vacuity: `x²` at the points `0` and `1`, and draws that contain every point once. -/
example : ∃ c : List ℝ, c.length = (fitElements 1 2).length ∧
    (∀ v, eval (![0] : Fin 1 → ℝ) (pderiv v (comb (fun _ : Fin 1 => uniformParam (-1) 1) 2 c)) = 0) ∧
    eval (![1] : Fin 1 → ℝ) (pderiv 0 (comb (fun _ : Fin 1 => uniformParam (-1) 1) 2 c)) ≠ 0 := by
  obtain ⟨c, hc⟩ := phis_span (fun _ : Fin 1 => uniformParam (-1) 1) (fun i j hj => uniform_pos (by norm_num) j hj) one_pos 2 (X 0 ^ 2)
    ((totalDegree_pow _ _).trans (by simp))
  have h : comb (fun _ : Fin 1 => uniformParam (-1) 1) 2 (List.ofFn c) = X 0 ^ 2 := by
    rw [hc, comb]
    exact Finset.sum_congr rfl fun r _ => by rw [ofFn_getD]
  refine ⟨List.ofFn c, by simp, fun v => ?_, ?_⟩
  · rw [h, Subsingleton.elim v 0]
    simp [pderiv_X]
  · rw [h]
    simp [pderiv_X]

example : ExternalOK (someExternal 1) ∧ ∃ draws : Fin 50 → Fin 2 → Fin 2, ∃ t, Function.Bijective (draws t) :=
  ⟨someExternal_ok 1, fun _ => id, 0, Function.bijective_id⟩

end EQ.Sub
