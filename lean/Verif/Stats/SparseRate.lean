import Verif.Stats.SparseNoise
import Mathlib.Analysis.SpecificLimits.Normed
import Mathlib.Analysis.Normed.Group.FunctionSeries

/-!
# Sparse-grid fits of analytic models converge (C209)
-/

namespace EQ.Stats
open EQ.Param EQ.ParamSpec EQ.Basis EQ.Sampling EQ.Sampling.Spec EQ.Poly EQ.Poly.Spec EQ.Stats.Spec Set Filter

/-! ## Specification -/

/-- On the box the model is the sum of polynomials `p₀ + p₁ + …` of degrees at most `0, 1, …` that decay geometrically, as the terms of a power series do. -/
structure Geometric {d : ℕ} (l u : Fin d → ℝ) (f : List ℝ → ℝ) (p : ℕ → MvPolynomial (Fin d) ℝ) (C ρ : ℝ) : Prop where
  degree : ∀ k, (p k).totalDegree ≤ k
  nonneg : 0 ≤ ρ
  lt_one : ρ < 1
  bound : ∀ k, ∀ w ∈ Icc l u, |MvPolynomial.eval w (p k)| ≤ C * ρ ^ k
  sum : ∀ w ∈ Icc l u, HasSum (fun k => MvPolynomial.eval w (p k)) (f (List.ofFn w))

/-! ## Lemmas -/

theorem Geometric.tail {d : ℕ} {l u : Fin d → ℝ} {f : List ℝ → ℝ} {p : ℕ → MvPolynomial (Fin d) ℝ} {C ρ : ℝ} (h : Geometric l u f p C ρ) (n : ℕ) (w : Fin d → ℝ) (hw : w ∈ Icc l u) :
    |f (List.ofFn w) - MvPolynomial.eval w (∑ k ∈ Finset.range n, p k)| ≤ C * ρ ^ n / (1 - ρ) := by
  have := norm_sub_le_of_geometric_bound_of_hasSum h.lt_one (fun k => h.bound k w hw) (h.sum w hw) n
  rw [abs_sub_comm, map_sum]
  exact this

theorem Geometric.continuousOn {d : ℕ} {l u : Fin d → ℝ} {f : List ℝ → ℝ} {p : ℕ → MvPolynomial (Fin d) ℝ} {C ρ : ℝ} (h : Geometric l u f p C ρ) :
    ContinuousOn (fun v => f (List.ofFn v)) (Icc l u) := by
  have hs : Summable fun k => C * ρ ^ k := (summable_geometric_of_lt_one h.nonneg h.lt_one).mul_left C
  have := continuousOn_tsum (fun k => (MvPolynomial.continuous_eval (p k)).continuousOn) hs fun k w hw => h.bound k w hw
  exact this.congr fun w hw => (h.sum w hw).tsum_eq.symm

theorem Geometric.degree_le {d : ℕ} {l u : Fin d → ℝ} {f : List ℝ → ℝ} {p : ℕ → MvPolynomial (Fin d) ℝ} {C ρ : ℝ} (h : Geometric l u f p C ρ) (n : ℕ) :
    (∑ k ∈ Finset.range (n + 1), p k).totalDegree ≤ n :=
  MvPolynomial.totalDegree_finsetSum_le fun k hk => (h.degree k).trans (Nat.lt_succ_iff.1 (Finset.mem_range.1 hk))

/-- **C209, the bound.** The error of the fit of level `ℓ`, of its mean and of its standard deviation are at most `(1 + K) C ρ^(ℓ+1) / (1 - ρ)`. -/
theorem c209_bound {d : ℕ} (hd : d ≠ 0) (P : Fin d → MParam) (A B l u : Fin d → ℝ) (hI : ∀ i, BetaInput (P i) (A i) (B i) (l i) (u i))
    (hone : ∀ i, ∀ t ∈ ((P i).localRule 0).pts, t ∈ Icc (l i) (u i)) (f : List ℝ → ℝ) (p : ℕ → MvPolynomial (Fin d) ℝ) (C ρ : ℝ) (hf : Geometric l u f p C ρ)
    (level : ℕ) (hlev : 1 ≤ level) (g : Growth) (hg : g ≠ .other) (E0 : List (List ℕ)) :
    ∃ (E : List (List ℕ)) (c : List ℝ) (fit : List ℝ → ℝ) (m v : ℝ), sparseSetModel ⟨List.ofFn P, E0, none⟩ level g f = .ok (⟨List.ofFn P, E, none⟩, c) ∧
      (∀ x : List ℝ, x.length = d → Expansion.polyfit ⟨List.ofFn P, E, none⟩ c [x] = .ok [fit x]) ∧ mean c = .ok m ∧ variance c = .ok v ∧
      let δ := (1 + ∑ k ∈ Finset.range d, ((d - 1).choose k : ℝ) * ((level + d - 1 + k).choose (d - 1) : ℝ)) * (C * ρ ^ (level + 1) / (1 - ρ))
      prodE (List.ofFn fun i => betaE (A i) (B i) (l i) (u i)) (fun x => (f x - fit x) ^ 2) ≤ δ ^ 2 ∧
      |m - prodE (List.ofFn fun i => betaE (A i) (B i) (l i) (u i)) f| ≤ δ ∧
      |√v - √(lawVar (List.ofFn fun i => betaE (A i) (B i) (l i) (u i)) f)| ≤ δ := by
  obtain ⟨L, orders, factors, S, hS, -⟩ := c08_sparse_grid_basis level d hd g hg
  obtain ⟨E, c, fit, m, v, h1, h2, h3, h4, h5⟩ := c206_degree hd P A B l u hI hone level hlev g hg orders factors S E0 hS f hf.continuousOn
  refine ⟨E, c, fit, m, v, h1, h2, h3, h4, ?_⟩
  rw [← c208_constant d hd level g hg orders factors S hS]
  exact h5 (∑ k ∈ Finset.range (level + 1), p k) (hf.degree_le level) _ fun w hw => hf.tail (level + 1) w hw

/-- The constant grows like a power of the level. -/
theorem constant_le (d level : ℕ) :
    1 + ∑ k ∈ Finset.range d, ((d - 1).choose k : ℝ) * ((level + d - 1 + k).choose (d - 1) : ℝ) ≤ (1 + d * 2 ^ (d - 1)) * ((level : ℝ) + 1 + 2 * d) ^ (d - 1) := by
  have hb : (1 : ℝ) ≤ ((level : ℝ) + 1 + 2 * d) ^ (d - 1) := one_le_pow₀ (by
    have : (0 : ℝ) ≤ level := Nat.cast_nonneg _
    have : (0 : ℝ) ≤ d := Nat.cast_nonneg _
    linarith)
  have hk : ∀ k ∈ Finset.range d, ((d - 1).choose k : ℝ) * ((level + d - 1 + k).choose (d - 1) : ℝ) ≤ 2 ^ (d - 1) * ((level : ℝ) + 1 + 2 * d) ^ (d - 1) := by
    intro k hk
    have hk := Finset.mem_range.1 hk
    have h1 : ((d - 1).choose k : ℝ) ≤ 2 ^ (d - 1) := by exact_mod_cast Nat.choose_le_two_pow (d - 1) k
    have h2 : ((level + d - 1 + k).choose (d - 1) : ℝ) ≤ ((level : ℝ) + 1 + 2 * d) ^ (d - 1) := by
      have e : (level + d - 1 + k).choose (d - 1) ≤ (level + 1 + 2 * d) ^ (d - 1) :=
        (Nat.choose_le_pow (level + d - 1 + k) (d - 1)).trans (Nat.pow_le_pow_left (by omega) _)
      exact_mod_cast e
    exact mul_le_mul h1 h2 (Nat.cast_nonneg _) (by positivity)
  have := Finset.sum_le_sum hk
  rw [Finset.sum_const, Finset.card_range, nsmul_eq_mul] at this
  nlinarith

/-- **C209.** Fits of such a model on sparse grids converge: for every accuracy there is a level from which on the errors of the fit, of the mean and of the standard deviation stay below it. -/
theorem c209_convergence {d : ℕ} (hd : d ≠ 0) (P : Fin d → MParam) (A B l u : Fin d → ℝ) (hI : ∀ i, BetaInput (P i) (A i) (B i) (l i) (u i))
    (hone : ∀ i, ∀ t ∈ ((P i).localRule 0).pts, t ∈ Icc (l i) (u i)) (f : List ℝ → ℝ) (p : ℕ → MvPolynomial (Fin d) ℝ) (C ρ : ℝ) (hf : Geometric l u f p C ρ) (η : ℝ) (hη : 0 < η) :
    ∃ level0, ∀ level, level0 ≤ level → ∀ g : Growth, g ≠ .other → ∀ E0 : List (List ℕ),
    ∃ (E : List (List ℕ)) (c : List ℝ) (fit : List ℝ → ℝ) (m v : ℝ), sparseSetModel ⟨List.ofFn P, E0, none⟩ level g f = .ok (⟨List.ofFn P, E, none⟩, c) ∧
      (∀ x : List ℝ, x.length = d → Expansion.polyfit ⟨List.ofFn P, E, none⟩ c [x] = .ok [fit x]) ∧ mean c = .ok m ∧ variance c = .ok v ∧
      prodE (List.ofFn fun i => betaE (A i) (B i) (l i) (u i)) (fun x => (f x - fit x) ^ 2) ≤ η ^ 2 ∧
      |m - prodE (List.ofFn fun i => betaE (A i) (B i) (l i) (u i)) f| ≤ η ∧
      |√v - √(lawVar (List.ofFn fun i => betaE (A i) (B i) (l i) (u i)) f)| ≤ η := by
  have hC : 0 ≤ C := by
    have := hf.bound 0 l ⟨le_rfl, fun i => (hI i).range.le⟩
    rw [pow_zero, mul_one] at this
    exact (abs_nonneg _).trans this
  have hlim : Tendsto (fun n : ℕ => ((n + 1 + 2 * d : ℕ) : ℝ) ^ (d - 1) * ρ ^ (n + 1 + 2 * d)) atTop (nhds 0) := by
    have h := tendsto_pow_const_mul_const_pow_of_abs_lt_one (d - 1) (show |ρ| < 1 by rw [abs_of_nonneg hf.nonneg]; exact hf.lt_one)
    have := h.comp (tendsto_add_atTop_nat (1 + 2 * d))
    simpa [Function.comp_def, add_assoc] using this
  rcases hf.nonneg.eq_or_lt with h0 | hpos
  · -- only the first term
    refine ⟨1, fun level hl g hg E0 => ?_⟩
    obtain ⟨E, c, fit, m, v, h1, h2, h3, h4, h5, h6, h7⟩ := c209_bound hd P A B l u hI hone f p C ρ hf level hl g hg E0
    rw [← h0, zero_pow (by omega), mul_zero, zero_div, mul_zero] at h5 h6 h7
    exact ⟨E, c, fit, m, v, h1, h2, h3, h4, h5.trans (by simp; positivity), h6.trans hη.le, h7.trans hη.le⟩
  · set M := (1 + (d : ℝ) * 2 ^ (d - 1)) * (C / (1 - ρ)) / ρ ^ (2 * d) with hM
    have hlim2 := hlim.const_mul M
    rw [mul_zero] at hlim2
    obtain ⟨N, hN⟩ := eventually_atTop.1 (hlim2.eventually (gt_mem_nhds hη))
    refine ⟨max 1 N, fun level hl g hg E0 => ?_⟩
    obtain ⟨E, c, fit, m, v, h1, h2, h3, h4, h5, h6, h7⟩ := c209_bound hd P A B l u hI hone f p C ρ hf level (le_trans (le_max_left _ _) hl) g hg E0
    set δ := (1 + ∑ k ∈ Finset.range d, ((d - 1).choose k : ℝ) * ((level + d - 1 + k).choose (d - 1) : ℝ)) * (C * ρ ^ (level + 1) / (1 - ρ)) with hδ
    have h1ρ : 0 < 1 - ρ := by linarith [hf.lt_one]
    have hδ0 : 0 ≤ δ := by
      rw [hδ]
      have : 0 ≤ ∑ k ∈ Finset.range d, ((d - 1).choose k : ℝ) * ((level + d - 1 + k).choose (d - 1) : ℝ) := Finset.sum_nonneg fun k _ => by positivity
      positivity
    have hle : δ ≤ η := by
      refine le_trans ?_ (hN level (le_trans (le_max_right _ _) hl)).le
      have hq : 0 ≤ C * ρ ^ (level + 1) / (1 - ρ) := by positivity
      refine (mul_le_mul_of_nonneg_right (constant_le d level) hq).trans (le_of_eq ?_)
      rw [hM]
      push_cast
      rw [show level + 1 + 2 * d = (level + 1) + 2 * d from rfl, pow_add ρ (level + 1) (2 * d)]
      field_simp
    exact ⟨E, c, fit, m, v, h1, h2, h3, h4, h5.trans (pow_le_pow_left₀ hδ0 hle 2), h6.trans hle, h7.trans hle⟩

/-- The hypotheses can be met: two uniform inputs on `[-1, 1]` and the model `1 / (1 - x/2)`, whose terms are `(x/2)^k`. -/
example : ∃ P : MParam, BetaInput P 1 1 (-1) 1 ∧ (∀ t ∈ (P.localRule 0).pts, t ∈ Icc (-1 : ℝ) 1) ∧
    Geometric (fun _ : Fin 2 => -1) (fun _ => 1) (fun x => (1 - x.getD 0 0 / 2)⁻¹) (fun k => MvPolynomial.C ((1 / 2) ^ k) * MvPolynomial.X 0 ^ k) 1 (1 / 2) := by
  obtain ⟨P, hv, hab, hl, hu, -⟩ := exists_valid (jtab (1 - 1) (1 - 1) (-1) 1)
    (by norm_num [jtab, jacobiRow]) (fun k hk => beta_tab_pos one_pos one_pos (by norm_num) k hk) (some (-1)) (some 1) 0
  have hx : ∀ w ∈ Icc (fun _ : Fin 2 => (-1 : ℝ)) (fun _ => 1), |w 0| ≤ 1 := fun w hw => abs_le.2 ⟨hw.1 0, hw.2 0⟩
  refine ⟨P, ⟨hv, one_pos, one_pos, by norm_num, hab⟩, fun t ht => ?_, ⟨fun k => ?_, by norm_num, by norm_num, fun k w hw => ?_, fun w hw => ?_⟩⟩
  · simp [MParam.localRule, onePointRule, hl, hu, falsy] at ht
    subst ht
    norm_num
  · refine (MvPolynomial.totalDegree_mul _ _).trans ?_
    rw [MvPolynomial.totalDegree_C, MvPolynomial.totalDegree_X_pow, zero_add]
  · rw [map_mul, MvPolynomial.eval_C, map_pow, MvPolynomial.eval_X, abs_mul, abs_pow, abs_pow, one_mul, abs_of_pos (by norm_num : (0 : ℝ) < 1 / 2)]
    exact mul_le_of_le_one_right (by positivity) (pow_le_one₀ (abs_nonneg _) (hx w hw))
  · have h : |w 0 / 2| < 1 := by
      rw [abs_div, abs_two]
      linarith [hx w hw]
    have := hasSum_geometric_of_abs_lt_one h
    have e : (fun k : ℕ => MvPolynomial.eval w (MvPolynomial.C ((1 / 2 : ℝ) ^ k) * MvPolynomial.X 0 ^ k)) = fun k => (w 0 / 2) ^ k := by
      funext k
      rw [map_mul, MvPolynomial.eval_C, map_pow, MvPolynomial.eval_X, ← mul_pow]
      ring
    rw [e]
    simpa using this

end EQ.Stats
