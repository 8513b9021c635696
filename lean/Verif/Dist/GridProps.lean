import Verif.Dist.AffineLemmas
import Verif.Dist.DensityProps

/-!
# Recurrence coefficients computed on a grid (C112, C113, C114)
-/

namespace EQ.Dist
open EQ.DistSpec EQ.DistLemmas EQ.Basis EQ.Param Polynomial

/-- **C113, recurrence coefficients.** If the sample points are mapped by `t ↦ α t + β` (with `α ≠ 0`) and the weights are
multiplied by a positive constant, the coefficients are mapped accordingly and the orthonormal polynomials take the same values
at corresponding points, up to the sign `(sign α)^j`. -/
theorem c113_affine (x w : List ℝ) (hw : ∀ v ∈ w, 0 ≤ v) (hs : w.sum ≠ 0) (α β γ : ℝ) (hα : α ≠ 0) (hγ : 0 < γ)
    (order m : ℕ) (ho : 1 ≤ order) (hm : m ≤ order + 1)
    (hd : m < (((x.zip w).filter fun q => q.2 ≠ 0).map Prod.fst).toFinset.card) :
    (∀ k ≤ m, customCoeffs (x.map fun t => α * t + β) (w.map fun v => γ * v) order k =
      (α * (customCoeffs x w order k).1 + β,
        if k = 0 then (customCoeffs x w order k).2 else α ^ 2 * (customCoeffs x w order k).2)) ∧
    ∀ j ≤ m, ∀ t, (orthoTables (customCoeffs (x.map fun t => α * t + β) (w.map fun v => γ * v) order) (m + 1) (α * t + β)).poly j =
      (α / |α|) ^ j * (orthoTables (customCoeffs x w order) (m + 1) t).poly j := by
  have h1 : ∀ k ≤ m, customCoeffs (x.map fun t => α * t + β) (w.map fun v => γ * v) order k =
      (α * (customCoeffs x w order k).1 + β,
        if k = 0 then (customCoeffs x w order k).2 else α ^ 2 * (customCoeffs x w order k).2) := by
    intro k hk
    rw [customCoeffs_eq _ _ order k ho (by omega), customCoeffs_eq _ _ order k ho (by omega)]
    exact (affine_rows _ _ α β (dsum_affine x w α β γ hγ.ne') hα m (custom_sq_ne x w hw hs m hd) k hk).2
  refine ⟨h1, fun j hj t => ?_⟩
  rw [(orthoTables_eq _ (m + 1) _ j (by omega)).1, (orthoTables_eq _ (m + 1) _ j (by omega)).1]
  refine opoly_affine _ _ α β hα m (fun k hk1 hk2 => ?_) h1 t j hj
  rw [customCoeffs_eq _ _ order k ho (by omega)]
  obtain ⟨f1, f2⟩ := customData_facts x w hw hs
  exact (customT_orthonormal (customData x w) f1 m (by rw [f2]; exact hd)).1 k hk1 hk2

/-- Three points of equal weight. -/
example : (∀ v ∈ ([1, 1, 1] : List ℝ), 0 ≤ v) ∧ ([1, 1, 1] : List ℝ).sum ≠ 0 ∧
    2 < (((([0, 1, 3] : List ℝ).zip [1, 1, 1]).filter fun q => q.2 ≠ 0).map Prod.fst).toFinset.card := by
  refine ⟨by simp, by norm_num, ?_⟩
  have : ((([0, 1, 3] : List ℝ).zip [1, 1, 1]).filter fun q => q.2 ≠ 0).map Prod.fst = [0, 1, 3] := by simp
  rw [this, List.toFinset_card_of_nodup]
  · simp
  · norm_num

theorem linspace_affine (lo hi : ℝ) (n : ℕ) (α β : ℝ) :
    linspace (α * lo + β, α * hi + β, n) = (linspace (lo, hi, n)).map fun t => α * t + β := by
  simp only [linspace, List.map_map]
  apply List.map_congr_left
  intro i _
  simp only [Function.comp]
  ring

theorem linspace_nodup (lo hi : ℝ) (h : lo < hi) (n : ℕ) : (linspace (lo, hi, n)).Nodup := by
  simp only [linspace]
  rcases Nat.lt_or_ge n 2 with hn | hn
  · interval_cases n <;> simp
  refine List.Nodup.map ?_ List.nodup_range
  intro i j hij
  have hn1 : (0 : ℝ) < n - 1 := by
    have : (2 : ℝ) ≤ n := by exact_mod_cast hn
    linarith
  have hne : (hi - lo) / ((n : ℝ) - 1) ≠ 0 := (div_pos (sub_pos.2 h) hn1).ne'
  simp only [add_right_inj, mul_eq_mul_left_iff, hne, or_false, Nat.cast_inj] at hij
  exact hij

theorem grid_card (f : ℝ → ℝ) (lo hi : ℝ) (h : lo < hi) (n m : ℕ) (hf : ∀ x ∈ linspace (lo, hi, n), x ≠ lo → 0 < f x)
    (hm : m + 1 < n) :
    m < ((((linspace (lo, hi, n)).zip ((linspace (lo, hi, n)).map f)).filter fun q => q.2 ≠ 0).map Prod.fst).toFinset.card := by
  have hnd := linspace_nodup lo hi h n
  have hlen : (linspace (lo, hi, n)).length = n := by simp [linspace]
  have hsub : (linspace (lo, hi, n)).toFinset.erase lo ⊆
      ((((linspace (lo, hi, n)).zip ((linspace (lo, hi, n)).map f)).filter fun q => q.2 ≠ 0).map Prod.fst).toFinset := by
    intro x hx
    rw [Finset.mem_erase, List.mem_toFinset] at hx
    rw [List.mem_toFinset, List.mem_map]
    refine ⟨(x, f x), ?_, rfl⟩
    rw [List.mem_filter]
    refine ⟨?_, by simpa using (hf x hx.2 hx.1).ne'⟩
    have e : (linspace (lo, hi, n)).zip ((linspace (lo, hi, n)).map f) = (linspace (lo, hi, n)).map fun y => (y, f y) := by
      have := List.zip_map' (f := id) (g := f) (l := linspace (lo, hi, n))
      simpa using this
    rw [e, List.mem_map]
    exact ⟨x, hx.2, rfl⟩
  have h1 := Finset.card_le_card hsub
  have h2 := Finset.pred_card_le_card_erase (s := (linspace (lo, hi, n)).toFinset) (a := lo)
  rw [List.toFinset_card_of_nodup hnd, hlen] at h2
  omega

theorem grid_sum_ne (f : ℝ → ℝ) (lo hi : ℝ) (h : lo < hi) (n : ℕ) (hn : 2 ≤ n) (h0 : ∀ x, 0 ≤ f x)
    (hf : ∀ x ∈ linspace (lo, hi, n), x ≠ lo → 0 < f x) :
    (∀ v ∈ (linspace (lo, hi, n)).map f, 0 ≤ v) ∧ ((linspace (lo, hi, n)).map f).sum ≠ 0 := by
  have hv : ∀ v ∈ (linspace (lo, hi, n)).map f, 0 ≤ v := by
    intro v hv
    obtain ⟨x, -, rfl⟩ := List.mem_map.1 hv
    exact h0 x
  refine ⟨hv, ?_⟩
  have hn1 : (0 : ℝ) < n - 1 := by
    have : (2 : ℝ) ≤ n := by exact_mod_cast hn
    linarith
  have hmem : hi ∈ linspace (lo, hi, n) := by
    simp only [linspace, List.mem_map, List.mem_range]
    refine ⟨n - 1, by omega, ?_⟩
    rw [Nat.cast_sub (by omega)]
    push_cast
    field_simp
    ring
  have h1 := hf hi hmem h.ne'
  have h2 : f hi ≤ ((linspace (lo, hi, n)).map f).sum :=
    List.single_le_sum hv _ (List.mem_map.2 ⟨hi, hmem, rfl⟩)
  linarith

/-- Two grid tables for densities related by an affine map. -/
theorem grid_affine (f g : ℝ → ℝ) (lo hi : ℝ) (h : lo < hi) (n : ℕ) (h0 : ∀ x, 0 ≤ f x)
    (hf : ∀ x ∈ linspace (lo, hi, n), x ≠ lo → 0 < f x) (α β γ : ℝ) (hα : α ≠ 0) (hγ : 0 < γ)
    (hg : ∀ x, g (α * x + β) = γ * f x) (order m : ℕ) (ho : 1 ≤ order) (hm : m ≤ order + 1) (hn : m + 1 < n) :
    (∀ k ≤ m, gridCoeffs g (α * lo + β, α * hi + β, n) order k =
      (α * (gridCoeffs f (lo, hi, n) order k).1 + β,
        if k = 0 then (gridCoeffs f (lo, hi, n) order k).2 else α ^ 2 * (gridCoeffs f (lo, hi, n) order k).2)) ∧
    ∀ j ≤ m, ∀ t, (orthoTables (gridCoeffs g (α * lo + β, α * hi + β, n) order) (m + 1) (α * t + β)).poly j =
      (α / |α|) ^ j * (orthoTables (gridCoeffs f (lo, hi, n) order) (m + 1) t).poly j := by
  obtain ⟨h1, h2⟩ := grid_sum_ne f lo hi h n (by omega) h0 hf
  have := c113_affine (linspace (lo, hi, n)) ((linspace (lo, hi, n)).map f) h1 h2 α β γ hα hγ order m ho hm
    (grid_card f lo hi h n m hf hn)
  have e : (linspace (α * lo + β, α * hi + β, n)).map g = ((linspace (lo, hi, n)).map f).map fun v => γ * v := by
    rw [linspace_affine, List.map_map, List.map_map]
    apply List.map_congr_left
    intro x _
    exact hg x
  simp only [gridCoeffs]
  rw [e, linspace_affine]
  exact this

theorem phi_pos (x : ℝ) : 0 < phi x := by unfold phi; positivity

/-- **C113, Gaussian parameters.** The recurrence coefficients of a Gaussian parameter with mean `m` and variance `v` are those
of the standard Gaussian parameter, moved by `m` and scaled by `√v`; its orthonormal polynomials at `m + √v t` are those of the
standard one at `t`. -/
theorem c113_gaussian (w : World) (m v : ℝ) (hv : 0 < v) (e e' : Option Endpoints) (d d' : Attrs)
    (h : mkParameter w .gaussian ⟨some m, some v, none, none⟩ e = .ok d)
    (h' : mkParameter w .gaussian ⟨some 0, some 1, none, none⟩ e' = .ok d') (order N : ℕ) (ho : 1 ≤ order) (hN : N ≤ order + 1)
    (hn : N < 7999) :
    ∃ L L' r r', d.law = some L ∧ d'.law = some L' ∧ d.range = some r ∧ d'.range = some r' ∧
      (∀ k ≤ N, gridCoeffs (density L) r order k =
        (√v * (gridCoeffs (density L') r' order k).1 + m,
          if k = 0 then (gridCoeffs (density L') r' order k).2 else v * (gridCoeffs (density L') r' order k).2)) ∧
      ∀ j ≤ N, ∀ t, (orthoTables (gridCoeffs (density L) r order) (N + 1) (√v * t + m)).poly j =
        (orthoTables (gridCoeffs (density L') r' order) (N + 1) t).poly j := by
  have h := mkParameter_ok h
  have h' := mkParameter_ok h'
  simp only [construct, gaussian, Except.ok.injEq] at h h'
  subst h
  subst h'
  have hs : 0 < √v := Real.sqrt_pos.2 hv
  refine ⟨_, _, _, _, rfl, rfl, rfl, rfl, ?_⟩
  have key := grid_affine phi (density (.norm m (√v))) (-15) 15 (by norm_num) 8000 (fun x => (phi_pos x).le)
    (fun x _ _ => phi_pos x) (√v) m (√v)⁻¹ hs.ne' (inv_pos.2 hs) (fun x => by
      simp only [density, locScale]
      rw [add_sub_cancel_right, mul_div_cancel_left₀ _ hs.ne']
      ring) order N ho hN (by omega)
  have e1 : density (.norm 0 (√1)) = phi := by
    funext x
    simp [density, locScale]
  have e2 : ((-15 * √1 + 0, 15 * √1 + 0, 8000) : ℝ × ℝ × ℕ) = (-15, 15, 8000) := by simp
  have e3 : ((-15 * √v + m, 15 * √v + m, 8000) : ℝ × ℝ × ℕ) = (√v * -15 + m, √v * 15 + m, 8000) := by
    rw [mul_comm (-15), mul_comm 15]
  rw [e1, e2, e3]
  rw [abs_of_pos hs, div_self hs.ne', Real.sq_sqrt hv.le] at key
  simpa using key

example (w : World) : ∃ d d', mkParameter w .gaussian ⟨some 3, some 4, none, none⟩ none = .ok d ∧
    mkParameter w .gaussian ⟨some 0, some 1, none, none⟩ none = .ok d' := ⟨_, _, rfl, rfl⟩

/-- **C113, gamma and Rayleigh parameters.** Scaling the parameter scales its recurrence coefficients and leaves its polynomials
at corresponding points unchanged. (For gamma parameters with shape above 1: otherwise the density at the first grid point is not
finite.) -/
theorem c113_scale (w : World) (a s : ℝ) (ha : 1 < a) (hs : 0 < s) (order N : ℕ) (ho : 1 ≤ order) (hN : N ≤ order + 1)
    (hn : N < 7999) (name : Name) (args args' : Args)
    (hargs : (name = .gamma ∧ args = ⟨some a, some s, none, none⟩ ∧ args' = ⟨some a, some 1, none, none⟩) ∨
      (name = .rayleigh ∧ args = ⟨some s, none, none, none⟩ ∧ args' = ⟨some 1, none, none, none⟩)) :
    ∃ d d' L L' r r', mkParameter w name args none = .ok d ∧ mkParameter w name args' none = .ok d' ∧ d.law = some L ∧
      d'.law = some L' ∧ d.range = some r ∧ d'.range = some r' ∧
      (∀ k ≤ N, gridCoeffs (density L) r order k =
        (s * (gridCoeffs (density L') r' order k).1,
          if k = 0 then (gridCoeffs (density L') r' order k).2 else s ^ 2 * (gridCoeffs (density L') r' order k).2)) ∧
      ∀ j ≤ N, ∀ t, (orthoTables (gridCoeffs (density L) r order) (N + 1) (s * t)).poly j =
        (orthoTables (gridCoeffs (density L') r' order) (N + 1) t).poly j := by
  have ha0 : 0 < a := by linarith
  have gen : ∀ f g : ℝ → ℝ, ∀ hi : ℝ, 0 < hi → (∀ x, 0 ≤ f x) → (∀ x, 0 < x → 0 < f x) → (∀ x, g (s * x) = s⁻¹ * f x) →
      (∀ k ≤ N, gridCoeffs g (0, s * hi, 8000) order k =
        (s * (gridCoeffs f (0, hi, 8000) order k).1,
          if k = 0 then (gridCoeffs f (0, hi, 8000) order k).2 else s ^ 2 * (gridCoeffs f (0, hi, 8000) order k).2)) ∧
      ∀ j ≤ N, ∀ t, (orthoTables (gridCoeffs g (0, s * hi, 8000) order) (N + 1) (s * t)).poly j =
        (orthoTables (gridCoeffs f (0, hi, 8000) order) (N + 1) t).poly j := by
    intro f g hi hhi h0 hp hg
    have key := grid_affine f g 0 hi hhi 8000 h0 (fun x hx hne => ?_) s 0 s⁻¹ hs.ne' (inv_pos.2 hs)
      (fun x => by rw [add_zero]; exact hg x) order N ho hN (by omega)
    · rw [abs_of_pos hs, div_self hs.ne'] at key
      simpa using key
    · refine hp x (lt_of_le_of_ne ?_ (Ne.symm hne))
      simp only [linspace, List.mem_map] at hx
      obtain ⟨i, -, rfl⟩ := hx
      have : (0 : ℝ) ≤ i := Nat.cast_nonneg i
      norm_num
      positivity
  rcases hargs with ⟨rfl, rfl, rfl⟩ | ⟨rfl, rfl, rfl⟩
  · refine ⟨gamma (some a) (some s), gamma (some a) (some 1), .gamma a s, .gamma a 1, (0, a * s * 10, 8000),
      (0, a * 1 * 10, 8000), ?_, ?_, ?_, ?_, ?_, ?_, ?_⟩
    · simp [mkParameter, construct, gamma, ha0]
    · simp [mkParameter, construct, gamma, ha0]
    · simp [gamma, ha0]
    · simp [gamma, ha0]
    · simp [gamma, ha0]
    · simp [gamma, ha0]
    · have e : a * s * 10 = s * (a * 1 * 10) := by ring
      rw [e]
      have g := Real.Gamma_pos_of_pos ha0
      refine gen _ _ _ (by positivity) (fun x => ?_) (fun x hx => ?_) (fun x => ?_)
      · simp only [density, locScale, sub_zero, div_one]
        split_ifs with hx
        · have := Real.rpow_pos_of_pos hx (a - 1); positivity
        · exact le_refl 0
      · simp only [density, locScale, sub_zero, div_one]
        rw [if_pos hx]
        have := Real.rpow_pos_of_pos hx (a - 1); positivity
      · simp only [density, locScale, sub_zero, div_one]
        rw [mul_div_cancel_left₀ _ hs.ne']
        ring
  · refine ⟨rayleigh (some s), rayleigh (some 1), .rayleigh s, .rayleigh 1, (0, 8 * s, 8000), (0, 8 * 1, 8000),
      ?_, ?_, ?_, ?_, ?_, ?_, ?_⟩
    · simp [mkParameter, construct, rayleigh, hs]
    · simp [mkParameter, construct, rayleigh]
    · simp [rayleigh, hs]
    · simp [rayleigh]
    · simp [rayleigh, hs]
    · simp [rayleigh]
    · rw [show 8 * s = s * (8 * 1) by ring]
      refine gen _ _ _ (by norm_num) (fun x => ?_) (fun x hx => ?_) (fun x => ?_)
      · simp only [density, locScale, sub_zero, div_one]
        split_ifs with hx
        · positivity
        · exact le_refl 0
      · simp only [density, locScale, sub_zero, div_one]
        rw [if_pos hx.le]
        positivity
      · simp only [density, locScale, sub_zero, div_one]
        rw [mul_div_cancel_left₀ _ hs.ne']
        ring

/-- A density symmetric about the middle of the grid. -/
theorem grid_symmetric (f : ℝ → ℝ) (hfpos : ∀ x, 0 < f x) (m c : ℝ) (hc0 : 0 < c) (n : ℕ)
    (hsym : ∀ x, f (-1 * x + 2 * m) = 1 * f x) (order N : ℕ) (ho : 1 ≤ order) (hN : N ≤ order + 1) (hn : N + 1 < n) :
    (∀ k ≤ N, (gridCoeffs f (-c + m, c + m, n) order k).1 = m) ∧
    ∀ j ≤ N, ∀ t, (orthoTables (gridCoeffs f (-c + m, c + m, n) order) (N + 1) (m - t)).poly j =
      (-1) ^ j * (orthoTables (gridCoeffs f (-c + m, c + m, n) order) (N + 1) (m + t)).poly j := by
  have key := grid_affine f f (-c + m) (c + m) (by linarith) n
    (fun x => (hfpos x).le) (fun x _ _ => hfpos x) (-1) (2 * m) 1 (by norm_num) one_pos hsym order N ho hN (by omega)
  -- the reflected grid is the grid in reverse order
  have hrev : linspace (-1 * (-c + m) + 2 * m, -1 * (c + m) + 2 * m, n) = (linspace (-c + m, c + m, n)).reverse := by
    apply List.ext_getElem
    · simp [linspace]
    · intro i h1 h2
      have hi : i < n := by simpa [linspace] using h1
      rw [List.getElem_reverse]
      simp only [linspace, List.getElem_map, List.getElem_range, List.length_map, List.length_range]
      rw [Nat.cast_sub (by omega), Nat.cast_sub (by omega)]
      have hn0 : (n : ℝ) - 1 ≠ 0 := by
        have : (2 : ℝ) ≤ n := by exact_mod_cast (by omega : 2 ≤ n)
        linarith
      push_cast
      field_simp
      ring
  have hsame : ∀ k, k ≤ order + 1 → gridCoeffs f (-1 * (-c + m) + 2 * m, -1 * (c + m) + 2 * m, n) order k =
      gridCoeffs f (-c + m, c + m, n) order k := by
    intro k hk
    simp only [gridCoeffs]
    rw [customCoeffs_eq _ _ order k ho hk, customCoeffs_eq _ _ order k ho hk, hrev]
    have hds : ∀ p : ℝ[X], dsum (customData (linspace (-c + m, c + m, n)).reverse
        ((linspace (-c + m, c + m, n)).reverse.map f)) p =
        dsum (customData (linspace (-c + m, c + m, n)) ((linspace (-c + m, c + m, n)).map f)) p := by
      intro p
      have e1 : ∀ l : List ℝ, l.zip (l.map f) = l.map fun y => (y, f y) := fun l => by
        have := List.zip_map' (f := id) (g := f) (l := l)
        simpa using this
      rw [dsum_customData, dsum_customData, e1, e1, List.map_reverse, List.map_reverse, List.sum_reverse, List.map_reverse,
        List.sum_reverse]
    obtain ⟨h1, h2⟩ := grid_sum_ne f (-c + m) (c + m) (by linarith) n (by omega) (fun x => (hfpos x).le)
      (fun x _ _ => hfpos x)
    -- equal functionals give equal tables
    have hT : ∀ k, customT (customData (linspace (-c + m, c + m, n)).reverse
        ((linspace (-c + m, c + m, n)).reverse.map f)) k =
        customT (customData (linspace (-c + m, c + m, n)) ((linspace (-c + m, c + m, n)).map f)) k := by
      intro k
      induction k using Nat.strong_induction_on with
      | _ k ih =>
        have hmp : ∀ j ≤ k, mpoly (customT (customData (linspace (-c + m, c + m, n)).reverse
            ((linspace (-c + m, c + m, n)).reverse.map f))) j =
            mpoly (customT (customData (linspace (-c + m, c + m, n)) ((linspace (-c + m, c + m, n)).map f))) j := by
          intro j
          induction j using Nat.strong_induction_on with
          | _ j jh =>
            intro hj
            match j, jh, hj with
            | 0, _, _ => rfl
            | 1, _, hj => simp only [mpoly]; rw [ih 0 (by omega)]
            | n + 2, jh, hj =>
              simp only [mpoly]
              rw [ih (n + 1) (by omega), jh (n + 1) (by omega) (by omega), jh n (by omega) (by omega)]
        cases k with
        | zero => rw [customT_zero, customT_zero, hds, hds]
        | succ k => rw [customT_succ, customT_succ, hmp (k + 1) le_rfl, hmp k (by omega), hds, hds, hds]
    exact hT k
  have ha : ∀ k ≤ N, (gridCoeffs f (-c + m, c + m, n) order k).1 = m := by
    intro k hk
    have h1 := key.1 k hk
    rw [hsame k (by omega)] at h1
    have h2 := congrArg Prod.fst h1
    simp only at h2
    linarith
  refine ⟨ha, fun j hj t => ?_⟩
  have h1 := key.2 j hj (m + t)
  rw [show -1 * (m + t) + 2 * m = m - t by ring, show (-1 : ℝ) / |-1| = -1 by norm_num] at h1
  rw [← h1, (orthoTables_eq _ (N + 1) _ j (by omega)).1, (orthoTables_eq _ (N + 1) _ j (by omega)).1]
  congr 1
  exact opoly_congr _ _ j (fun k hk => by rw [hsame k (by omega)]) (fun k _ hk => by rw [hsame k (by omega)])

/-- **C114.** Every recurrence coefficient `a_k` of a Gaussian parameter equals its mean, and its polynomials are even or odd
about the mean. -/
theorem c114_gaussian_symmetric (w : World) (m v : ℝ) (hv : 0 < v) (e : Option Endpoints) (d : Attrs)
    (h : mkParameter w .gaussian ⟨some m, some v, none, none⟩ e = .ok d) (order N : ℕ) (ho : 1 ≤ order) (hN : N ≤ order + 1)
    (hn : N < 7999) :
    ∃ L r, d.law = some L ∧ d.range = some r ∧
      (∀ k ≤ N, (gridCoeffs (density L) r order k).1 = m) ∧
      ∀ j ≤ N, ∀ t, (orthoTables (gridCoeffs (density L) r order) (N + 1) (m - t)).poly j =
        (-1) ^ j * (orthoTables (gridCoeffs (density L) r order) (N + 1) (m + t)).poly j := by
  have h := mkParameter_ok h
  simp only [construct, gaussian, Except.ok.injEq] at h
  subst h
  have hs : 0 < √v := Real.sqrt_pos.2 hv
  refine ⟨_, _, rfl, rfl, ?_⟩
  have hfpos : ∀ x, 0 < density (.norm m (√v)) x := fun x => by
    simp only [density, locScale]
    exact div_pos (phi_pos _) hs
  have hsym : ∀ x, density (.norm m (√v)) (-1 * x + 2 * m) = 1 * density (.norm m (√v)) x := by
    intro x
    simp only [density, locScale, phi]
    rw [show (-1 * x + 2 * m - m) / √v = -((x - m) / √v) by ring, neg_sq, one_mul]
  rw [show -15 * √v + m = -(15 * √v) + m by ring]
  exact grid_symmetric _ hfpos m (15 * √v) (by positivity) 8000 hsym order N ho hN (by omega)

example (w : World) : ∃ d, mkParameter w .gaussian ⟨some 3, some 4, none, none⟩ none = .ok d := ⟨_, rfl⟩

/-- **C112, distributions scaled with their parameters.** The interval on which the density of a Gaussian, gamma, Rayleigh or
chi-squared parameter is sampled to build its polynomials contains the mean of the law. Missing: the other distributions, see
`c112_grid_violated`. -/
theorem c112_mean_inside_partial (w : World) (name : Name) (args : Args) (e : Option Endpoints) (d : Attrs)
    (hn : name = .gaussian ∨ name = .gamma ∨ name = .rayleigh ∨ name = .chiSquared)
    (hv : Valid name args) (h : mkParameter w name args e = .ok d) :
    ∃ L lo hi n, d.law = some L ∧ d.range = some (lo, hi, n) ∧ lo < mean (density L) ∧ mean (density L) < hi := by
  have ht := c107_own_partial w name args e d (by rcases hn with rfl | rfl | rfl | rfl <;> trivial) hv h
  obtain ⟨L, hL, -, hm, -⟩ := ht
  have h := mkParameter_ok h
  obtain ⟨A, B, lo, up⟩ := args
  rcases hn with rfl | rfl | rfl | rfl
  · obtain ⟨m, v, ⟨⟩, ⟨⟩, hv⟩ := hv
    simp only [construct, gaussian, Except.ok.injEq] at h
    subst h
    have hs : 0 < √v := Real.sqrt_pos.2 hv
    have hm := Val.num.inj hm
    exact ⟨L, _, _, _, hL, rfl, by linarith, by linarith⟩
  · obtain ⟨a, s, ⟨⟩, ⟨⟩, ha, hs⟩ := hv
    simp only [construct, gamma, if_pos ha, Except.ok.injEq] at h
    subst h
    have hm := Val.num.inj hm
    have : 0 < a * s := mul_pos ha hs
    exact ⟨L, _, _, _, hL, rfl, by linarith, by linarith⟩
  · obtain ⟨s, ⟨⟩, hs⟩ := hv
    simp only [construct, rayleigh, if_pos hs, Except.ok.injEq] at h
    subst h
    have hm := Val.num.inj hm
    have h1 : 0 < √(Real.pi / 2) := Real.sqrt_pos.2 (by positivity)
    have h2 : √(Real.pi / 2) < 2 := by
      rw [Real.sqrt_lt' (by norm_num)]
      linarith [Real.pi_lt_four]
    exact ⟨L, _, _, _, hL, rfl, by rw [← hm]; positivity, by rw [← hm]; nlinarith⟩
  · obtain ⟨k, ⟨⟩, hk⟩ := hv
    simp only [construct, chisquared, if_pos hk, Except.ok.injEq] at h
    subst h
    have hm := Val.num.inj hm
    exact ⟨L, _, _, _, hL, rfl, by linarith, by linarith⟩

example : Valid .rayleigh ⟨some 2, none, none, none⟩ := ⟨2, rfl, by norm_num⟩

/-- The first coefficient is an average of grid points. -/
theorem first_coeff_le (f : ℝ → ℝ) (h0 : ∀ x, 0 ≤ f x) (lo hi : ℝ) (hlt : lo < hi) (n : ℕ) (hn : 2 ≤ n) (order : ℕ)
    (ho : 1 ≤ order) (hf : ∀ x ∈ linspace (lo, hi, n), x ≠ lo → 0 < f x) : (gridCoeffs f (lo, hi, n) order 0).1 ≤ hi := by
  obtain ⟨h1, h2⟩ := grid_sum_ne f lo hi hlt n hn h0 hf
  have hpos : 0 < ((linspace (lo, hi, n)).map f).sum := lt_of_le_of_ne (List.sum_nonneg h1) (Ne.symm h2)
  simp only [gridCoeffs]
  rw [customCoeffs_eq _ _ order 0 ho (by omega), customT_zero]
  simp only
  have hle : ∀ x ∈ linspace (lo, hi, n), x ≤ hi := by
    intro x hx
    simp only [linspace, List.mem_map, List.mem_range] at hx
    obtain ⟨i, hi', rfl⟩ := hx
    have hn1 : (0 : ℝ) < n - 1 := by
      have : (2 : ℝ) ≤ n := by exact_mod_cast hn
      linarith
    have : (i : ℝ) ≤ n - 1 := by
      have : (i : ℝ) + 1 ≤ n := by exact_mod_cast hi'
      linarith
    have h3 : (hi - lo) / ((n : ℝ) - 1) * i ≤ (hi - lo) / ((n : ℝ) - 1) * (n - 1) :=
      mul_le_mul_of_nonneg_left this (div_pos (sub_pos.2 hlt) hn1).le
    rw [div_mul_cancel₀ _ hn1.ne'] at h3
    linarith
  have e1 : (linspace (lo, hi, n)).zip ((linspace (lo, hi, n)).map f) = (linspace (lo, hi, n)).map fun y => (y, f y) := by
    have := List.zip_map' (f := id) (g := f) (l := linspace (lo, hi, n))
    simpa using this
  have hone : dsum (customData (linspace (lo, hi, n)) ((linspace (lo, hi, n)).map f)) 1 = 1 := by
    rw [dsum_customData, e1, List.map_map]
    simp only [Function.comp_def, eval_one, mul_one]
    rw [show (fun x => f x / ((linspace (lo, hi, n)).map f).sum) = fun x => f x * (((linspace (lo, hi, n)).map f).sum)⁻¹ from
      funext fun x => div_eq_mul_inv _ _, List.sum_map_mul_right, mul_inv_cancel₀ h2]
  rw [hone, div_one]
  have hX : dsum (customData (linspace (lo, hi, n)) ((linspace (lo, hi, n)).map f)) X ≤
      dsum (customData (linspace (lo, hi, n)) ((linspace (lo, hi, n)).map f)) (C hi * 1) := by
    rw [dsum_customData, dsum_customData, e1, List.map_map, List.map_map]
    refine List.sum_le_sum fun x hx => ?_
    simp only [Function.comp, eval_X, eval_mul, eval_C, eval_one, mul_one]
    exact mul_le_mul_of_nonneg_left (hle x hx) (div_nonneg (h0 x) hpos.le)
  rw [← smul_eq_C_mul, map_smul, hone, smul_eq_mul, mul_one] at hX
  exact hX

/-- **C112 fails where the grid is not scaled with the law.** For an exponential parameter whose rate is below `1/√20` the mean
`1/r` of the law lies beyond the sampled interval `[0, 20 r]`, so the coefficient that should be the mean is smaller. For a
Weibull parameter with shape 1 and scale above 30 (an exponential law) the sampled interval ends before the mean. For a Cauchy
parameter whose location exceeds 15 times its scale the sampled interval does not even contain the location. -/
theorem c112_grid_violated (w : World) (hw : ScipyMoments w) :
    (∀ r : ℝ, 0 < r → 20 * r ^ 2 < 1 → ∃ d L rg, mkParameter w .exponential ⟨some r, none, none, none⟩ none = .ok d ∧
      d.law = some L ∧ d.range = some rg ∧ d.mean = .num (1 / r) ∧ mean (density L) = 1 / r ∧
      ∀ order, 1 ≤ order → (gridCoeffs (density L) rg order 0).1 < 1 / r) ∧
    (∀ s : ℝ, 30 < s → ∃ d L lo hi n, mkParameter w .weibull ⟨some s, some 1, none, none⟩ none = .ok d ∧ d.law = some L ∧
      d.range = some (lo, hi, n) ∧ d.mean = .num s ∧ mean (density L) = s ∧ hi < s) ∧
    (∀ l s : ℝ, 0 < s → 15 * s < l → ∃ d lo hi n, mkParameter w .cauchy ⟨some l, some s, none, none⟩ none = .ok d ∧
      d.range = some (lo, hi, n) ∧ hi < l) := by
  refine ⟨fun r hr hr2 => ?_, fun s hs => ?_, fun l s hs hl => ?_⟩
  · have hs : 0 < 1 / r := by positivity
    obtain ⟨h1, h2, -⟩ := locScale_moments raw_expon (by simp) 0 (1 / r) hs
    have hd : IsDensity (density (.expon (1 / r))) := h1
    have hm : mean (density (.expon (1 / r))) = 1 / r := by
      have : mean (density (.expon (1 / r))) = 0 + 1 / r * 1 := h2
      rw [this]; ring
    refine ⟨exponential w.stats (some r), .expon (1 / r), (0, 20 * r, 8000), ?_, ?_, ?_, ?_, hm, fun order ho => ?_⟩
    · simp [mkParameter, construct, exponential, hr, hw _ hd, -one_div]
    · simp [exponential, hr]
    · simp [exponential, hr]
    · simp only [exponential, if_pos hr]
      rw [hw _ hd]
      simp only
      rw [hm]
    · have hle := first_coeff_le (density (.expon (1 / r))) hd.1 0 (20 * r) (by positivity) 8000 (by norm_num) order ho
        (fun x hx hne => by
          have hx0 : 0 ≤ x := by
            simp only [linspace, List.mem_map] at hx
            obtain ⟨i, -, rfl⟩ := hx
            have : (0 : ℝ) ≤ i := Nat.cast_nonneg i
            norm_num
            positivity
          simp only [density, locScale, sub_zero]
          rw [if_pos (div_nonneg hx0 hs.le)]
          positivity)
      have : 20 * r < 1 / r := by
        rw [lt_div_iff₀ hr]
        nlinarith
      linarith
  · have hs0 : 0 < s := by linarith
    obtain ⟨-, h2, -⟩ := locScale_moments (raw_weibull 1 one_pos) (by simp [Real.Gamma_one]) 0 s hs0
    have g2 : Real.Gamma (1 + 1) = 1 := by
      rw [Real.Gamma_add_one one_ne_zero, Real.Gamma_one, mul_one]
    refine ⟨weibull (some s) (some 1), .weibullMin 1 s, 1 / 10 ^ 15, 30, 8000, ?_, ?_, ?_, ?_, ?_, hs⟩
    · simp [mkParameter, construct, weibull, hs0]
    · simp [weibull, hs0]
    · simp [weibull, hs0]
    · simp only [weibull, if_pos (And.intro one_pos hs0), div_one, g2, mul_one]
    · have : mean (density (.weibullMin 1 s)) = 0 + s * Real.Gamma (1 + ((1 : ℕ) : ℝ) / 1) := h2
      rw [this, Nat.cast_one, div_one, g2]
      ring
  · refine ⟨_, _, _, _, rfl, rfl, hl⟩

example : (0 : ℝ) < 1 / 10 ∧ 20 * (1 / 10 : ℝ) ^ 2 < 1 := by norm_num

end EQ.Dist
