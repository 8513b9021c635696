import Verif.Param.MonicLemmas

/-!
# Helper lemmas: the Jacobi recurrence gives the orthogonal polynomials of its Pearson functional
-/

namespace EQ.Param
open Polynomial Finset

section
variable (a b l u : ℝ)

/-- Half width and midpoint. -/
noncomputable def hw : ℝ := (u - l) / 2
/-- Proof device: midpoint of the support. -/
noncomputable def mid : ℝ := l + (u - l) / 2

/-- Centre of row `n`, in units of the half width. -/
noncomputable def alph (n : ℕ) : ℝ :=
  if n = 0 then (b - a) / (a + b + 2)
  else (b ^ 2 - a ^ 2) / ((2 * n + a + b) * (2 * n + a + b + 2))

/-- Proof device: norm of row `n`, in units of the squared half width. -/
noncomputable def bet (n : ℕ) : ℝ :=
  if n = 1 then 4 * (1 + a) * (1 + b) / ((2 + a + b) ^ 2 * (3 + a + b))
  else 4 * n * (n + a) * (n + b) * (n + a + b) /
    ((2 * n + a + b) ^ 2 * (2 * n + a + b + 1) * (2 * n + a + b - 1))

theorem jacobiRow_fst (n : ℕ) : (jacobiRow a b l u n).1 = mid l u + hw l u * alph a b n := by
  unfold jacobiRow alph mid hw
  by_cases h : n = 0
  · subst h; simp only [if_true]; ring
  · simp only [h, if_false]
    have e : (2 * ((n : ℝ) + 1) + a + b) = 2 * n + a + b + 2 := by ring
    have e' : (2 * ((n : ℝ) + 1 - 1) + a + b) = 2 * n + a + b := by ring
    rw [e, e']; ring

theorem jacobiRow_snd (n : ℕ) (hn : 1 ≤ n) : (jacobiRow a b l u n).2 = hw l u ^ 2 * bet a b n := by
  unfold jacobiRow bet hw
  have h : ¬ n = 0 := by omega
  simp only [h, if_false]
  by_cases h1 : n = 1
  · subst h1
    simp only [if_true]
    norm_num
    ring
  · simp only [h1, if_false]
    have e' : ((n : ℝ) + 1 - 1) = n := by ring
    rw [e']; ring

variable {a b l u}

theorem bet_pos (ha : -1 < a) (hb : -1 < b) (n : ℕ) (hn : 1 ≤ n) : 0 < bet a b n := by
  unfold bet
  by_cases h1 : n = 1
  · rw [if_pos h1]
    have : 0 < 2 + a + b := by linarith
    have : 0 < 3 + a + b := by linarith
    have : 0 < 1 + a := by linarith
    have : 0 < 1 + b := by linarith
    positivity
  · rw [if_neg h1]
    have h2 : (2 : ℝ) ≤ n := by exact_mod_cast (by omega : 2 ≤ n)
    have : 0 < (n : ℝ) + a := by linarith
    have : 0 < (n : ℝ) + b := by linarith
    have : 0 < (n : ℝ) + a + b := by linarith
    have : 0 < 2 * (n : ℝ) + a + b := by linarith
    have : 0 < 2 * (n : ℝ) + a + b + 1 := by linarith
    have : 0 < 2 * (n : ℝ) + a + b - 1 := by linarith
    have : (0 : ℝ) < n := by linarith
    positivity

/-- The table of `jacobi_recurrence_coefficients` as a function. -/
noncomputable abbrev jtab (a b l u : ℝ) : Table := jacobiRow a b l u

theorem mpoly_succ (ab : Table) (n : ℕ) (hn : 1 ≤ n) :
    mpoly ab (n + 1) = (X - C (ab n).1) * mpoly ab n - C (ab n).2 * mpoly ab (n - 1) := by
  obtain ⟨k, rfl⟩ : ∃ k, n = k + 1 := ⟨n - 1, by omega⟩
  rfl

/-- Proof device: the coefficient of the structure relation below. -/
noncomputable def del (a b : ℝ) (n : ℕ) : ℝ :=
  if n = 0 then 0 else n * (a - b) / (2 * n + a + b)

theorem alph_zero {c : ℝ} (hc : c = a + b + 2) : alph a b 0 = (b - a) / c := by
  simp [alph, hc]

theorem alph_of_pos {n : ℕ} (hn : n ≠ 0) {c d : ℝ} (hc : c = 2 * n + a + b) (hd : d = c + 2) :
    alph a b n = (b ^ 2 - a ^ 2) / (c * d) := by
  rw [alph, if_neg hn, hd, hc]

theorem del_zero : del a b 0 = 0 := by simp [del]

theorem del_of_pos {n : ℕ} (hn : n ≠ 0) {c : ℝ} (hc : c = 2 * n + a + b) :
    del a b n = n * (a - b) / c := by
  rw [del, if_neg hn, hc]

theorem bet_one {c d : ℝ} (hc : c = 2 + a + b) (hd : d = c + 1) :
    bet a b 1 = 4 * (1 + a) * (1 + b) / (c ^ 2 * d) := by
  rw [bet, if_pos rfl, hd, hc]
  congr 2
  ring

theorem bet_of_two {n : ℕ} (hn : 2 ≤ n) {c d e : ℝ} (hc : c = 2 * n + a + b) (hd : d = c + 1)
    (he : e = c - 1) :
    bet a b n = 4 * n * (n + a) * (n + b) * (n + a + b) / (c ^ 2 * d * e) := by
  rw [bet, if_neg (by omega), hd, he, hc]

/-- Structure relation: `σ π_n' = (-n Y + s δ_n) π_n + (2n+a+b+1) b_n π_{n-1}`. -/
theorem structure_relation (ha : -1 < a) (hb : -1 < b) (n : ℕ) :
    (X - C l) * (C u - X) * derivative (mpoly (jtab a b l u) n) =
      (-(n : ℝ[X]) * (X - C (mid l u)) + C (hw l u * del a b n)) * mpoly (jtab a b l u) n +
      (if 1 ≤ n then C ((2 * n + a + b + 1) * (hw l u ^ 2 * bet a b n)) *
        mpoly (jtab a b l u) (n - 1) else 0) := by
  have hl : l = mid l u - hw l u := by unfold mid hw; ring
  have hu : u = mid l u + hw l u := by unfold mid hw; ring
  have hσ : (X - C l) * (C u - X) = (C (hw l u ^ 2) - (X - C (mid l u)) ^ 2 : ℝ[X]) := by
    have key : ∀ s m : ℝ, (X - C (m - s)) * (C (m + s) - X) =
        (C (s ^ 2) - (X - C m) ^ 2 : ℝ[X]) := by
      intro s m
      simp only [C_sub, C_add, C_pow]
      ring
    rw [← key, ← hl, ← hu]
  rw [hσ]
  generalize hs : hw l u = s
  generalize hm : mid l u = m
  have hfst : ∀ k, (jtab a b l u k).1 = m + s * alph a b k := fun k => by
    rw [jacobiRow_fst, hs, hm]
  have hsnd : ∀ k, 1 ≤ k → (jtab a b l u k).2 = s ^ 2 * bet a b k := fun k hk => by
    rw [jacobiRow_snd a b l u k hk, hs]
  generalize jtab a b l u = T at hfst hsnd ⊢
  have h2 : (0 : ℝ) < 2 + a + b := by linarith
  have h3 : (0 : ℝ) < 3 + a + b := by linarith
  have h4 : (0 : ℝ) < 4 + a + b := by linarith
  have h5 : (0 : ℝ) < 5 + a + b := by linarith
  -- the step, in terms of scalar identities
  have step : ∀ n : ℕ, 1 ≤ n →
      (∀ k, k ≤ n → (C (s ^ 2) - (X - C m) ^ 2) * derivative (mpoly T k) =
        (-(k : ℝ[X]) * (X - C m) + C (s * del a b k)) * mpoly T k +
        (if 1 ≤ k then C ((2 * k + a + b + 1) * (s ^ 2 * bet a b k)) * mpoly T (k - 1) else 0)) →
      (- alph a b n * (2 * n + a + b + 1) - del a b (n - 1)
        + (2 * n + a + b - 1) * alph a b (n - 1) = - del a b (n + 1)) →
      (del a b n - del a b (n + 1) - alph a b n = 0) →
      (1 - alph a b n * (del a b n - del a b (n + 1)) + bet a b n * (2 * n + a + b - 1)
        - bet a b (n + 1) * (2 * n + a + b + 3) = 0) →
      (C (s ^ 2) - (X - C m) ^ 2) * derivative (mpoly T (n + 1)) =
        (-((n + 1 : ℕ) : ℝ[X]) * (X - C m) + C (s * del a b (n + 1))) * mpoly T (n + 1) +
        C ((2 * (n + 1 : ℕ) + a + b + 1) * (s ^ 2 * bet a b (n + 1))) * mpoly T n := by
    intro n hn ih e1 e2 e3
    have ihn := ih n le_rfl
    have ihp := ih (n - 1) (by omega)
    rw [if_pos hn] at ihn
    -- eliminate the polynomial two below
    have hprev : (C (s ^ 2) - (X - C m) ^ 2) * derivative (mpoly T (n - 1)) =
        (-((n - 1 : ℕ) : ℝ[X]) * (X - C m) + C (s * del a b (n - 1))) * mpoly T (n - 1) +
        C (2 * n + a + b - 1) * ((X - C (m + s * alph a b (n - 1))) * mpoly T (n - 1) - mpoly T n) := by
      rw [ihp]
      congr 1
      by_cases h1 : 1 ≤ n - 1
      · rw [if_pos h1]
        have hr := mpoly_succ T (n - 1) h1
        rw [show n - 1 + 1 = n by omega] at hr
        rw [hr, hfst, hsnd _ h1]
        have hc : ((n - 1 : ℕ) : ℝ) = n - 1 := by push_cast [hn]; ring
        rw [hc]
        simp only [C_mul]
        have : (C (2 * ((n : ℝ) - 1) + a + b + 1) : ℝ[X]) = C (2 * n + a + b - 1) := by
          congr 1; ring
        rw [this]; ring
      · have hn1 : n = 1 := by omega
        subst hn1
        rw [if_neg h1]
        simp only [Nat.sub_self, mpoly]
        rw [hfst]; ring
    have hcn : ((n - 1 : ℕ) : ℝ[X]) = (n : ℝ[X]) - 1 := by push_cast [hn]; ring
    rw [hcn] at hprev
    rw [mpoly_succ T n hn, hfst, hsnd n hn]
    simp only [derivative_sub, derivative_mul, derivative_X, derivative_C, sub_zero, zero_mul,
      one_mul, zero_add]
    have expand : (C (s ^ 2) - (X - C m) ^ 2) * (mpoly T n + (X - C (m + s * alph a b n)) *
          derivative (mpoly T n) - C (s ^ 2 * bet a b n) * derivative (mpoly T (n - 1))) =
        (C (s ^ 2) - (X - C m) ^ 2) * mpoly T n + (X - C (m + s * alph a b n)) *
          ((C (s ^ 2) - (X - C m) ^ 2) * derivative (mpoly T n)) - C (s ^ 2 * bet a b n) *
          ((C (s ^ 2) - (X - C m) ^ 2) * derivative (mpoly T (n - 1))) := by ring
    rw [expand, ihn, hprev]
    have hCn : (n : ℝ[X]) = C (n : ℝ) := by simp
    push_cast
    rw [hCn]
    have E1 := congrArg (C : ℝ → ℝ[X]) e1
    have E2 := congrArg (C : ℝ → ℝ[X]) e2
    have E3 := congrArg (C : ℝ → ℝ[X]) e3
    simp only [C_mul, C_add, C_sub, C_pow, C_neg, C_1, C_0, map_ofNat] at E1 E2 E3 ⊢
    generalize mpoly T n = p at *
    generalize mpoly T (n - 1) = q at *
    generalize (C (alph a b n) : ℝ[X]) = A at *
    generalize (C (alph a b (n - 1)) : ℝ[X]) = A' at *
    generalize (C (del a b n) : ℝ[X]) = D0 at *
    generalize (C (del a b (n - 1)) : ℝ[X]) = Dm at *
    generalize (C (del a b (n + 1)) : ℝ[X]) = D1 at *
    generalize (C (bet a b n) : ℝ[X]) = B0 at *
    generalize (C (bet a b (n + 1)) : ℝ[X]) = B1 at *
    generalize (C s : ℝ[X]) = S at *
    generalize (C m : ℝ[X]) = M at *
    generalize (C (n : ℝ) : ℝ[X]) = N at *
    generalize (C a : ℝ[X]) = a' at *
    generalize (C b : ℝ[X]) = b' at *
    linear_combination (S * S ^ 2 * B0 * q) * E1 + (S * (X - M) * p) * E2 + (S ^ 2 * p) * E3
  -- all orders
  induction n using Nat.strong_induction_on with
  | _ n ih =>
    match n with
    | 0 => simp [mpoly, del]
    | 1 =>
      have e1 : del a b 1 = - alph a b 0 := by
        rw [alph_zero (c := a + b + 2) rfl, del_of_pos (c := a + b + 2) one_ne_zero (by push_cast; ring)]
        push_cast; ring
      have e2 : (2 * 1 + a + b + 1) * bet a b 1 = 1 - alph a b 0 ^ 2 := by
        obtain ⟨c, rfl⟩ : ∃ c, b = c - 2 - a := ⟨2 + a + b, by ring⟩
        have hc0 : c ≠ 0 := by intro h; rw [h] at h2; linarith
        have hc1 : c + 1 ≠ 0 := by intro h; linarith
        rw [alph_zero (c := c) (by ring), bet_one (c := c) (d := c + 1) (by ring) rfl]
        field_simp
        ring
      have e3 : (2 * ((1 : ℕ) : ℝ) + a + b + 1) * (s ^ 2 * bet a b 1) =
          s ^ 2 * (1 - alph a b 0 ^ 2) := by
        rw [← e2]; push_cast; ring
      have p1 : mpoly T 1 = X - C (m + s * alph a b 0) := by rw [← hfst]; rfl
      have p0 : mpoly T (1 - 1) = 1 := rfl
      rw [if_pos le_rfl, e3, e1, p1, p0, derivative_sub, derivative_X, derivative_C, Nat.cast_one]
      simp only [C_mul, C_sub, C_add, C_pow, C_neg, C_1]
      ring
    | n + 2 =>
      rw [if_pos (by omega)]
      apply step (n + 1) (by omega)
      · intro k hk
        exact ih k (by omega)
      all_goals
        rcases Nat.eq_zero_or_pos n with rfl | hn
      · obtain ⟨c, rfl⟩ : ∃ c, b = c - 2 - a := ⟨2 + a + b, by ring⟩
        have hc0 : c ≠ 0 := by intro h; linarith
        have hc2 : c + 2 ≠ 0 := by intro h; linarith
        rw [show 0 + 1 - 1 = 0 by omega, del_zero, alph_zero (c := c) (by ring),
          alph_of_pos (c := c) (d := c + 2) (by omega) (by push_cast; ring) rfl,
          del_of_pos (c := c + 2) (by omega) (by push_cast; ring)]
        push_cast
        field_simp
        ring
      · have hN : (1 : ℝ) ≤ n := by exact_mod_cast hn
        obtain ⟨c, rfl⟩ : ∃ c, b = c - 2 * n - a := ⟨2 * n + a + b, by ring⟩
        have hc0 : c ≠ 0 := by intro h; linarith
        have hc2 : c + 2 ≠ 0 := by intro h; linarith
        have hc4 : c + 4 ≠ 0 := by intro h; linarith
        rw [Nat.add_sub_cancel,
          alph_of_pos (n := n) (c := c) (d := c + 2) (by omega) (by ring) rfl,
          alph_of_pos (n := n + 1) (c := c + 2) (d := c + 4) (by omega) (by push_cast; ring)
            (by ring),
          del_of_pos (n := n) (c := c) (by omega) (by ring),
          del_of_pos (n := n + 1 + 1) (c := c + 4) (by omega) (by push_cast; ring)]
        push_cast
        field_simp
        ring
      · obtain ⟨c, rfl⟩ : ∃ c, b = c - 2 - a := ⟨2 + a + b, by ring⟩
        have hc0 : c ≠ 0 := by intro h; linarith
        have hc2 : c + 2 ≠ 0 := by intro h; linarith
        rw [alph_of_pos (c := c) (d := c + 2) (by omega) (by push_cast; ring) rfl,
          del_of_pos (n := 0 + 1) (c := c) (by omega) (by push_cast; ring),
          del_of_pos (n := 0 + 1 + 1) (c := c + 2) (by omega) (by push_cast; ring)]
        push_cast
        field_simp
        ring
      · have hN : (1 : ℝ) ≤ n := by exact_mod_cast hn
        obtain ⟨c, rfl⟩ : ∃ c, b = c - 2 * n - a := ⟨2 * n + a + b, by ring⟩
        have hc2 : c + 2 ≠ 0 := by intro h; linarith
        have hc4 : c + 4 ≠ 0 := by intro h; linarith
        rw [alph_of_pos (c := c + 2) (d := c + 4) (by omega) (by push_cast; ring) (by ring),
          del_of_pos (n := n + 1) (c := c + 2) (by omega) (by push_cast; ring),
          del_of_pos (n := n + 1 + 1) (c := c + 4) (by omega) (by push_cast; ring)]
        push_cast
        field_simp
        ring
      · obtain ⟨c, rfl⟩ : ∃ c, b = c - 2 - a := ⟨2 + a + b, by ring⟩
        have hc0 : c ≠ 0 := by intro h; linarith
        have hc1 : c + 1 ≠ 0 := by intro h; linarith
        have hc2 : c + 2 ≠ 0 := by intro h; linarith
        have hc3 : c + 3 ≠ 0 := by intro h; linarith
        rw [alph_of_pos (c := c) (d := c + 2) (by omega) (by push_cast; ring) rfl,
          del_of_pos (n := 0 + 1) (c := c) (by omega) (by push_cast; ring),
          del_of_pos (n := 0 + 1 + 1) (c := c + 2) (by omega) (by push_cast; ring),
          bet_of_two (n := 0 + 1 + 1) (c := c + 2) (d := c + 3) (e := c + 1) (by omega)
            (by push_cast; ring) (by ring) (by ring),
          show 0 + 1 = 1 by omega, bet_one (c := c) (d := c + 1) (by ring) rfl]
        push_cast
        field_simp
        ring
      · have hN : (1 : ℝ) ≤ n := by exact_mod_cast hn
        obtain ⟨c, rfl⟩ : ∃ c, b = c - 2 * n - a := ⟨2 * n + a + b, by ring⟩
        have hc1 : c + 1 ≠ 0 := by intro h; linarith
        have hc2 : c + 2 ≠ 0 := by intro h; linarith
        have hc3 : c + 3 ≠ 0 := by intro h; linarith
        have hc4 : c + 4 ≠ 0 := by intro h; linarith
        have hc5 : c + 5 ≠ 0 := by intro h; linarith
        rw [alph_of_pos (c := c + 2) (d := c + 4) (by omega) (by push_cast; ring) (by ring),
          del_of_pos (n := n + 1) (c := c + 2) (by omega) (by push_cast; ring),
          del_of_pos (n := n + 1 + 1) (c := c + 4) (by omega) (by push_cast; ring),
          bet_of_two (n := n + 1 + 1) (c := c + 4) (d := c + 5) (e := c + 3) (by omega)
            (by push_cast; ring) (by ring) (by ring),
          bet_of_two (n := n + 1) (c := c + 2) (d := c + 3) (e := c + 1) (by omega)
            (by push_cast; ring) (by ring) (by ring)]
        push_cast
        field_simp
        ring

end
end EQ.Param
