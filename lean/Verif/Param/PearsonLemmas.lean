import Verif.Param.JacobiLemmas

/-!
# Helper lemmas: the Jacobi polynomials solve their differential equation, hence are orthogonal
for every linear functional satisfying the Pearson identity
-/

namespace EQ.Param
open Polynomial Finset

section
variable {a b l u : ℝ}

/-- `σ = (x - l)(u - x)`. -/
noncomputable def sigma (l u : ℝ) : ℝ[X] := (X - C l) * (C u - X)
/-- `τ = (b+1)(u - x) - (a+1)(x - l)`. -/
noncomputable def tau (a b l u : ℝ) : ℝ[X] := C (b + 1) * (C u - X) - C (a + 1) * (X - C l)

/-- The Pearson identity for a linear functional: `L (σ f' + τ f) = 0`. -/
def Pearson (a b l u : ℝ) (L : ℝ[X] →ₗ[ℝ] ℝ) : Prop :=
  ∀ f : ℝ[X], L (sigma l u * derivative f + tau a b l u * f) = 0

/-- Eigenvalue of the Jacobi operator. -/
def lam (a b : ℝ) (n : ℕ) : ℝ := n * (n + a + b + 1)

theorem tau_eq : tau a b l u = C (hw l u * (b - a)) - C (a + b + 2) * (X - C (mid l u)) := by
  have key : ∀ s m : ℝ, tau a b (m - s) (m + s) = C (s * (b - a)) - C (a + b + 2) * (X - C m) := by
    intro s m
    simp only [tau, C_sub, C_add, C_mul, C_1, map_ofNat]
    ring
  rw [← key]
  congr 1 <;> (unfold mid hw; ring)

theorem alph_del (ha : -1 < a) (hb : -1 < b) (n : ℕ) :
    - alph a b n * (2 * n + a + b + 2) + 2 * del a b n + (b - a) = 0 := by
  rcases Nat.eq_zero_or_pos n with rfl | hn
  · rw [alph_zero rfl, del_zero]
    have : a + b + 2 ≠ 0 := by intro h; linarith
    field_simp
    push_cast
    ring
  · have hN : (1 : ℝ) ≤ n := by exact_mod_cast hn
    obtain ⟨c, rfl⟩ : ∃ c, b = c - 2 * n - a := ⟨2 * n + a + b, by ring⟩
    have hc0 : c ≠ 0 := by intro h; linarith
    have hc2 : c + 2 ≠ 0 := by intro h; linarith
    rw [alph_of_pos (c := c) (d := c + 2) (by omega) (by ring) rfl,
      del_of_pos (c := c) (by omega) (by ring)]
    field_simp
    ring

theorem jacobi_ode (ha : -1 < a) (hb : -1 < b) (n : ℕ) :
    sigma l u * derivative (derivative (mpoly (jtab a b l u) n)) +
      tau a b l u * derivative (mpoly (jtab a b l u) n) =
      - C (lam a b n) * mpoly (jtab a b l u) n := by
  induction n using Nat.strong_induction_on with
  | _ n ih =>
    match n with
    | 0 => simp [mpoly, lam]
    | 1 =>
      have p1 : mpoly (jtab a b l u) 1 = X - C (mid l u + hw l u * alph a b 0) := by
        rw [← jacobiRow_fst]; rfl
      have e := congrArg (C : ℝ → ℝ[X]) (alph_del ha hb 0)
      rw [del_zero] at e
      rw [p1, tau_eq]
      simp only [derivative_sub, derivative_X, derivative_C, sub_zero, derivative_one, lam]
      push_cast at e ⊢
      simp only [C_mul, C_add, C_sub, C_neg, C_1, C_0, map_ofNat] at e ⊢
      linear_combination (C (hw l u)) * e
    | n + 2 =>
      have ih1 := ih (n + 1) (by omega)
      have ih0 := ih n (by omega)
      have st := structure_relation (l := l) (u := u) ha hb (n + 1)
      rw [if_pos (by omega), Nat.add_sub_cancel] at st
      have hrec : mpoly (jtab a b l u) (n + 2) =
          (X - C (mid l u + hw l u * alph a b (n + 1))) * mpoly (jtab a b l u) (n + 1) -
            C (hw l u ^ 2 * bet a b (n + 1)) * mpoly (jtab a b l u) n := by
        rw [← jacobiRow_fst, ← jacobiRow_snd a b l u (n + 1) (by omega)]; rfl
      have e := congrArg (C : ℝ → ℝ[X]) (alph_del ha hb (n + 1))
      rw [hrec]
      change sigma l u * _ = _ at st
      rw [tau_eq] at ih1 ih0 ⊢
      generalize mpoly (jtab a b l u) (n + 1) = p at *
      generalize mpoly (jtab a b l u) n = q at *
      simp only [derivative_sub, derivative_add, derivative_mul, derivative_X, derivative_C,
        sub_zero, zero_mul, one_mul, zero_add, lam] at *
      have hCn : (n : ℝ[X]) = C (n : ℝ) := by simp
      push_cast at *
      rw [hCn] at *
      simp only [C_mul, C_add, C_sub, C_neg, C_1, C_0, C_pow, map_ofNat] at *
      generalize (C (alph a b (n + 1)) : ℝ[X]) = A at *
      generalize (C (del a b (n + 1)) : ℝ[X]) = D at *
      generalize (C (bet a b (n + 1)) : ℝ[X]) = B at *
      generalize (C (hw l u) : ℝ[X]) = S at *
      generalize (C (mid l u) : ℝ[X]) = M at *
      generalize (C (n : ℝ) : ℝ[X]) = N at *
      generalize (C a : ℝ[X]) = a' at *
      generalize (C b : ℝ[X]) = b' at *
      linear_combination (X - (M + S * A)) * ih1 - S ^ 2 * B * ih0 + 2 * st + S * p * e

theorem pearson_orthogonal (ha : -1 < a) (hb : -1 < b) {L : ℝ[X] →ₗ[ℝ] ℝ}
    (hL : Pearson a b l u L) (i j : ℕ) (hij : i ≠ j) :
    L (mpoly (jtab a b l u) i * mpoly (jtab a b l u) j) = 0 := by
  have sym : ∀ f g : ℝ[X], L ((sigma l u * derivative (derivative f) +
      tau a b l u * derivative f) * g) = - L (sigma l u * derivative f * derivative g) := by
    intro f g
    have h := hL (derivative f * g)
    rw [derivative_mul] at h
    have e : (sigma l u * derivative (derivative f) + tau a b l u * derivative f) * g =
        (sigma l u * (derivative (derivative f) * g + derivative f * derivative g) +
          tau a b l u * (derivative f * g)) - sigma l u * derivative f * derivative g := by ring
    rw [e, map_sub, h, zero_sub]
  have h1 := sym (mpoly (jtab a b l u) i) (mpoly (jtab a b l u) j)
  have h2 := sym (mpoly (jtab a b l u) j) (mpoly (jtab a b l u) i)
  rw [jacobi_ode ha hb] at h1 h2
  have e1 : - C (lam a b i) * mpoly (jtab a b l u) i * mpoly (jtab a b l u) j =
      (- lam a b i) • (mpoly (jtab a b l u) i * mpoly (jtab a b l u) j) := by
    rw [smul_eq_C_mul, C_neg]; ring
  have e2 : - C (lam a b j) * mpoly (jtab a b l u) j * mpoly (jtab a b l u) i =
      (- lam a b j) • (mpoly (jtab a b l u) i * mpoly (jtab a b l u) j) := by
    rw [smul_eq_C_mul, C_neg]; ring
  have e3 : sigma l u * derivative (mpoly (jtab a b l u) j) * derivative (mpoly (jtab a b l u) i) =
      sigma l u * derivative (mpoly (jtab a b l u) i) * derivative (mpoly (jtab a b l u) j) := by
    ring
  rw [e1, map_smul] at h1
  rw [e2, map_smul, e3, ← h1] at h2
  simp only [smul_eq_mul] at h2
  have hne : lam a b i ≠ lam a b j := by
    unfold lam
    intro h
    have h0 : ((i : ℝ) - j) * (i + j + a + b + 1) = 0 := by linear_combination h
    rcases mul_eq_zero.mp h0 with h' | h'
    · exact hij (by exact_mod_cast sub_eq_zero.mp h')
    · have : (1 : ℝ) ≤ i + j := by
        have : 1 ≤ i + j := by omega
        exact_mod_cast this
      linarith
  have : (lam a b i - lam a b j) * L (mpoly (jtab a b l u) i * mpoly (jtab a b l u) j) = 0 := by
    linear_combination h2
  exact (mul_eq_zero.mp this).resolve_left (sub_ne_zero.mpr hne)

theorem jtab_pos (ha : -1 < a) (hb : -1 < b) (hlu : l < u) (n : ℕ) (hn : 1 ≤ n) :
    0 < (jtab a b l u n).2 := by
  rw [jtab, jacobiRow_snd a b l u n hn]
  have : 0 < hw l u := by unfold hw; linarith
  have := bet_pos ha hb n hn
  positivity

/-- The orthonormal polynomials of the Jacobi table are orthonormal for every functional that
satisfies the Pearson identity and has total mass one. -/
theorem pearson_orthonormal (ha : -1 < a) (hb : -1 < b) (hlu : l < u) {L : ℝ[X] →ₗ[ℝ] ℝ}
    (hL : Pearson a b l u L) (h1 : L 1 = 1) (i j : ℕ) :
    L (opoly (jtab a b l u) i * opoly (jtab a b l u) j) = if i = j then 1 else 0 := by
  have orth : ∀ p q : ℕ, p ≠ q → L (mpoly (jtab a b l u) p * mpoly (jtab a b l u) q) = 0 :=
    fun p q h => pearson_orthogonal ha hb hL p q h
  rw [orthonormal_of_monic (jtab a b l u) L (max i j) (fun k hk _ => jtab_pos ha hb hlu k hk)
    (fun p q _ _ h => orth p q h)
    (fun k _ => sq_step _ L k (fun p q _ _ h => orth p q h)) i j (le_max_left _ _)
    (le_max_right _ _), h1]

end
end EQ.Param
