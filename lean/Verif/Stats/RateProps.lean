import Verif.Stats.RateLemmas

/-!
# Explicit bounds for the error of a fit on a tensor grid (C201, C202)
-/

namespace EQ.Stats
open EQ.Param EQ.ParamSpec EQ.Basis EQ.Basis.Spec EQ.Sampling EQ.Sampling.Spec EQ.Poly EQ.Poly.Spec EQ.Stats.Spec Set
open scoped Polynomial

variable {d : ℕ}

/-- The tensor-grid index set. -/
theorem tensor_index (hd : d ≠ 0) (P : Fin d → MParam) (o : Fin d → ℕ) (ho : ∀ i, o i ≠ 0) (r : Request) (hr : lower r.name ∈ ["tensor-grid".toList, "tensor".toList])
    (hro : r.orders = List.ofFn o) :
    ∃ els, r.setOrders = .ok els ∧ Regular ⟨List.ofFn P, els, none⟩ ∧ els.Nodup ∧ els.head? = some (List.replicate d 0) ∧ 2 ≤ els.length ∧
      (∀ row ∈ els, List.Forall₂ (· ≤ ·) row (List.ofFn o)) ∧ ∀ a : Fin d → ℕ, (∀ i, a i ≤ o i) → List.ofFn a ∈ els := by
  have hne : r.orders ≠ [] := by
    rw [hro]; intro h; have := congrArg List.length h; simp at this; exact hd this
  obtain ⟨L, e, hmem, hnd, hlen, hpw, hh⟩ := c02_tensor_grid _ hne
  rw [hro] at hmem hlen hh
  have hset : r.setOrders = tensorGridBasis r.orders := by
    simp only [List.mem_cons, List.not_mem_nil, or_false] at hr
    unfold Request.setOrders
    rcases hr with h | h
    · simp only [h]; rw [if_neg (by decide), if_neg (by decide), if_neg (by decide), if_pos (.inl trivial)]
    · simp only [h]; rw [if_neg (by decide), if_neg (by decide), if_neg (by decide), if_pos (.inr trivial)]
  have hdl : (Expansion.mk (List.ofFn P) L none).dims = d := by simp [Expansion.dims]
  have hbelow : ∀ row ∈ L, List.Forall₂ (· ≤ ·) row (List.ofFn o) := fun row h => (hmem row).1 h
  have hall : ∀ a : Fin d → ℕ, (∀ i, a i ≤ o i) → List.ofFn a ∈ L := by
    intro a ha
    refine (hmem _).2 ?_
    rw [Below, List.forall₂_iff_get]
    exact ⟨by simp, fun i h1 h2 => by simpa using ha _⟩
  refine ⟨L, by rw [hset, e], ⟨?_, fun row h => by rw [hdl, (hbelow row h).length_eq]; simp, fun h => ?_, by simp [SquareOpt]⟩, hnd, ?_, ?_, hbelow, hall⟩
  · intro h
    simp only at h
    rw [h] at hh
    simp at hh
  · rw [hdl] at h
    subst h
    refine ⟨o 0, one_dimension L (o 0) (hpw.imp fun h => .inr h) fun row => ?_⟩
    rw [hmem row, Below]
    constructor
    · intro h
      have hl := h.length_eq
      simp only [List.length_ofFn] at hl
      obtain ⟨k, rfl⟩ := List.length_eq_one_iff.1 hl
      refine ⟨k, ?_, rfl⟩
      simpa using h
    · rintro ⟨k, hk, rfl⟩
      simpa using hk
  · rw [hh]; simp [zeroRow]
  · obtain ⟨k, rfl⟩ := Nat.exists_eq_succ_of_ne_zero hd
    rw [hlen]
    simp only [List.ofFn_succ, List.map_cons, List.prod_cons]
    have h1 : 2 ≤ o 0 + 1 := by have := ho 0; omega
    have h2 : 1 ≤ ((List.ofFn fun i : Fin k => o i.succ).map (· + 1)).prod := by
      exact Nat.one_le_iff_ne_zero.2 (List.prod_ne_zero (by simp))
    nlinarith

/-- The index set of one variable. -/
theorem one_index (P : MParam) (o : ℕ) (ho : o ≠ 0) (r : Request) (hr : lower r.name ∈ ["univariate".toList, "tensor-grid".toList, "tensor".toList]) (hro : r.orders = [o]) :
    ∃ els, r.setOrders = .ok els ∧ Regular ⟨List.ofFn fun _ : Fin 1 => P, els, none⟩ ∧ els.Nodup ∧ els.head? = some (List.replicate 1 0) ∧ 2 ≤ els.length ∧
      (∀ row ∈ els, List.Forall₂ (· ≤ ·) row (List.ofFn fun _ : Fin 1 => o)) ∧ ∀ a : Fin 1 → ℕ, (∀ i, a i ≤ o) → List.ofFn a ∈ els := by
  rw [List.mem_cons] at hr
  rcases hr with h | h
  · have e : r.setOrders = .ok ((List.range (o + 1)).map fun i => [i]) := by
      unfold Request.setOrders
      simp only [h, hro]
      rw [if_neg (by decide), if_pos trivial]
      rfl
    refine ⟨_, e, ⟨by simp, by simp [Expansion.dims], fun _ => ⟨o, rfl⟩, by simp [SquareOpt]⟩, List.nodup_range.map fun a b h => by simpa using h, ?_, by simp; omega, ?_, ?_⟩
    · simp [List.range_succ_eq_map]
    · intro row hrow
      obtain ⟨k, hk, rfl⟩ := List.mem_map.1 hrow
      rw [List.mem_range] at hk
      simp; omega
    · intro a ha
      have := ha 0
      simp; omega
  · exact tensor_index one_ne_zero (fun _ => P) (fun _ => o) (fun _ => ho) r h (by simpa using hro)

/-- The error of a fit on a tensor grid, from polynomials near the model. -/
theorem rate_core (hd : d ≠ 0) (P : Fin d → MParam) (A B l u : Fin d → ℝ) (hI : ∀ i, BetaInput (P i) (A i) (B i) (l i) (u i)) (o : Fin d → ℕ) (ho : ∀ i, o i ≠ 0)
    (r : Request) (hro : r.orders = List.ofFn o)
    (hidx : ∃ els, r.setOrders = .ok els ∧ Regular ⟨List.ofFn P, els, none⟩ ∧ els.Nodup ∧ els.head? = some (List.replicate d 0) ∧ 2 ≤ els.length ∧
      (∀ row ∈ els, List.Forall₂ (· ≤ ·) row (List.ofFn o)) ∧ ∀ a : Fin d → ℕ, (∀ i, a i ≤ o i) → List.ofFn a ∈ els)
    (f : List ℝ → ℝ) (hf : ContinuousOn (fun v => f (List.ofFn v)) (Icc l u)) :
    ∃ (els : List (List ℕ)) (pts : List (List ℝ)) (wts c : List ℝ) (g : List ℝ → ℝ) (m v : ℝ), r.setOrders = .ok els ∧ tensorGrid (localRules (List.ofFn P) r.orders) = .ok (pts, wts) ∧
      Expansion.integrate ⟨List.ofFn P, els, none⟩ pts wts (pts.map f) = .ok c ∧ (∀ x : List ℝ, x.length = d → Expansion.polyfit ⟨List.ofFn P, els, none⟩ c [x] = .ok [g x]) ∧
      mean c = .ok m ∧ variance c = .ok v ∧
      (∀ q : MvPolynomial (Fin d) ℝ, (∀ i, q.degreeOf i ≤ o i) → ∀ ε, (∀ w ∈ Icc l u, |f (List.ofFn w) - MvPolynomial.eval w q| ≤ ε) →
        prodE (List.ofFn fun i => betaE (A i) (B i) (l i) (u i)) (fun x => (f x - g x) ^ 2) ≤ (2 * ε) ^ 2 ∧
        |√v - √(lawVar (List.ofFn fun i => betaE (A i) (B i) (l i) (u i)) f)| ≤ 2 * ε) ∧
      ∀ q : MvPolynomial (Fin d) ℝ, (∀ i, q.degreeOf i ≤ 2 * o i + 1) → ∀ ε, (∀ w ∈ Icc l u, |f (List.ofFn w) - MvPolynomial.eval w q| ≤ ε) →
        |m - prodE (List.ofFn fun i => betaE (A i) (B i) (l i) (u i)) f| ≤ 2 * ε := by
  obtain ⟨els, h1, hB, hnd, hz, h2, hbox, hall⟩ := hidx
  obtain ⟨pts, wts, c, g, m, v, a1, a2, a3, a4, a5, a6⟩ := c196_fit hd P A B l u hI o ho els hB hnd hz h2 hbox f hf
  obtain ⟨pts', wts', c', m', b1, b2, b3, b4⟩ := c196_mean hd P A B l u hI o ho els hB hnd hz h2 hbox f hf
  rw [a1] at b1
  obtain ⟨rfl, rfl⟩ := Prod.mk.inj (Except.ok.inj b1)
  rw [a2] at b2
  obtain rfl := Except.ok.inj b2
  rw [a4] at b3
  obtain rfl := Except.ok.inj b3
  refine ⟨els, pts, wts, c, g, m, v, h1, by rw [hro]; exact a1, a2, a3, a4, a5, fun q hq ε hε => ?_, b4⟩
  obtain ⟨z, hz1, hz2⟩ := box_coeffs P (fun i => (hI i).valid.pos) o els hB hnd hall q hq
  obtain ⟨k1, -, k2⟩ := a6 z _ hz1 hz2 ε fun w hw => by
    have : vec d (List.ofFn w) = w := by funext i; simp [vec]
    rw [this]; exact hε w hw
  exact ⟨k1, k2⟩

/-! ## Properties -/

/-- **C201.** Numerical integration on the tensor grid with the tensor-grid index set, Beta-type inputs on the intervals `[lᵢ, uᵢ]`, orders `oᵢ` of at least one, and a model that changes by at
most `∑ Lᵢ |xᵢ - yᵢ|` between any two points of the box. The root mean squared error of the polynomial returned is at most `∑ Lᵢ (uᵢ - lᵢ) / √oᵢ`, and so is the error of the standard deviation
reported; the error of the mean reported is at most `∑ Lᵢ (uᵢ - lᵢ) / √(2 oᵢ + 1)`. -/
theorem c201_rate (hd : d ≠ 0) (P : Fin d → MParam) (A B l u : Fin d → ℝ) (hI : ∀ i, BetaInput (P i) (A i) (B i) (l i) (u i)) (o : Fin d → ℕ) (ho : ∀ i, o i ≠ 0)
    (r : Request) (hr : lower r.name ∈ ["tensor-grid".toList, "tensor".toList]) (hro : r.orders = List.ofFn o)
    (f : List ℝ → ℝ) (L : Fin d → ℝ) (hL : ∀ i, 0 ≤ L i) (hf : ∀ x ∈ Icc l u, ∀ y ∈ Icc l u, |f (List.ofFn x) - f (List.ofFn y)| ≤ ∑ i, L i * |x i - y i|) :
    ∃ (els : List (List ℕ)) (pts : List (List ℝ)) (wts c : List ℝ) (g : List ℝ → ℝ) (m v : ℝ), r.setOrders = .ok els ∧ tensorGrid (localRules (List.ofFn P) r.orders) = .ok (pts, wts) ∧
      Expansion.integrate ⟨List.ofFn P, els, none⟩ pts wts (pts.map f) = .ok c ∧ (∀ x : List ℝ, x.length = d → Expansion.polyfit ⟨List.ofFn P, els, none⟩ c [x] = .ok [g x]) ∧
      mean c = .ok m ∧ variance c = .ok v ∧
      prodE (List.ofFn fun i => betaE (A i) (B i) (l i) (u i)) (fun x => (f x - g x) ^ 2) ≤ (∑ i, L i * (u i - l i) / √(o i)) ^ 2 ∧
      |√v - √(lawVar (List.ofFn fun i => betaE (A i) (B i) (l i) (u i)) f)| ≤ ∑ i, L i * (u i - l i) / √(o i) ∧
      |m - prodE (List.ofFn fun i => betaE (A i) (B i) (l i) (u i)) f| ≤ ∑ i, L i * (u i - l i) / √(2 * o i + 1) := by
  have hc : ContinuousOn (fun v => f (List.ofFn v)) (Icc l u) := by
    have hS : 0 ≤ ∑ i, L i := Finset.sum_nonneg fun i _ => hL i
    refine (LipschitzOnWith.of_dist_le_mul (K := ⟨∑ i, L i, hS⟩) fun x hx y hy => ?_).continuousOn
    rw [Real.dist_eq]
    refine (hf x hx y hy).trans ?_
    show _ ≤ (∑ i, L i) * dist x y
    rw [Finset.sum_mul]
    refine Finset.sum_le_sum fun i _ => mul_le_mul_of_nonneg_left ?_ (hL i)
    rw [← Real.dist_eq]
    exact dist_le_pi_dist x y i
  have hdouble : ∀ n : Fin d → ℕ, 2 * ∑ i, L i * (u i - l i) / (2 * √(n i)) = ∑ i, L i * (u i - l i) / √(n i) := by
    intro n
    rw [Finset.mul_sum]
    refine Finset.sum_congr rfl fun i _ => ?_
    rw [mul_comm 2 (√_), ← div_div]
    ring
  obtain ⟨els, pts, wts, c, g, m, v, h1, h2, h3, h4, h5, h6, h7, h8⟩ := rate_core hd P A B l u hI o ho r hro (tensor_index hd P o ho r hr hro) f hc
  obtain ⟨q, q1, q2⟩ := bernstein_box l u (fun i => (hI i).range) o ho (fun v => f (List.ofFn v)) L hL hf
  obtain ⟨k1, k2⟩ := h7 q q1 _ q2
  obtain ⟨q', q1', q2'⟩ := bernstein_box l u (fun i => (hI i).range) (fun i => 2 * o i + 1) (fun i => by omega) (fun v => f (List.ofFn v)) L hL hf
  have k3 := h8 q' q1' _ q2'
  rw [hdouble] at k1 k2 k3
  refine ⟨els, pts, wts, c, g, m, v, h1, h2, h3, h4, h5, h6, k1, k2, k3.trans (le_of_eq ?_)⟩
  push_cast
  rfl

/-- **C202.** The same with one input and a smooth model `F`. If the derivative of order `o + 1` is at most `C` in absolute value, then the root mean squared error of the polynomial and the error
of the standard deviation are at most `2 C (u - l)^(o+1) / o!`; if that of order `2 o + 2` is at most `C'`, then the error of the mean is at most `2 C' (u - l)^(2o+2) / (2o+1)!`. -/
theorem c202_smooth (P : MParam) (A B l u : ℝ) (hI : BetaInput P A B l u) (o : ℕ) (ho : o ≠ 0)
    (r : Request) (hr : lower r.name ∈ ["univariate".toList, "tensor-grid".toList, "tensor".toList]) (hro : r.orders = [o]) (F : ℝ → ℝ) (hc : ContinuousOn F (Icc l u)) :
    ∃ (els : List (List ℕ)) (pts : List (List ℝ)) (wts c : List ℝ) (g : ℝ → ℝ) (m v : ℝ), r.setOrders = .ok els ∧ tensorGrid (localRules [P] r.orders) = .ok (pts, wts) ∧
      Expansion.integrate ⟨[P], els, none⟩ pts wts (pts.map fun x => F (x.getD 0 0)) = .ok c ∧ (∀ x, Expansion.polyfit ⟨[P], els, none⟩ c [[x]] = .ok [g x]) ∧
      mean c = .ok m ∧ variance c = .ok v ∧
      (∀ C, ContDiffOn ℝ (o + 1) F (Icc l u) → (∀ y ∈ Icc l u, |iteratedDerivWithin (o + 1) F (Icc l u) y| ≤ C) →
        betaE A B l u (fun x => (F x - g x) ^ 2) ≤ (2 * C * (u - l) ^ (o + 1) / o.factorial) ^ 2 ∧
        |√v - √(betaE A B l u fun x => (F x - betaE A B l u F) ^ 2)| ≤ 2 * C * (u - l) ^ (o + 1) / o.factorial) ∧
      ∀ C, ContDiffOn ℝ (2 * o + 2) F (Icc l u) → (∀ y ∈ Icc l u, |iteratedDerivWithin (2 * o + 2) F (Icc l u) y| ≤ C) →
        |m - betaE A B l u F| ≤ 2 * C * (u - l) ^ (2 * o + 2) / (2 * o + 1).factorial := by
  have hc' : ContinuousOn (fun v : Fin 1 → ℝ => (fun x : List ℝ => F (x.getD 0 0)) (List.ofFn v)) (Icc (fun _ => l) fun _ => u) := by
    have e : (fun v : Fin 1 → ℝ => (fun x : List ℝ => F (x.getD 0 0)) (List.ofFn v)) = fun v => F (v 0) := by funext v; simp
    rw [e]
    exact hc.comp (continuous_apply 0).continuousOn fun v hv => ⟨hv.1 0, hv.2 0⟩
  obtain ⟨els, pts, wts, c, g, m, v, h1, h2, h3, h4, h5, h6, h7, h8⟩ := rate_core one_ne_zero (fun _ : Fin 1 => P) (fun _ => A) (fun _ => B) (fun _ => l) (fun _ => u) (fun _ => hI)
    (fun _ => o) (fun _ => ho) r (by simpa using hro) (one_index P o ho r hr hro) (fun x => F (x.getD 0 0)) hc'
  have hofn : ∀ {α : Type} (a : α), List.ofFn (fun _ : Fin 1 => a) = [a] := fun a => by simp
  simp only [hofn] at h2 h3 h4 h7 h8
  have hE : ∀ h : List ℝ → ℝ, prodE [betaE A B l u] h = betaE A B l u fun x => h [x] := fun h => rfl
  have hapx : ∀ (n : ℕ) (C : ℝ), ContDiffOn ℝ (n + 1) F (Icc l u) → (∀ y ∈ Icc l u, |iteratedDerivWithin (n + 1) F (Icc l u) y| ≤ C) →
      ∃ q : MvPolynomial (Fin 1) ℝ, (∀ i, q.degreeOf i ≤ n) ∧ ∀ w ∈ Icc (fun _ : Fin 1 => l) fun _ => u, |(fun x : List ℝ => F (x.getD 0 0)) (List.ofFn w) - MvPolynomial.eval w q| ≤
        C * (u - l) ^ (n + 1) / n.factorial := by
    intro n C hF hC
    obtain ⟨p, p1, p2⟩ := taylor_poly hI.range.le F n hF C hC
    refine ⟨Polynomial.aeval (MvPolynomial.X 0) p, fun i => (degreeOf_aeval p i 0).trans ?_, fun w hw => ?_⟩
    · split_ifs <;> omega
    · rw [eval_aeval_X]
      simpa using p2 (w 0) ⟨hw.1 0, hw.2 0⟩
  refine ⟨els, pts, wts, c, fun x => g [x], m, v, h1, h2, h3, fun x => h4 [x] rfl, h5, h6, fun C hF hC => ?_, fun C hF hC => ?_⟩
  · obtain ⟨q, q1, q2⟩ := hapx o C hF hC
    obtain ⟨k1, k2⟩ := h7 q q1 _ q2
    have e : 2 * (C * (u - l) ^ (o + 1) / o.factorial) = 2 * C * (u - l) ^ (o + 1) / o.factorial := by ring
    rw [e] at k1 k2
    unfold lawVar at k2
    simp only [hE] at k1 k2
    exact ⟨k1, k2⟩
  · obtain ⟨q, q1, q2⟩ := hapx (2 * o + 1) C (by exact_mod_cast hF) (by simpa using hC)
    have k := h8 q (fun i => q1 i) _ q2
    simp only [hE] at k
    refine k.trans (le_of_eq ?_)
    ring

/-- A uniform input on `[-1, 1]`. -/
theorem uniform_input : ∃ P : MParam, BetaInput P 1 1 (-1) 1 := by
  obtain ⟨P, hv, hab, -⟩ := exists_valid (jtab (1 - 1) (1 - 1) (-1) 1)
    (by norm_num [jtab, jacobiRow]) (fun k hk => beta_tab_pos one_pos one_pos (by norm_num) k hk) none none 0
  exact ⟨P, hv, one_pos, one_pos, by norm_num, hab⟩

/-- Two uniform inputs with the orders 100 and 400, and the model `|x| + 2 |y|`: the mean reported is within 4/10 of the mean of the model. -/
example : ∃ (P : MParam) (els : List (List ℕ)) (pts : List (List ℝ)) (wts c : List ℝ) (m : ℝ), BetaInput P 1 1 (-1) 1 ∧
    (Request.setOrders ⟨"tensor-grid".toList, [100, 400], 1, .linear, 1⟩) = .ok els ∧ tensorGrid (localRules [P, P] [100, 400]) = .ok (pts, wts) ∧
    Expansion.integrate ⟨[P, P], els, none⟩ pts wts (pts.map fun x => |x.getD 0 0| + 2 * |x.getD 1 0|) = .ok c ∧ mean c = .ok m ∧
    |m - prodE [betaE 1 1 (-1) 1, betaE 1 1 (-1) 1] (fun x => |x.getD 0 0| + 2 * |x.getD 1 0|)| ≤ 4/10 := by
  obtain ⟨P, hP⟩ := uniform_input
  obtain ⟨els, pts, wts, c, g, m, v, h1, h2, h3, -, h5, -, -, -, h8⟩ := c201_rate (d := 2) two_ne_zero (fun _ => P) (fun _ => 1) (fun _ => 1) (fun _ => -1) (fun _ => 1) (fun _ => hP) ![100, 400]
    (by intro i; fin_cases i <;> simp) ⟨"tensor-grid".toList, [100, 400], 1, .linear, 1⟩ (by decide) (by simp) (fun x => |x.getD 0 0| + 2 * |x.getD 1 0|) ![1, 2]
    (by intro i; fin_cases i <;> simp) (by
      intro x _ y _
      have e1 := abs_abs_sub_abs_le_abs_sub (x 0) (y 0)
      have e2 := abs_abs_sub_abs_le_abs_sub (x 1) (y 1)
      have e3 := abs_le.1 e1
      have e4 := abs_le.1 e2
      simp [Fin.sum_univ_two]
      rw [abs_le]
      constructor <;> linarith)
  refine ⟨P, els, pts, wts, c, m, hP, h1, by simpa using h2, by simpa using h3, h5, ?_⟩
  have e : ∀ {α : Type} (a : α), List.ofFn (fun _ : Fin 2 => a) = [a, a] := fun a => by simp
  rw [e] at h8
  refine h8.trans ?_
  simp only [Fin.sum_univ_two, Matrix.cons_val_zero, Matrix.cons_val_one]
  have s1 : (14 : ℝ) ≤ √(2 * (100 : ℕ) + 1) := Real.le_sqrt_of_sq_le (by norm_num)
  have s2 : (28 : ℝ) ≤ √(2 * (400 : ℕ) + 1) := Real.le_sqrt_of_sq_le (by norm_num)
  have t1 : 1 * (1 - (-1 : ℝ)) / √(2 * (100 : ℕ) + 1) ≤ 2 / 14 := by
    rw [div_le_div_iff₀ (by linarith) (by norm_num)]; linarith
  have t2 : 2 * (1 - (-1 : ℝ)) / √(2 * (400 : ℕ) + 1) ≤ 4 / 28 := by
    rw [div_le_div_iff₀ (by linarith) (by norm_num)]; linarith
  linarith

/-- A uniform input with order 5 and the model `sin`: the mean reported is within 1/4000 of the mean of the model. -/
example : ∃ (P : MParam) (els : List (List ℕ)) (pts : List (List ℝ)) (wts c : List ℝ) (m : ℝ), BetaInput P 1 1 (-1) 1 ∧
    (Request.setOrders ⟨"univariate".toList, [5], 1, .linear, 1⟩) = .ok els ∧ tensorGrid (localRules [P] [5]) = .ok (pts, wts) ∧
    Expansion.integrate ⟨[P], els, none⟩ pts wts (pts.map fun x => Real.sin (x.getD 0 0)) = .ok c ∧ mean c = .ok m ∧ |m - betaE 1 1 (-1) 1 Real.sin| ≤ 1/4000 := by
  obtain ⟨P, hP⟩ := uniform_input
  obtain ⟨els, pts, wts, c, g, m, v, h1, h2, h3, -, h5, -, -, h8⟩ := c202_smooth P 1 1 (-1) 1 hP 5 (by norm_num) ⟨"univariate".toList, [5], 1, .linear, 1⟩ (by decide) rfl Real.sin
    Real.continuous_sin.continuousOn
  refine ⟨P, els, pts, wts, c, m, hP, h1, h2, h3, h5, ?_⟩
  have := h8 1 Real.contDiff_sin.contDiffOn fun y hy => by
    rw [iteratedDerivWithin_eq_iteratedDeriv (uniqueDiffOn_Icc (by norm_num)) Real.contDiff_sin.contDiffAt hy]
    exact Real.abs_iteratedDeriv_sin_le_one _ _
  refine this.trans ?_
  norm_num [Nat.factorial]

end EQ.Stats
