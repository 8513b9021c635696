import Verif.Solver.ElasticProps

/-!
# Robust fits do not depend on how far outliers lie (C205)
-/

namespace EQ.Solver
open Matrix

variable {N d : ℕ}

/-! ## Proof device: the slope of the Huber loss -/

/-- Slope of the Huber loss: the residual, cut off at the threshold. -/
noncomputable def clip (M t : ℝ) : ℝ := max (-M) (min t M)

theorem clip_abs {M : ℝ} (hM : 0 ≤ M) (t : ℝ) : |clip M t| ≤ M := by
  unfold clip
  rw [abs_le]
  exact ⟨le_max_left _ _, max_le (by linarith) (min_le_right _ _)⟩

theorem clip_mid {M t : ℝ} (h : |t| ≤ M) : clip M t = t := by
  rw [abs_le] at h
  unfold clip
  rw [min_eq_left h.2, max_eq_right h.1]

theorem clip_high {M t : ℝ} (hM : 0 ≤ M) (h : M ≤ t) : clip M t = M := by
  unfold clip
  rw [min_eq_right h, max_eq_right (by linarith)]

theorem clip_low {M t : ℝ} (hM : 0 ≤ M) (h : t ≤ -M) : clip M t = -M := by
  unfold clip
  rw [min_eq_left (by linarith), max_eq_left h]

theorem huber_eq {M : ℝ} (hM : 0 ≤ M) (t : ℝ) : huberLoss M t = clip M t * t - clip M t ^ 2 / 2 := by
  unfold huberLoss
  split_ifs with h
  · rw [clip_mid h]; ring
  · push Not at h
    rcases le_total 0 t with ht | ht
    · rw [abs_of_nonneg ht] at h ⊢
      rw [clip_high hM h.le]
    · rw [abs_of_nonpos ht] at h ⊢
      rw [clip_low hM (by linarith)]; ring

theorem huber_ge {M p : ℝ} (hp : |p| ≤ M) (v : ℝ) : p * v - p ^ 2 / 2 ≤ huberLoss M v := by
  rw [abs_le] at hp
  unfold huberLoss
  split_ifs with h
  · nlinarith [sq_nonneg (v - p)]
  · push Not at h
    rcases le_total 0 v with ht | ht
    · rw [abs_of_nonneg ht] at h ⊢
      nlinarith [mul_nonneg (sub_nonneg.2 hp.2) (by linarith : 0 ≤ 2 * v - M - p)]
    · rw [abs_of_nonpos ht] at h ⊢
      nlinarith [mul_nonneg (by linarith : 0 ≤ M + p) (by linarith : 0 ≤ -2 * v - M + p)]

theorem huber_convex {M : ℝ} (hM : 0 ≤ M) (u v : ℝ) : huberLoss M u + clip M u * (v - u) ≤ huberLoss M v := by
  have := huber_ge (clip_abs hM u) v
  rw [huber_eq hM u]
  linarith

theorem huber_smooth {M : ℝ} (hM : 0 ≤ M) (u v : ℝ) : huberLoss M v ≤ huberLoss M u + clip M u * (v - u) + (v - u) ^ 2 / 2 := by
  have hw : huberLoss M u = clip M u ^ 2 / 2 + M * |u - clip M u| := by
    rw [huber_eq hM u]
    rcases le_or_gt |u| M with h | h
    · rw [clip_mid h]; simp; ring
    · rcases le_total 0 u with ht | ht
      · rw [abs_of_nonneg ht] at h
        rw [clip_high hM h.le, abs_of_pos (by linarith)]; ring
      · rw [abs_of_nonpos ht] at h
        rw [clip_low hM (by linarith), abs_of_neg (by linarith)]; ring
  have h := huber_lower (M := M) (z := v - (u - clip M u)) (r := max (u - clip M u) 0) (s := max (-(u - clip M u)) 0) hM (le_max_right _ _) (le_max_right _ _)
  have e : max (u - clip M u) 0 - max (-(u - clip M u)) 0 = u - clip M u := by
    rcases le_total 0 (u - clip M u) with h | h
    · rw [max_eq_left h, max_eq_right (by linarith)]; ring
    · rw [max_eq_right h, max_eq_left (by linarith)]; ring
  have e2 : max (u - clip M u) 0 + max (-(u - clip M u)) 0 = |u - clip M u| := by
    rcases le_total 0 (u - clip M u) with h | h
    · rw [max_eq_left h, max_eq_right (by linarith), abs_of_nonneg h]; ring
    · rw [max_eq_right h, max_eq_left (by linarith), abs_of_nonpos h]; ring
  rw [e, e2] at h
  rw [hw]
  have : v - (u - clip M u) + (u - clip M u) = v := by ring
  rw [this] at h
  norm_num at h ⊢
  nlinarith

theorem huber_stationary {M : ℝ} (hM : 0 ≤ M) (A : Mat N d) (b : Vec N) (x : Vec d) (hx : ∀ z, huberTotal M A b x ≤ huberTotal M A b z) (z : Vec d) :
    0 ≤ ∑ i, clip M (A.mulVec x i - b i) * (A.mulVec z i - A.mulVec x i) := by
  refine slope_nonneg _ ((∑ i, (A.mulVec z i - A.mulVec x i) ^ 2) / 2) fun t _ _ => ?_
  have h := hx (x + t • (z - x))
  have hA : ∀ i, A.mulVec (x + t • (z - x)) i = A.mulVec x i + t * (A.mulVec z i - A.mulVec x i) := by
    intro i
    rw [mulVec_add, mulVec_smul, mulVec_sub]
    simp
  have h2 : huberTotal M A b (x + t • (z - x)) ≤ huberTotal M A b x + t * ∑ i, clip M (A.mulVec x i - b i) * (A.mulVec z i - A.mulVec x i) +
      t ^ 2 * ((∑ i, (A.mulVec z i - A.mulVec x i) ^ 2) / 2) := by
    unfold huberTotal
    rw [Finset.mul_sum, Finset.sum_div, Finset.mul_sum, ← Finset.sum_add_distrib, ← Finset.sum_add_distrib]
    refine Finset.sum_le_sum fun i _ => ?_
    have := huber_smooth hM (A.mulVec x i - b i) (A.mulVec (x + t • (z - x)) i - b i)
    rw [hA] at this ⊢
    refine this.trans (le_of_eq ?_)
    ring
  linarith

/-- **C205, Huber.** Let `x` be returned for the outputs `b`, and let `b'` differ from `b` only at samples whose residual is at least the threshold, with the same sign, before and after. Then `x` also minimises the
Huber loss for `b'`: what is returned for `b'` has the same loss, and is `x` if the minimiser is unique. -/
theorem c205_huber (qp : ℝ → Mat N d → Vec N → HuberPoint N d) (A : Mat N d) (b b' : Vec N) (verbose : Bool) (M : Option ℝ) (hM : 0 ≤ M.getD 1)
    (hqp : HuberOptimal (M.getD 1) A b (qp (M.getD 1) A b)) (hqp' : HuberOptimal (M.getD 1) A b' (qp (M.getD 1) A b')) (x x' : Vec d)
    (hx : huber qp A b verbose M .osqp = .ok x) (hx' : huber qp A b' verbose M .osqp = .ok x')
    (hb : ∀ i, b' i = b i ∨ (M.getD 1 ≤ b i - ∑ k, A i k * x k ∧ M.getD 1 ≤ b' i - ∑ k, A i k * x k) ∨
      (b i - ∑ k, A i k * x k ≤ -M.getD 1 ∧ b' i - ∑ k, A i k * x k ≤ -M.getD 1)) :
    (∀ z, huberTotal (M.getD 1) A b' x ≤ huberTotal (M.getD 1) A b' z) ∧
    huberTotal (M.getD 1) A b' x' = huberTotal (M.getD 1) A b' x ∧
    ((∀ z, huberTotal (M.getD 1) A b' z ≤ huberTotal (M.getD 1) A b' x → z = x) → x' = x) := by
  have hv : verbose = true → M ≠ none := by
    intro h1 h2
    unfold huber at hx
    rw [if_pos ⟨h1, h2⟩] at hx
    cases hx
  obtain ⟨y, hy, hmin⟩ := c83_huber_partial qp A b verbose M hv hM hqp
  obtain ⟨y', hy', hmin'⟩ := c83_huber_partial qp A b' verbose M hv hM hqp'
  rw [hx] at hy
  rw [hx'] at hy'
  cases hy
  cases hy'
  have key : ∀ z, huberTotal (M.getD 1) A b' x ≤ huberTotal (M.getD 1) A b' z := by
    intro z
    have h := huber_stationary hM A b x hmin z
    have hc : ∀ i, clip (M.getD 1) (A.mulVec x i - b' i) = clip (M.getD 1) (A.mulVec x i - b i) := by
      intro i
      have hi : A.mulVec x i = ∑ k, A i k * x k := rfl
      rcases hb i with h | ⟨h1, h2⟩ | ⟨h1, h2⟩
      · rw [h]
      · rw [clip_low hM (by rw [hi]; linarith), clip_low hM (by rw [hi]; linarith)]
      · rw [clip_high hM (by rw [hi]; linarith), clip_high hM (by rw [hi]; linarith)]
    have h2 : huberTotal (M.getD 1) A b' x + ∑ i, clip (M.getD 1) (A.mulVec x i - b i) * (A.mulVec z i - A.mulVec x i) ≤ huberTotal (M.getD 1) A b' z := by
      unfold huberTotal
      rw [← Finset.sum_add_distrib]
      refine Finset.sum_le_sum fun i _ => ?_
      have := huber_convex hM (A.mulVec x i - b' i) (A.mulVec z i - b' i)
      rw [hc] at this
      refine le_trans (le_of_eq ?_) this
      ring
    linarith
  exact ⟨key, le_antisymm (hmin' x) (key x'), fun hu => hu x' (hmin' x)⟩

/-- **C205, least absolute residuals.** The same with the default solver for outputs that stay on their side of the fit: `b' i` is above, on or below the fit as `b i` is. -/
theorem c205_absolute (minimise : (Vec d → ℝ) → Vec d) (hmin : MinimiseContract minimise)
    (linprog : LP (N + N) (d + N) → Vec (d + N)) (A : Mat N d) (b b' : Vec N) (given : Option Optimiser) (hg : given = none ∨ given = some .osqp) (x x' : Vec d)
    (hx : lar minimise linprog A b (optimiser given true) = some x) (hx' : lar minimise linprog A b' (optimiser given true) = some x')
    (hb : ∀ i, SignType.sign (b' i - ∑ k, A i k * x k) = SignType.sign (b i - ∑ k, A i k * x k)) :
    (∀ z, absRes A b' x ≤ absRes A b' z) ∧ absRes A b' x' = absRes A b' x ∧
    ((∀ z, absRes A b' z ≤ absRes A b' x → z = x) → x' = x) := by
  obtain ⟨y, hy, h1⟩ := c48_default_partial minimise hmin linprog A b given hg
  obtain ⟨y', hy', h1'⟩ := c48_default_partial minimise hmin linprog A b' given hg
  rw [hx] at hy
  rw [hx'] at hy'
  cases hy
  cases hy'
  have key : ∀ z, absRes A b' x ≤ absRes A b' z := by
    intro z
    -- slopes of the absolute values
    let g : (Fin N → ℝ) → Fin N → ℝ := fun c i => if c i = A.mulVec x i then |A.mulVec z i - A.mulVec x i| else
      -(SignType.sign (c i - A.mulVec x i) : ℝ) * (A.mulVec z i - A.mulVec x i)
    have hsign : ∀ i, SignType.sign (b' i - A.mulVec x i) = SignType.sign (b i - A.mulVec x i) := hb
    have hgg : g b' = g b := by
      funext i
      show (if _ then _ else _) = (if _ then _ else _)
      rw [hsign]
      have : (b' i = A.mulVec x i) ↔ (b i = A.mulVec x i) := by
        rw [← sub_eq_zero, ← sign_eq_zero_iff, hsign, sign_eq_zero_iff, sub_eq_zero]
      simp only [this]
    -- lower bound for all steps
    have hlow : ∀ i, |A.mulVec x i - b' i| + g b' i ≤ |A.mulVec z i - b' i| := by
      intro i
      show _ + (if _ then _ else _) ≤ _
      split_ifs with h
      · rw [h]; simp
      · rcases lt_or_gt_of_ne h with h | h
        · rw [sign_neg (by linarith), abs_of_pos (by linarith)]
          simp only [SignType.coe_neg_one]
          have := le_abs_self (A.mulVec z i - b' i)
          linarith
        · rw [sign_pos (by linarith), abs_of_neg (by linarith)]
          simp only [SignType.coe_one]
          have := neg_abs_le (A.mulVec z i - b' i)
          linarith
    -- equality for short steps
    have hshort : ∃ t : ℝ, 0 < t ∧ ∀ i, |A.mulVec x i + t * (A.mulVec z i - A.mulVec x i) - b i| = |A.mulVec x i - b i| + t * g b i := by
      have hi : ∀ i, ∃ s : ℝ, 0 < s ∧ ∀ t, 0 < t → t ≤ s → |A.mulVec x i + t * (A.mulVec z i - A.mulVec x i) - b i| = |A.mulVec x i - b i| + t * g b i := by
        intro i
        by_cases h : b i = A.mulVec x i
        · refine ⟨1, one_pos, fun t ht _ => ?_⟩
          show _ = _ + t * (if _ then _ else _)
          rw [if_pos h, h]
          simp [abs_mul, abs_of_pos ht]
        · set D := A.mulVec z i - A.mulVec x i with hD
          have hpos : 0 < |A.mulVec x i - b i| := abs_pos.2 (sub_ne_zero.2 (Ne.symm h))
          refine ⟨|A.mulVec x i - b i| / (|D| + 1), by positivity, fun t ht hts => ?_⟩
          rw [le_div_iff₀ (by positivity)] at hts
          have hle : |t * D| ≤ |A.mulVec x i - b i| := by
            rw [abs_mul, abs_of_pos ht]
            nlinarith
          rw [abs_le] at hle
          show _ = _ + t * (if _ then _ else _)
          rw [if_neg h]
          rcases lt_or_gt_of_ne h with h | h
          · rw [abs_of_pos (a := A.mulVec x i - b i) (by linarith)] at hle ⊢
            rw [sign_neg (by linarith)]
            simp only [SignType.coe_neg_one]
            rw [abs_of_nonneg (by linarith [hle.1])]
            ring
          · rw [abs_of_neg (a := A.mulVec x i - b i) (by linarith)] at hle ⊢
            rw [sign_pos (by linarith)]
            simp only [SignType.coe_one]
            rw [abs_of_nonpos (by linarith [hle.2])]
            ring
      choose s hs hst using hi
      rcases isEmpty_or_nonempty (Fin N) with hE | hE
      · exact ⟨1, one_pos, fun i => hE.elim i⟩
      · refine ⟨Finset.univ.inf' Finset.univ_nonempty s, (Finset.lt_inf'_iff _).2 fun i _ => hs i, fun i => ?_⟩
        exact hst i _ ((Finset.lt_inf'_iff _).2 fun i _ => hs i) (Finset.inf'_le _ (Finset.mem_univ i))
    obtain ⟨t, ht, hts⟩ := hshort
    have h := h1 (x + t • (z - x))
    have hA : ∀ i, A.mulVec (x + t • (z - x)) i = A.mulVec x i + t * (A.mulVec z i - A.mulVec x i) := by
      intro i
      rw [mulVec_add, mulVec_smul, mulVec_sub]
      simp
    unfold absRes at h
    simp only [hA, hts] at h
    rw [Finset.sum_add_distrib, ← Finset.mul_sum] at h
    have hg0 : 0 ≤ ∑ i, g b i := by
      have : 0 ≤ t * ∑ i, g b i := by linarith
      exact nonneg_of_mul_nonneg_right this ht
    have := Finset.sum_le_sum fun i (_ : i ∈ Finset.univ) => hlow i
    rw [Finset.sum_add_distrib, hgg] at this
    unfold absRes
    linarith
  exact ⟨key, le_antisymm (h1' x) (key x'), fun hu => hu x' (h1' x)⟩

/-- Example: the outputs `0`, `0` and `c`, one constant fitted with threshold `1`. Whatever `c ≥ 2`, the fit is `1/2`, with the residual of the third sample above the threshold. -/
theorem huber_demo (c : ℝ) (hc : 2 ≤ c) : ∃ p, HuberOptimal 1 (!![1; 1; 1] : Mat 3 1) ![0, 0, c] p ∧ p.x = ![1/2] := by
  obtain ⟨p, h1, h2, h3⟩ := exists_huberPoint 1 (!![1; 1; 1] : Mat 3 1) ![0, 0, c] ![1/2]
  refine ⟨p, ⟨h1, fun q hq => ?_⟩, h2⟩
  rw [h3]
  refine le_trans ?_ (huberTotal_le_objective (by norm_num) _ _ q hq)
  have hval : ∀ x : Vec 1, huberTotal 1 (!![1; 1; 1] : Mat 3 1) ![0, 0, c] x = 2 * huberLoss 1 (x 0) + huberLoss 1 (x 0 - c) := by
    intro x
    simp [huberTotal, Fin.sum_univ_three, mulVec, dotProduct]
    ring
  rw [hval, hval]
  have a1 := huber_convex (M := 1) zero_le_one (![(1/2 : ℝ)] 0) (q.x 0)
  have a2 := huber_convex (M := 1) zero_le_one (![(1/2 : ℝ)] 0 - c) (q.x 0 - c)
  rw [clip_mid (by simp [abs_of_pos]; norm_num)] at a1
  rw [clip_low zero_le_one (by simp; linarith)] at a2
  simp only [Matrix.cons_val_zero] at a1 a2 ⊢
  linarith

/-- Huber: the third output moved from 9 to 100. -/
example : ∃ (qp : ℝ → Mat 3 1 → Vec 3 → HuberPoint 3 1), HuberOptimal 1 (!![1; 1; 1] : Mat 3 1) ![0, 0, 9] (qp 1 !![1; 1; 1] ![0, 0, 9]) ∧
    HuberOptimal 1 (!![1; 1; 1] : Mat 3 1) ![0, 0, 100] (qp 1 !![1; 1; 1] ![0, 0, 100]) ∧
    huber qp !![1; 1; 1] ![0, 0, 9] false none .osqp = .ok ![1/2] ∧
    ∀ i, (![0, 0, 100] : Vec 3) i = (![0, 0, 9] : Vec 3) i ∨
      (1 ≤ (![0, 0, 9] : Vec 3) i - ∑ k, (!![1; 1; 1] : Mat 3 1) i k * (![1/2] : Vec 1) k ∧
        1 ≤ (![0, 0, 100] : Vec 3) i - ∑ k, (!![1; 1; 1] : Mat 3 1) i k * (![1/2] : Vec 1) k) := by
  classical
  obtain ⟨p, hp, hpx⟩ := huber_demo 9 (by norm_num)
  obtain ⟨p', hp', hpx'⟩ := huber_demo 100 (by norm_num)
  refine ⟨fun _ _ b => if b = ![0, 0, 9] then p else p', ?_, ?_, ?_, ?_⟩
  · beta_reduce
    rw [if_pos rfl]; exact hp
  · have hne : (![0, 0, 100] : Vec 3) ≠ ![0, 0, 9] := fun h => by
      have h2 : (100 : ℝ) = 9 := congrFun h 2
      norm_num at h2
    beta_reduce
    rw [if_neg hne]
    exact hp'
  · simp [huber, hpx]
  · intro i
    fin_cases i
    · left; rfl
    · left; rfl
    · right
      constructor <;> norm_num

theorem absRes_demo (p q : ℝ) (hp : p < 2) (hq : 2 < q) (z : Vec 1) (h : absRes (!![1; 1; 1] : Mat 3 1) ![p, 2, q] z ≤ absRes (!![1; 1; 1] : Mat 3 1) ![p, 2, q] ![2]) : z = ![2] := by
  have hval : ∀ x : Vec 1, absRes (!![1; 1; 1] : Mat 3 1) ![p, 2, q] x = |x 0 - p| + |x 0 - 2| + |x 0 - q| := by
    intro x
    simp [absRes, Fin.sum_univ_three, mulVec, dotProduct]
  rw [hval, hval] at h
  simp only [Matrix.cons_val_zero, sub_self, abs_zero] at h
  rw [abs_of_pos (a := 2 - p) (by linarith), abs_of_neg (a := 2 - q) (by linarith)] at h
  have h1 := le_abs_self (z 0 - p)
  have h2 := neg_abs_le (z 0 - q)
  have h3 : |z 0 - 2| ≤ 0 := by linarith
  have h4 := abs_eq_zero.1 (le_antisymm h3 (abs_nonneg _))
  funext j
  fin_cases j
  simpa [sub_eq_zero] using h4

/-- Least absolute residuals: the outer two of the outputs `0`, `2` and `9` moved to `-5` and `100`. -/
example : ∃ minimise : (Vec 1 → ℝ) → Vec 1, MinimiseContract minimise ∧ (∀ linprog,
    lar minimise linprog (!![1; 1; 1] : Mat 3 1) ![0, 2, 9] (optimiser none true) = some ![2]) ∧
    ∀ i, SignType.sign ((![-5, 2, 100] : Vec 3) i - ∑ k, (!![1; 1; 1] : Mat 3 1) i k * (![2] : Vec 1) k) =
      SignType.sign ((![0, 2, 9] : Vec 3) i - ∑ k, (!![1; 1; 1] : Mat 3 1) i k * (![2] : Vec 1) k) := by
  classical
  have hm : MinimiseContract (fun f : Vec 1 → ℝ => if h : ∃ x, ∀ z, f x ≤ f z then h.choose else 0) := by
    intro f h
    simp only [dif_pos h]
    exact h.choose_spec
  refine ⟨_, hm, fun linprog => ?_, fun i => ?_⟩
  · obtain ⟨x, hx, hmin⟩ := c48_default_partial _ hm linprog (!![1; 1; 1] : Mat 3 1) ![0, 2, 9] none (Or.inl rfl)
    rw [hx, absRes_demo 0 9 (by norm_num) (by norm_num) x (hmin _)]
  · fin_cases i
    · show SignType.sign ((-5 : ℝ) - _) = SignType.sign ((0 : ℝ) - _)
      rw [sign_neg (by norm_num), sign_neg (by norm_num)]
    · rfl
    · show SignType.sign ((100 : ℝ) - _) = SignType.sign ((9 : ℝ) - _)
      rw [sign_pos (by norm_num), sign_pos (by norm_num)]

end EQ.Solver
