import Verif.Opt.RepeatProps
import Mathlib.Data.Sign.Basic

/-!
# The trust-region method: coordinate directions (C64)
-/

namespace EQ.Opt
open EQ.Basis

variable {n : ℕ}

/-! ## The pairs -/

theorem getD_getElem {α : Type} (l : List α) (d : α) {i : ℕ} (h : i < l.length) : l.getD i d = l[i] := by
  rw [List.getD_eq_getElem?_getD, List.getElem?_eq_getElem h]
  rfl

theorem setSize_two (n : ℕ) : 2 * setSize n = (n + 1) * (n + 2) := by
  unfold setSize
  have : 2 ∣ (n + 1) * (n + 2) := (Nat.even_mul_succ_self (n + 1)).two_dvd
  omega

theorem pairOf_eq {n t q : ℕ} (h1 : 1 ≤ q) (h2 : q ≤ n) :
    pairOf n (t * n + n + q) = if q + t > n then (q, q + t - n) else (q + t, q) := by
  have e : (t * n + n + q - n - 1) / n = t := by
    have : t * n + n + q - n - 1 = (q - 1) + n * t := by
      rw [Nat.mul_comm n t]; omega
    rw [this, Nat.add_mul_div_left _ _ (by omega), Nat.div_eq_of_lt (by omega), Nat.zero_add]
  unfold pairOf
  simp only [e]
  have e2 : t * n + n + q - t * n - n = q := by omega
  rw [e2]

/-- The numbers of the directions of the third round. -/
theorem third_round {n i : ℕ} (h1 : 2 * n + 1 ≤ i) (h2 : i < setSize n) :
    ∃ t q, i = t * n + n + q ∧ 1 ≤ t ∧ 1 ≤ q ∧ q ≤ n ∧ 2 * t ≤ n ∧ (2 * t = n → 2 * q ≤ n) := by
  have hs := setSize_two n
  have hn : 0 < n := by
    rcases Nat.eq_zero_or_pos n with rfl | h
    · simp at hs; omega
    · exact h
  have hd := Nat.div_add_mod (i - n - 1) n
  have hm := Nat.mod_lt (i - n - 1) hn
  set t := (i - n - 1) / n with ht
  set r := (i - n - 1) % n with hr
  have ei : i = t * n + n + (r + 1) := by rw [Nat.mul_comm t n]; omega
  have hle : 2 * (t * n) + 2 * (r + 1) ≤ n * n + n := by
    have : 2 * i + 2 ≤ (n + 1) * (n + 2) := by omega
    have e : (n + 1) * (n + 2) = n * n + 3 * n + 2 := by ring
    omega
  have ht2 : 2 * t ≤ n := by
    by_contra hc
    push Not at hc
    have : (n + 1) * n ≤ 2 * t * n := Nat.mul_le_mul_right n hc
    nlinarith
  refine ⟨t, r + 1, ei, ?_, by omega, by omega, ht2, fun h => ?_⟩
  · rcases Nat.eq_zero_or_pos t with h0 | h0
    · rw [h0] at ei; omega
    · exact h0
  · have : 2 * (t * n) = n * n := by rw [← Nat.mul_assoc, h]
    omega

theorem pairOf_range {n i : ℕ} (h1 : 2 * n + 1 ≤ i) (h2 : i < setSize n) :
    1 ≤ (pairOf n i).2 ∧ (pairOf n i).2 < (pairOf n i).1 ∧ (pairOf n i).1 ≤ n := by
  obtain ⟨t, q, rfl, ht, hq, hqn, ht2, -⟩ := third_round h1 h2
  rw [pairOf_eq hq hqn]
  split_ifs <;> simp only <;> omega

theorem pairOf_injective {n i j : ℕ} (hi : 2 * n + 1 ≤ i) (hi' : i < setSize n) (hj : 2 * n + 1 ≤ j)
    (hj' : j < setSize n) (h : pairOf n i = pairOf n j) : i = j := by
  obtain ⟨t, q, rfl, ht, hq, hqn, ht2, ht3⟩ := third_round hi hi'
  obtain ⟨t', q', rfl, ht', hq', hqn', ht2', ht3'⟩ := third_round hj hj'
  rw [pairOf_eq hq hqn, pairOf_eq hq' hqn'] at h
  have : t = t' ∧ q = q' := by
    split_ifs at h <;> simp only [Prod.mk.injEq] at h <;> omega
  rw [this.1, this.2]

/-- C64: every unordered pair of coordinates is used exactly once in the third round, for every
dimension. -/
theorem c64_pairs (n a b : ℕ) (h1 : 1 ≤ b) (h2 : b < a) (h3 : a ≤ n) :
    ∃! i, (2 * n + 1 ≤ i ∧ i < setSize n) ∧ pairOf n i = (a, b) := by
  have hs := setSize_two n
  have hex : ∃ i, (2 * n + 1 ≤ i ∧ i < setSize n) ∧ pairOf n i = (a, b) := by
    have e : (n + 1) * (n + 2) = n * n + 3 * n + 2 := by ring
    rcases lt_or_ge n (2 * (a - b)) with hd | hd
    · refine ⟨(n - (a - b)) * n + n + a, ⟨?_, ?_⟩, ?_⟩
      · have : 1 * n ≤ (n - (a - b)) * n ∨ n - (a - b) = 0 := by
          rcases Nat.eq_zero_or_pos (n - (a - b)) with h | h
          · exact .inr h
          · exact .inl (Nat.mul_le_mul_right n h)
        omega
      · have : 2 * (n - (a - b)) + 1 ≤ n := by omega
        have h4 := Nat.mul_le_mul_right n this
        have h5 : (2 * (n - (a - b)) + 1) * n = 2 * ((n - (a - b)) * n) + n := by ring
        omega
      · rw [pairOf_eq (by omega) (by omega), if_pos (by omega)]
        simp only [Prod.mk.injEq, true_and]
        omega
    · refine ⟨(a - b) * n + n + b, ⟨?_, ?_⟩, ?_⟩
      · have : 1 * n ≤ (a - b) * n := Nat.mul_le_mul_right n (by omega)
        omega
      · rcases hd.lt_or_eq with hd | hd
        · have h4 := Nat.mul_le_mul_right n (show 2 * (a - b) + 1 ≤ n by omega)
          have h5 : (2 * (a - b) + 1) * n = 2 * ((a - b) * n) + n := by ring
          omega
        · have h5 : 2 * ((a - b) * n) = n * n := by rw [← Nat.mul_assoc, hd]
          omega
      · rw [pairOf_eq (by omega) (by omega), if_neg (by omega)]
        simp only [Prod.mk.injEq, and_true]
        omega
  obtain ⟨i, hi, he⟩ := hex
  exact ⟨i, ⟨hi, he⟩, fun j ⟨hj, hje⟩ => pairOf_injective hj.1 hj.2 hi.1 hi.2 (hje.trans he.symm)⟩

example : ∃! i, (2 * 4 + 1 ≤ i ∧ i < setSize 4) ∧ pairOf 4 i = (4, 2) := c64_pairs 4 4 2 (by norm_num) (by norm_num)
  (by norm_num)

/-! ## The points -/

/-- The incumbent is not at a bound: in every coordinate the local bounds are at least `1e-8` of the
radius away. -/
structure Interior (s : St n) : Prop where
  del : 0 < s.del
  lower : ∀ c, s.lo c - s.sOld c ≤ -(1/10^8 * s.del)
  upper : ∀ c, 1/10^8 * s.del ≤ s.hi c - s.sOld c

/-- The signs of the steps of point number `i`. -/
def sig (n i : ℕ) (c : Fin n) : SignType :=
  if i = 0 then 0
  else if i < n + 1 then if c.val = i - 1 then 1 else 0
  else if i < 2 * n + 1 then if c.val = i - n - 1 then -1 else 0
  else if c.val + 1 = (pairOf n i).2 ∨ c.val + 1 = (pairOf n i).1 then 1 else 0

theorem sig_injective {n i j : ℕ} (hi : i < setSize n) (hj : j < setSize n) (h : sig n i = sig n j) : i = j := by
  have key : ∀ i j, i < setSize n → j < setSize n → sig n i = sig n j → i ≤ j → i = j := by
    clear hi hj h i j
    intro i j hi hj h hij
    by_contra hne
    have hlt : i < j := lt_of_le_of_ne hij hne
    have hj0 : j ≠ 0 := by omega
    by_cases a1 : j < n + 1
    · have h1 := congrFun h ⟨j - 1, by omega⟩
      unfold sig at h1
      rw [if_neg hj0, if_pos a1, if_pos rfl] at h1
      by_cases hi0 : i = 0
      · rw [if_pos hi0] at h1; exact absurd h1 (by decide)
      · rw [if_neg hi0, if_pos (by omega), if_neg (by simp only; omega)] at h1
        exact absurd h1 (by decide)
    · by_cases a2 : j < 2 * n + 1
      · have h1 := congrFun h ⟨j - n - 1, by omega⟩
        unfold sig at h1
        rw [if_neg hj0, if_neg a1, if_pos a2, if_pos rfl] at h1
        by_cases hi0 : i = 0
        · rw [if_pos hi0] at h1; exact absurd h1 (by decide)
        · rw [if_neg hi0] at h1
          by_cases b1 : i < n + 1
          · rw [if_pos b1] at h1
            split_ifs at h1
          · rw [if_neg b1, if_pos (by omega), if_neg (by simp only; omega)] at h1
            exact absurd h1 (by decide)
      · obtain ⟨p1, p2, p3⟩ := pairOf_range (by omega) hj
        have h1 := congrFun h ⟨(pairOf n j).1 - 1, by omega⟩
        have h2 := congrFun h ⟨(pairOf n j).2 - 1, by omega⟩
        have e1 : sig n j ⟨(pairOf n j).1 - 1, by omega⟩ = 1 := by
          unfold sig
          rw [if_neg hj0, if_neg a1, if_neg a2, if_pos (.inr (by simp only; omega))]
        have e2 : sig n j ⟨(pairOf n j).2 - 1, by omega⟩ = 1 := by
          unfold sig
          rw [if_neg hj0, if_neg a1, if_neg a2, if_pos (.inl (by simp only; omega))]
        rw [e1] at h1
        rw [e2] at h2
        unfold sig at h1 h2
        by_cases hi0 : i = 0
        · rw [if_pos hi0] at h1; exact absurd h1 (by decide)
        · rw [if_neg hi0] at h1 h2
          by_cases b1 : i < n + 1
          · rw [if_pos b1] at h1 h2
            split_ifs at h1 with c1
            · split_ifs at h2 with c2
              · simp only at c1 c2; omega
          · rw [if_neg b1] at h1 h2
            by_cases b2 : i < 2 * n + 1
            · rw [if_pos b2] at h1
              split_ifs at h1
            · rw [if_neg b2] at h1 h2
              obtain ⟨r1, r2, r3⟩ := pairOf_range (by omega) hi
              have c1 : (pairOf n j).1 - 1 + 1 = (pairOf n i).2 ∨ (pairOf n j).1 - 1 + 1 = (pairOf n i).1 := by
                by_contra hc
                rw [if_neg hc] at h1
                exact absurd h1 (by decide)
              have c2 : (pairOf n j).2 - 1 + 1 = (pairOf n i).2 ∨ (pairOf n j).2 - 1 + 1 = (pairOf n i).1 := by
                by_contra hc
                rw [if_neg hc] at h2
                exact absurd h2 (by decide)
              exact hne (pairOf_injective (by omega) hi (by omega) hj (Prod.ext (by omega) (by omega)))
  rcases le_total i j with hij | hij
  · exact key i j hi hj h hij
  · exact (key j i hj hi h.symm hij).symm

theorem sign_clip {lower upper x : ℝ} (hl : lower < 0) (hu : 0 < upper) :
    SignType.sign (min (max lower x) upper) = SignType.sign x := by
  rcases lt_trichotomy x 0 with h | h | h
  · rw [sign_neg h, sign_neg]
    exact lt_of_le_of_lt (min_le_left _ _) (max_lt hl h)
  · subst h
    rw [max_eq_right hl.le, min_eq_left hu.le]
  · rw [sign_pos h, sign_pos]
    exact lt_min (lt_of_lt_of_le h (le_max_right _ _)) hu

/-- Point number `i` of the generated set. -/
noncomputable def genPoint (cfg : Cfg n) (env : Env n) (s : St n) (i : ℕ) : Pt n :=
  (generateSet cfg env s (setSize n)).getD i s.sOld

theorem genPoint_sign {cfg : Cfg n} (hr : cfg.random = false) (env : Env n) {s : St n} (h : Interior s) {i : ℕ}
    (hi : i < setSize n) (c : Fin n) :
    SignType.sign (genPoint cfg env s i c - s.sOld c) = sig n i c := by
  have hd := h.del
  have hl := h.lower c
  have hu := h.upper c
  have s1 : step1 s.del (fun c => s.hi c - s.sOld c) c = s.del := by
    unfold step1
    rw [if_neg (by push Not; exact hu)]
  have s2 : step2 s.del (fun c => s.lo c - s.sOld c) (fun c => s.hi c - s.sOld c) c = -s.del := by
    unfold step2
    simp only
    rw [if_neg (by push Not; exact hu), if_neg (by push Not; exact hl)]
  unfold genPoint
  cases i with
  | zero => simp [generateSet, sig]
  | succ k =>
    have e : (generateSet cfg env s (setSize n)).getD (k + 1) s.sOld c = s.sOld c +
        min (max (s.lo c - s.sOld c) (coordDir s.del (fun c => s.lo c - s.sOld c) (fun c => s.hi c - s.sOld c)
          (k + 1) c)) (s.hi c - s.sOld c) := by
      unfold generateSet
      rw [List.getD_cons_succ, getD_map' _ _ _ 0 _ (by simp; omega)]
      simp only [hr, Bool.false_eq_true, if_false]
      have : (List.range (setSize n - 1)).getD k 0 = k := by
        rw [List.getD_eq_getElem?_getD, List.getElem?_range (by omega)]
        rfl
      rw [this]
    rw [e, add_sub_cancel_left, sign_clip (by nlinarith) (by nlinarith)]
    unfold coordDir sig
    rw [if_neg (Nat.succ_ne_zero k)]
    split_ifs
    · rw [s1, sign_pos hd]
    · exact sign_zero
    · rw [s2, sign_neg (by linarith)]
    · exact sign_zero
    · rw [s1, sign_pos hd]
    · exact sign_zero

/-- C64, the part that holds. For every dimension, radius and local bounds: if the incumbent is not at a
bound, the `(n + 1)(n + 2) / 2` points of the coordinate start are pairwise different; the first is the
incumbent, the next `n` go up along one coordinate each, the next `n` go down, and each of the others
goes up along two.
Missing: incumbents at a bound (`c64_bound_violated`). -/
theorem c64_points_partial (cfg : Cfg n) (hr : cfg.random = false) (env : Env n) (s : St n) (h : Interior s) :
    (generateSet cfg env s ((n + 1) * (n + 2) / 2)).Nodup ∧
    (generateSet cfg env s ((n + 1) * (n + 2) / 2)).length = (n + 1) * (n + 2) / 2 := by
  show (generateSet cfg env s (setSize n)).Nodup ∧ (generateSet cfg env s (setSize n)).length = setSize n
  have hpos := setSize_pos n
  have hlen : (generateSet cfg env s (setSize n)).length = setSize n := by simp [generateSet]; omega
  refine ⟨?_, hlen⟩
  rw [List.nodup_iff_injective_getElem]
  rintro ⟨i, hi⟩ ⟨j, hj⟩ he
  have hi' : i < setSize n := hlen ▸ hi
  have hj' : j < setSize n := hlen ▸ hj
  have e1 : genPoint cfg env s i = genPoint cfg env s j := by
    unfold genPoint
    rw [getD_getElem _ _ hi, getD_getElem _ _ hj]
    exact he
  have : i = j := sig_injective hi' hj' (by
    funext c
    rw [← genPoint_sign hr env h hi' c, ← genPoint_sign hr env h hj' c, e1])
  simp [this]

example : Interior stDemo := by constructor <;> norm_num [stDemo]

/-- C64 is violated at a bound. For every number of variables, every bounds, every objective: if the
starting point is at a bound in coordinate `c` and the box is at least as wide there as the initial
radius, the step "down" along `c` is the same as the step "up", so two of the points coincide. -/
theorem c64_bound_violated (cfg : Cfg n) (hr : cfg.random = false) (hsc : cfg.scale = false) (env : Env n)
    (obj : Pt n → ℝ) (l u x0 : Pt n) (hb : cfg.bounds = some (l, u)) (d : ℝ) (hd : 0 < d)
    (hdel : cfg.delInit = some d) (c : Fin n) (hx : x0 c = l c ∨ x0 c = u c) (hwide : d ≤ u c - l c) :
    ¬ (generateSet cfg env (start cfg obj (St.init n) x0) ((n + 1) * (n + 2) / 2)).Nodup := by
  show ¬ (generateSet cfg env (start cfg obj (St.init n) x0) (setSize n)).Nodup
  have hap : applyScaling cfg x0 = x0 := by unfold applyScaling; rw [hb]; simp [hsc]
  obtain ⟨h1, h2, h3, h4⟩ := start_fields cfg obj (inv_init cfg obj) x0
  rw [hap] at h1 h2 h3 h4
  have hrad : initRadius cfg x0 = d := by unfold initRadius; rw [hdel]
  rw [hrad] at h2 h3 h4
  simp only [updateBounds, hb, hsc, Bool.false_eq_true, if_false] at h3 h4
  set s := start cfg obj (St.init n) x0 with hs
  have hn : 0 < n := Fin.pos c
  have hsz : 2 * n + 1 ≤ setSize n := by
    have := setSize_two n
    nlinarith
  have hlen : (generateSet cfg env s (setSize n)).length = setSize n := by simp [generateSet]; omega
  have hget : ∀ k, k + 1 < setSize n → ∀ e : Fin n, (generateSet cfg env s (setSize n)).getD (k + 1) s.sOld e =
      s.sOld e + min (max (s.lo e - s.sOld e) (coordDir s.del (fun c => s.lo c - s.sOld c)
        (fun c => s.hi c - s.sOld c) (k + 1) e)) (s.hi e - s.sOld e) := by
    intro k hk e
    unfold generateSet
    rw [List.getD_cons_succ, getD_map' _ _ _ 0 _ (by simp; omega)]
    simp only [hr, Bool.false_eq_true, if_false]
    have : (List.range (setSize n - 1)).getD k 0 = k := by
      rw [List.getD_eq_getElem?_getD, List.getElem?_range (by omega)]
      rfl
    rw [this]
  have hc := c.isLt
  have heq : (generateSet cfg env s (setSize n)).getD (c.val + 1) s.sOld =
      (generateSet cfg env s (setSize n)).getD (n + c.val + 1) s.sOld := by
    funext e
    rw [hget _ (by omega) e, hget _ (by omega) e]
    have hdir : min (max (s.lo e - s.sOld e) (coordDir s.del (fun c => s.lo c - s.sOld c)
        (fun c => s.hi c - s.sOld c) (c.val + 1) e)) (s.hi e - s.sOld e) =
        min (max (s.lo e - s.sOld e) (coordDir s.del (fun c => s.lo c - s.sOld c)
        (fun c => s.hi c - s.sOld c) (n + c.val + 1) e)) (s.hi e - s.sOld e) := by
      have d1 : coordDir s.del (fun c => s.lo c - s.sOld c) (fun c => s.hi c - s.sOld c) (c.val + 1) e =
          if e = c then step1 s.del (fun c => s.hi c - s.sOld c) e else 0 := by
        unfold coordDir
        rw [if_pos (by omega)]
        simp [Fin.ext_iff]
      have d2 : coordDir s.del (fun c => s.lo c - s.sOld c) (fun c => s.hi c - s.sOld c) (n + c.val + 1) e =
          if e = c then step2 s.del (fun c => s.lo c - s.sOld c) (fun c => s.hi c - s.sOld c) e else 0 := by
        unfold coordDir
        rw [if_neg (by omega), if_pos (by omega)]
        have : n + c.val + 1 - n - 1 = c.val := by omega
        simp [Fin.ext_iff, this]
      rw [d1, d2]
      by_cases he : e = c
      · subst he
        rw [if_pos rfl, if_pos rfl]
        simp only [step1, step2, h1, h2, h3, h4]
        rcases hx with hx | hx
        · have e1 : min (u e) (x0 e + d) - x0 e = d := by
            rw [min_eq_right (by linarith)]; ring
          have e2 : max (l e) (x0 e - d) - x0 e = 0 := by
            rw [max_eq_left (by linarith)]; linarith
          rw [e1, e2, if_neg (by push Not; nlinarith), if_neg (by push Not; nlinarith), if_pos (by nlinarith),
            min_eq_right (by linarith : d ≤ 2 * d)]
        · have e1 : min (u e) (x0 e + d) - x0 e = 0 := by
            rw [min_eq_left (by linarith)]; linarith
          have e2 : max (l e) (x0 e - d) - x0 e = -d := by
            rw [max_eq_right (by linarith)]; ring
          rw [e1, e2, if_pos (by nlinarith), if_pos (by nlinarith), max_eq_right (by linarith : -2 * d ≤ -d)]
      · rw [if_neg he, if_neg he]
    rw [hdir]
  intro hnd
  have h5 : c.val + 1 < (generateSet cfg env s (setSize n)).length := by rw [hlen]; omega
  have h6 : n + c.val + 1 < (generateSet cfg env s (setSize n)).length := by rw [hlen]; omega
  rw [getD_getElem _ _ h5, getD_getElem _ _ h6] at heq
  have := (List.Nodup.getElem_inj_iff hnd).1 heq
  omega

example : ¬ (generateSet cfgDemo envDemo (start cfgDemo (fun x => x 0) (St.init 1) fun _ => 1) 3).Nodup :=
  c64_bound_violated cfgDemo rfl rfl envDemo _ (fun _ => -1) (fun _ => 1) _ rfl 1 (by norm_num) rfl 0 (.inr rfl)
    (by norm_num)

end EQ.Opt
