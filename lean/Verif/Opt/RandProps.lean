import Verif.Opt.RandDirs
import Mathlib.LinearAlgebra.Matrix.NonsingularInverse
import Mathlib.LinearAlgebra.Matrix.ToLinearEquiv

/-!
# C149: random sampling directions
-/

namespace EQ.Opt

variable {n : ℕ}

/-- The limits around the incumbent: it is between them, and they do not coincide. -/
structure Limits (del : ℝ) (lower upper : Pt n) : Prop where
  pos : 0 < del
  below : ∀ c, lower c ≤ 0
  above : ∀ c, 0 ≤ upper c
  width : ∀ c, lower c < upper c

theorem mem_off {lower upper : Pt n} {c : Fin n} : c ∈ offBound lower upper ↔ lower c ≠ 0 ∧ upper c ≠ 0 := by
  unfold offBound
  simp

theorem mem_at {lower upper : Pt n} {c : Fin n} : c ∈ atBound lower upper ↔ lower c = 0 ∨ upper c = 0 := by
  unfold atBound
  simp

theorem off_nodup (lower upper : Pt n) : (offBound lower upper).Nodup := (List.nodup_finRange n).filter _

theorem at_nodup (lower upper : Pt n) : (atBound lower upper).Nodup := (List.nodup_finRange n).filter _

theorem off_add_at (lower upper : Pt n) : (offBound lower upper).length + (atBound lower upper).length = n := by
  classical
  unfold offBound atBound
  have := List.length_eq_length_filter_add (l := List.finRange n) (f := fun c => decide (lower c = 0 ∨ upper c = 0))
  rw [List.length_finRange] at this
  conv_rhs => rw [this]
  rw [add_comm]
  congr 2
  · congr 1
    funext c
    simp

/-! ### Scales -/

theorem getScale_pos {dirn lower upper : Pt n} {delta : ℝ} (hd : 0 < delta) (hl : ∀ c, dirn c < 0 → lower c < 0)
    (hu : ∀ c, 0 < dirn c → 0 < upper c) : 0 < getScale dirn delta lower upper := by
  unfold getScale
  generalize List.finRange n = js
  induction js generalizing delta with
  | nil => exact hd
  | cons j js ih =>
    rw [List.foldl_cons]
    apply ih
    split_ifs with a b
    · exact lt_min hd (div_pos_of_neg_of_neg (hl j a) a)
    · exact lt_min hd (div_pos (hu j b) b)
    · exact hd

theorem getScale_along {lower upper : Pt n} {delta : ℝ} (hd : 0 ≤ delta) (hl : ∀ i, lower i ≤ 0 ∧ 0 ≤ upper i) (c : Fin n) (t : ℝ)
    {g : ℝ} (g0 : 0 ≤ g) (g1 : g ≤ delta) (g2 : lower c ≤ g * t ∧ g * t ≤ upper c)
    (g3 : ∀ a, 0 ≤ a → a ≤ delta → lower c ≤ a * t → a * t ≤ upper c → a ≤ g) : getScale (along c t) delta lower upper = g := by
  obtain ⟨h1, h2, h3, h4⟩ := c59_get_scale (along c t) lower upper delta hd hl
  apply le_antisymm
  · have := h3 c
    simp only [along, if_true] at this
    exact g3 _ h1 h2 this.1 this.2
  · refine h4 g g0 g1 fun i => ?_
    unfold along
    split_ifs with h
    · subst h; exact g2
    · simp only [mul_zero]; exact hl i

/-- The first direction along a coordinate at a bound. -/
theorem scaled_away {del : ℝ} {lower upper : Pt n} (h : Limits del lower upper) {c : Fin n} (hc : lower c = 0 ∨ upper c = 0) :
    scaled (along c (away lower c)) del lower upper = along c (away lower c * min del (upper c - lower c)) := by
  have hl : ∀ i, lower i ≤ 0 ∧ 0 ≤ upper i := fun i => ⟨h.below i, h.above i⟩
  have hw := h.width c
  have hg : getScale (along c (away lower c)) del lower upper = min del (upper c - lower c) := by
    refine getScale_along h.pos.le hl c _ (le_min h.pos.le (by linarith)) (min_le_left _ _) ?_ ?_
    · have hm := min_le_right del (upper c - lower c)
      have h0 : 0 ≤ min del (upper c - lower c) := le_min h.pos.le (by linarith)
      unfold away
      split_ifs with h1
      · rw [h1] at hm h0 ⊢
        rw [sub_zero] at hm h0 ⊢
        constructor <;> linarith
      · have h2 : upper c = 0 := hc.resolve_left h1
        rw [h2] at hm h0 ⊢
        constructor <;> linarith
    · intro a a0 a1 a2 a3
      refine le_min a1 ?_
      unfold away at a2 a3
      split_ifs at a2 a3 with h1
      · linarith
      · have h2 : upper c = 0 := hc.resolve_left h1
        linarith
  funext d
  unfold scaled
  rw [hg]
  unfold along
  split_ifs
  · ring
  · ring

/-- The second direction along a coordinate at a bound. -/
theorem scaled_second {del : ℝ} {lower upper : Pt n} (h : Limits del lower upper) {c : Fin n} (hc : lower c = 0 ∨ upper c = 0) :
    scaled (along c (if upper c - lower c > del then 2 * away lower c * del else 1/2 * away lower c * (upper c - lower c))) 1 lower upper =
      along c (away lower c * if upper c - lower c > del then min (2 * del) (upper c - lower c) else (upper c - lower c) / 2) := by
  have hl : ∀ i, lower i ≤ 0 ∧ 0 ≤ upper i := fun i => ⟨h.below i, h.above i⟩
  have hw := h.width c
  have hd := h.pos
  set m := upper c - lower c with hm
  have hm0 : 0 < m := by rw [hm]; linarith
  have hlow : away lower c = 1 ∧ lower c = 0 ∧ upper c = m ∨ away lower c = -1 ∧ upper c = 0 ∧ lower c = -m := by
    unfold away
    split_ifs with h1
    · left; exact ⟨rfl, h1, by rw [hm, h1, sub_zero]⟩
    · right; exact ⟨rfl, hc.resolve_left h1, by rw [hm, hc.resolve_left h1]; ring⟩
  have hg : ∀ t, 0 < t → getScale (along c (away lower c * t)) 1 lower upper = min 1 (m / t) := by
    intro t ht
    have hx : min 1 (m / t) * t ≤ m := by
      calc min 1 (m / t) * t ≤ m / t * t := by gcongr; exact min_le_right _ _
        _ = m := by field_simp
    have hx0 : 0 ≤ min 1 (m / t) := le_min (by norm_num) (by positivity)
    have hx1 : 0 ≤ min 1 (m / t) * t := by positivity
    refine getScale_along (by norm_num) hl c _ hx0 (min_le_left _ _) ?_ ?_
    · rcases hlow with ⟨e1, e2, e3⟩ | ⟨e1, e2, e3⟩ <;> rw [e1, e2, e3] <;> constructor <;> linarith
    · intro a a0 a1 a2 a3
      refine le_min a1 ?_
      rw [le_div_iff₀ ht]
      rcases hlow with ⟨e1, e2, e3⟩ | ⟨e1, e2, e3⟩ <;> rw [e1] at a2 a3 <;> [rw [e3] at a3; rw [e3] at a2] <;> linarith
  funext d
  unfold scaled
  by_cases hmd : m > del
  · rw [if_pos hmd, if_pos hmd, show 2 * away lower c * del = away lower c * (2 * del) by ring, hg _ (by linarith)]
    unfold along
    split_ifs
    · rw [show min 1 (m / (2 * del)) * (away lower c * (2 * del)) = away lower c * (min 1 (m / (2 * del)) * (2 * del)) by ring]
      congr 1
      rw [min_mul_of_nonneg _ _ (by linarith), one_mul, div_mul_cancel₀ _ (by positivity)]
    · ring
  · rw [if_neg hmd, if_neg hmd, show 1/2 * away lower c * m = away lower c * (m / 2) by ring, hg _ (by linarith)]
    rw [show m / (m / 2) = 2 by field_simp, min_eq_left (by norm_num), one_mul]

/-! ### The columns -/

theorem randCol_off (Q : ℕ → ℕ → ℝ) (z : ℕ → Pt n) (del : ℝ) (lower upper : Pt n) {j : ℕ} (hj : j < (offBound lower upper).length) :
    randCol Q z del lower upper j = scaled (qCol Q lower upper j) del lower upper := by
  unfold randCol
  simp only
  rw [if_pos hj]

theorem randCol_at (Q : ℕ → ℕ → ℝ) (z : ℕ → Pt n) {del : ℝ} {lower upper : Pt n} (h : Limits del lower upper) {i : ℕ}
    (hi : i < (atBound lower upper).length) :
    randCol Q z del lower upper ((offBound lower upper).length + i) =
      along (atBound lower upper)[i] (away lower (atBound lower upper)[i] *
        min del (upper (atBound lower upper)[i] - lower (atBound lower upper)[i])) := by
  have := off_add_at lower upper
  unfold randCol
  simp only
  rw [if_neg (by omega), if_pos (by omega), Nat.add_sub_cancel_left, List.getElem?_eq_getElem hi]
  exact scaled_away h (mem_at.1 (List.getElem_mem hi))

theorem randCol_off2 (Q : ℕ → ℕ → ℝ) (z : ℕ → Pt n) (del : ℝ) (lower upper : Pt n) {j : ℕ} (hj : j < (offBound lower upper).length) :
    randCol Q z del lower upper (n + j) = scaled (-qCol Q lower upper j) del lower upper := by
  have := off_add_at lower upper
  unfold randCol
  simp only
  rw [if_neg (by omega), if_neg (by omega), if_pos (by omega), Nat.add_sub_cancel_left]
  funext c
  simp [scaled]

theorem randCol_at2 (Q : ℕ → ℕ → ℝ) (z : ℕ → Pt n) {del : ℝ} {lower upper : Pt n} (h : Limits del lower upper) {i : ℕ}
    (hi : i < (atBound lower upper).length) :
    randCol Q z del lower upper (n + ((offBound lower upper).length + i)) =
      along (atBound lower upper)[i] (away lower (atBound lower upper)[i] *
        if upper (atBound lower upper)[i] - lower (atBound lower upper)[i] > del then
          min (2 * del) (upper (atBound lower upper)[i] - lower (atBound lower upper)[i])
        else (upper (atBound lower upper)[i] - lower (atBound lower upper)[i]) / 2) := by
  have := off_add_at lower upper
  unfold randCol
  simp only
  rw [if_neg (by omega), if_neg (by omega), if_neg (by omega), if_pos (by omega),
    show n + ((offBound lower upper).length + i) - n - (offBound lower upper).length = i by omega, List.getElem?_eq_getElem hi]
  exact scaled_second h (mem_at.1 (List.getElem_mem hi))

/-- **C149, limits.** Every direction, for all draws, stays between the limits. -/
theorem c149_within (Q : ℕ → ℕ → ℝ) (z : ℕ → Pt n) {del : ℝ} (hd : 0 ≤ del) {lower upper : Pt n} (hl : ∀ c, lower c ≤ 0 ∧ 0 ≤ upper c)
    (j : ℕ) (c : Fin n) : lower c ≤ randCol Q z del lower upper j c ∧ randCol Q z del lower upper j c ≤ upper c := by
  have key : ∀ (d : Pt n) (delta : ℝ), 0 ≤ delta → lower c ≤ scaled d delta lower upper c ∧ scaled d delta lower upper c ≤ upper c :=
    fun d delta h => (c59_get_scale d lower upper delta h hl).2.2.1 c
  unfold randCol
  simp only
  split_ifs
  · exact key _ _ hd
  · cases (atBound lower upper)[j - (offBound lower upper).length]? with
    | none => exact hl c
    | some d => exact key _ _ hd
  · have := key (-qCol Q lower upper (j - n)) del hd
    simpa [scaled] using this
  · cases (atBound lower upper)[j - n - (offBound lower upper).length]? with
    | none => exact hl c
    | some d => exact key _ _ (by norm_num)
  · exact key _ _ hd

theorem qCol_scale {Q : ℕ → ℕ → ℝ} {del : ℝ} {lower upper : Pt n} (h : Limits del lower upper) (j : ℕ) (s : ℝ) :
    0 < getScale (fun c => s * qCol Q lower upper j c) del lower upper := by
  refine getScale_pos h.pos (fun c hc => ?_) fun c hc => ?_
  · refine lt_of_le_of_ne (h.below c) fun e => ?_
    simp [qCol, e] at hc
  · refine lt_of_le_of_ne (h.above c) fun e => ?_
    simp [qCol, ← e] at hc

/-- **C149, independence.** For every orthogonal factor: a linear form that vanishes along the first `n` directions is zero. -/
theorem c149_independent {Q : ℕ → ℕ → ℝ} (z : ℕ → Pt n) {del : ℝ} {lower upper : Pt n} (h : Limits del lower upper)
    (hQ : Orthogonal (offBound lower upper).length Q) (b : Pt n) (hb : ∀ j < n, ∑ c, b c * randCol Q z del lower upper j c = 0) : b = 0 := by
  classical
  have hlen := off_add_at lower upper
  set k := (offBound lower upper).length with hk
  -- coordinates at a bound
  have hat : ∀ c, lower c = 0 ∨ upper c = 0 → b c = 0 := by
    intro c hc
    obtain ⟨i, hi, e⟩ := List.getElem_of_mem (mem_at.2 hc)
    have h1 := hb (k + i) (by omega)
    rw [randCol_at Q z h hi, e] at h1
    unfold along at h1
    rw [Finset.sum_eq_single c (fun d _ hd => by rw [if_neg hd, mul_zero]) (by simp), if_pos rfl] at h1
    have h2 : 0 < min del (upper c - lower c) := lt_min h.pos (by linarith [h.width c])
    have h3 : away lower c ≠ 0 := by unfold away; split_ifs <;> norm_num
    rcases mul_eq_zero.1 h1 with h1 | h1
    · exact h1
    · exact absurd h1 (mul_ne_zero h3 h2.ne')
  -- the others
  let M : Matrix (Fin k) (Fin k) ℝ := Matrix.of fun r i => Q r i
  have hM : M.transpose * M = 1 := by
    ext i j
    rw [Matrix.mul_apply, Matrix.one_apply]
    have := hQ i i.2 j j.2
    rw [Finset.sum_range] at this
    simp only [Matrix.transpose_apply, M, Matrix.of_apply]
    rw [this]
    simp [Fin.ext_iff]
  let w : Fin k → ℝ := fun r => b ((offBound lower upper)[r])
  have hw : Matrix.vecMul w M = 0 := by
    funext i
    have h1 := hb i (by omega)
    rw [randCol_off Q z del lower upper i.2] at h1
    have hs : 0 < getScale (qCol Q lower upper i) del lower upper := by simpa using qCol_scale (Q := Q) h i 1
    have h2 : ∑ c, b c * qCol Q lower upper i c = 0 := by
      unfold scaled at h1
      have : ∑ c, b c * (getScale (qCol Q lower upper i) del lower upper * qCol Q lower upper i c) =
          getScale (qCol Q lower upper i) del lower upper * ∑ c, b c * qCol Q lower upper i c := by
        rw [Finset.mul_sum]
        exact Finset.sum_congr rfl fun c _ => by ring
      rw [this] at h1
      exact (mul_eq_zero.1 h1).resolve_left hs.ne'
    have h3 : ∑ c, b c * qCol Q lower upper i c = ∑ c ∈ (offBound lower upper).toFinset, b c * qCol Q lower upper i c := by
      symm
      apply Finset.sum_subset (Finset.subset_univ _)
      intro c _ hc
      rw [List.mem_toFinset, mem_off] at hc
      have : lower c = 0 ∨ upper c = 0 := by tauto
      rw [hat c this, zero_mul]
    rw [h3, List.sum_toFinset _ (off_nodup _ _)] at h2
    change ∑ r, w r * M r i = 0
    rw [← h2]
    rw [← Fin.sum_univ_getElem]
    have hl : ((offBound lower upper).map fun c => b c * qCol Q lower upper i c).length = k := by simp [hk]
    rw [← Fin.sum_congr' _ hl.symm]
    refine Finset.sum_congr rfl fun r _ => ?_
    simp only [w, M, Matrix.of_apply, Fin.val_cast, List.getElem_map]
    congr 1
    have hmem := mem_off.1 (List.getElem_mem (l := offBound lower upper) r.2)
    unfold qCol
    rw [if_neg (by push Not; exact hmem)]
    congr 1
    exact ((off_nodup lower upper).idxOf_getElem _ _).symm
  have hw0 : w = 0 := by
    have h1 : M * M.transpose = 1 := mul_eq_one_comm.1 hM
    have := congrArg (fun v => Matrix.vecMul v M.transpose) hw
    simpa [Matrix.vecMul_vecMul, h1] using this
  funext c
  by_cases hc : lower c = 0 ∨ upper c = 0
  · exact hat c hc
  · obtain ⟨i, hi, e⟩ := List.getElem_of_mem (mem_off.2 (by push Not at hc; exact hc))
    have := congrFun hw0 ⟨i, hi⟩
    simp only [w] at this
    rw [← e]
    exact this

/-- The limits around the incumbent of a state. -/
def lowerOf (s : St n) : Pt n := fun c => s.lo c - s.sOld c

/-- The limits around the incumbent of a state. -/
def upperOf (s : St n) : Pt n := fun c => s.hi c - s.sOld c

/-- **C149, points.** The points of a random sample set are the incumbent and the incumbent plus the directions: the truncation to
the bounds that follows never changes a point. -/
theorem c149_points (cfg : Cfg n) (hr : cfg.random = true) (env : Env n) (he : RandDirs env) (s : St n) (hs : Within s s.sOld)
    (hd : 0 ≤ s.del) (num : ℕ) :
    ∃ Q z, Orthogonal (offBound (lowerOf s) (upperOf s)).length Q ∧ (∀ i, z i ≠ 0) ∧
      generateSet cfg env s num = s.sOld :: (List.range (num - 1)).map fun k : ℕ => fun c =>
        s.sOld c + randCol Q z s.del (lowerOf s) (upperOf s) k c := by
  obtain ⟨Q, z, hQ, hz, h⟩ := he s num
  refine ⟨Q, z, hQ, hz, ?_⟩
  unfold generateSet
  congr 1
  refine List.map_congr_left fun k _ => ?_
  funext c
  have hl : ∀ c, lowerOf s c ≤ 0 ∧ 0 ≤ upperOf s c := fun c => ⟨by have := (hs c).1; simp only [lowerOf]; linarith, by
    have := (hs c).2; simp only [upperOf]; linarith⟩
  obtain ⟨h1, h2⟩ := c149_within Q z hd hl k c
  simp only [hr, if_true, h]
  change s.sOld c + min (max (lowerOf s c) (randCol Q z s.del (lowerOf s) (upperOf s) k c)) (upperOf s c) = _
  rw [max_eq_right h1, min_eq_left h2]

theorem limits_of {s : St n} (hs : Within s s.sOld) (hd : 0 < s.del) (hw : ∀ c, s.lo c < s.hi c) : Limits s.del (lowerOf s) (upperOf s) where
  pos := hd
  below := fun c => by have := (hs c).1; simp only [lowerOf]; linarith
  above := fun c => by have := (hs c).2; simp only [upperOf]; linarith
  width := fun c => by have := hw c; simp only [lowerOf, upperOf]; linarith

/-- **C149, linear models.** For all draws, every incumbent (at a bound or not) and every number of variables: a random set of at
least `n + 1` points determines a linear model. -/
theorem c149_linear (cfg : Cfg n) (hr : cfg.random = true) (env : Env n) (he : RandDirs env) (s : St n) (hs : Within s s.sOld)
    (hd : 0 < s.del) (hw : ∀ c, s.lo c < s.hi c) (num : ℕ) (hn : n + 1 ≤ num) : DeterminesLinear (generateSet cfg env s num) := by
  obtain ⟨Q, z, hQ, -, e⟩ := c149_points cfg hr env he s hs hd.le num
  intro f g hf hg hfg
  rw [e] at hfg
  obtain ⟨b, hb⟩ := affine_centre hf hg s.sOld (hfg _ (by simp))
  have h0 : b = 0 := by
    refine c149_independent z (limits_of hs hd hw) hQ b fun j hj => ?_
    have h1 := hfg (fun c => s.sOld c + randCol Q z s.del (lowerOf s) (upperOf s) j c)
      (List.mem_cons_of_mem _ (List.mem_map.2 ⟨j, List.mem_range.2 (by omega), rfl⟩))
    have h2 := hb (fun c => s.sOld c + randCol Q z s.del (lowerOf s) (upperOf s) j c)
    rw [h1, sub_self] at h2
    simp only [add_sub_cancel_left] at h2
    exact h2.symm
  funext x
  have := hb x
  rw [h0] at this
  simp only [Pi.zero_apply, zero_mul, Finset.sum_const_zero] at this
  linarith

/-- The directions of the second round are multiples of those of the first, with a factor that is neither zero nor one. -/
theorem randCol_second {Q : ℕ → ℕ → ℝ} (z : ℕ → Pt n) {del : ℝ} {lower upper : Pt n} (h : Limits del lower upper) {j : ℕ} (hj : j < n) :
    ∃ t : ℝ, t ≠ 0 ∧ t ≠ 1 ∧ randCol Q z del lower upper (n + j) = t • randCol Q z del lower upper j := by
  have hlen := off_add_at lower upper
  by_cases hk : j < (offBound lower upper).length
  · rw [randCol_off Q z del lower upper hk, randCol_off2 Q z del lower upper hk]
    have h1 : 0 < getScale (qCol Q lower upper j) del lower upper := by simpa using qCol_scale (Q := Q) h j 1
    have h2 : 0 < getScale (-qCol Q lower upper j) del lower upper := by
      have := qCol_scale (Q := Q) h j (-1)
      simpa [← Pi.neg_def, neg_one_mul] using this
    set a := getScale (qCol Q lower upper j) del lower upper with ha
    set a' := getScale (-qCol Q lower upper j) del lower upper with ha'
    have h3 : 0 < a' / a := div_pos h2 h1
    refine ⟨-(a' / a), by linarith, by linarith, ?_⟩
    funext c
    simp only [scaled, Pi.smul_apply, smul_eq_mul, ← ha, ← ha', Pi.neg_apply]
    field_simp
  · obtain ⟨i, rfl⟩ := Nat.exists_eq_add_of_le (not_lt.1 hk)
    have hi : i < (atBound lower upper).length := by omega
    rw [randCol_at Q z h hi, randCol_at2 Q z h hi]
    set c := (atBound lower upper)[i] with hc
    have hw := h.width c
    have hd := h.pos
    by_cases hm : upper c - lower c > del
    · rw [if_pos hm, min_eq_left hm.le]
      have h1 : del < min (2 * del) (upper c - lower c) := lt_min (by linarith) hm
      refine ⟨min (2 * del) (upper c - lower c) / del, ?_, ?_, ?_⟩
      · exact (div_pos (by linarith) hd).ne'
      · rw [Ne, div_eq_one_iff_eq hd.ne']
        exact h1.ne'
      · funext d
        simp only [along, Pi.smul_apply, smul_eq_mul]
        split_ifs
        · field_simp
        · ring
    · rw [if_neg hm, min_eq_right (not_lt.1 hm)]
      refine ⟨1/2, by norm_num, by norm_num, ?_⟩
      funext d
      simp only [along, Pi.smul_apply, smul_eq_mul]
      split_ifs
      · ring
      · ring

/-- **C149, distinct points.** For all draws the first `2 n + 1` points of a random sample set are different from each other. -/
theorem c149_distinct (cfg : Cfg n) (hr : cfg.random = true) (env : Env n) (he : RandDirs env) (s : St n) (hs : Within s s.sOld)
    (hd : 0 < s.del) (hw : ∀ c, s.lo c < s.hi c) (num : ℕ) (hn : num ≤ 2 * n + 1) : (generateSet cfg env s num).Nodup := by
  classical
  obtain ⟨Q, z, hQ, -, e⟩ := c149_points cfg hr env he s hs hd.le num
  have hL := limits_of hs hd hw
  let V : Matrix (Fin n) (Fin n) ℝ := Matrix.of fun j c => randCol Q z s.del (lowerOf s) (upperOf s) j c
  have hdet : V.det ≠ 0 := by
    intro h0
    obtain ⟨b, hb, hVb⟩ := Matrix.exists_mulVec_eq_zero_iff.2 h0
    refine hb (c149_independent z hL hQ b fun j hj => ?_)
    have := congrFun hVb ⟨j, hj⟩
    refine (Finset.sum_congr rfl fun c _ => mul_comm _ _).trans this
  have hind : LinearIndependent ℝ V.row := Matrix.linearIndependent_rows_of_det_ne_zero hdet
  have hne : ∀ j : Fin n, V.row j ≠ 0 := fun j => hind.ne_zero j
  -- every direction is a non-zero multiple of one of the first
  have hmul : ∀ k < 2 * n, ∃ (j : Fin n) (t : ℝ), t ≠ 0 ∧ randCol Q z s.del (lowerOf s) (upperOf s) k = t • V.row j ∧
      (k = j ∧ t = 1 ∨ k = n + j ∧ t ≠ 1) := by
    intro k hk
    by_cases h1 : k < n
    · exact ⟨⟨k, h1⟩, 1, one_ne_zero, by rw [one_smul]; rfl, .inl ⟨rfl, rfl⟩⟩
    · obtain ⟨j, rfl⟩ := Nat.exists_eq_add_of_le (not_lt.1 h1)
      have hj : j < n := by omega
      obtain ⟨t, t0, t1, ht⟩ := randCol_second (Q := Q) z hL hj
      exact ⟨⟨j, hj⟩, t, t0, ht, .inr ⟨rfl, t1⟩⟩
  have hinj : ∀ k < 2 * n, ∀ l < 2 * n, randCol Q z s.del (lowerOf s) (upperOf s) k = randCol Q z s.del (lowerOf s) (upperOf s) l → k = l := by
    intro k hk l hl h
    obtain ⟨j, t, t0, ht, ct⟩ := hmul k hk
    obtain ⟨j', t', t0', ht', ct'⟩ := hmul l hl
    rw [ht, ht'] at h
    have hs : Finsupp.single j t = Finsupp.single j' t' := hind (by
      rw [Finsupp.linearCombination_single, Finsupp.linearCombination_single]
      exact h)
    rcases (Finsupp.single_eq_single_iff _ _ _ _).1 hs with ⟨hjj, htt⟩ | ⟨h0, -⟩
    swap
    · exact absurd h0 t0
    subst hjj
    subst htt
    rcases ct with ⟨a, b⟩ | ⟨a, b⟩ <;> rcases ct' with ⟨a', b'⟩ | ⟨a', b'⟩
    · omega
    · exact absurd b b'
    · exact absurd b' b
    · omega
  rw [e, List.nodup_cons]
  constructor
  · intro hm
    obtain ⟨k, hk, h⟩ := List.mem_map.1 hm
    rw [List.mem_range] at hk
    obtain ⟨j, t, t0, ht, -⟩ := hmul k (by omega)
    have : t • V.row j = 0 := by
      rw [← ht]
      funext c
      have := congrFun h c
      simp only [Pi.zero_apply]
      linarith
    rcases smul_eq_zero.1 this with h | h
    · exact t0 h
    · exact hne j h
  · refine List.Nodup.map_on ?_ List.nodup_range
    intro k hk l hl h
    rw [List.mem_range] at hk hl
    refine hinj k (by omega) l (by omega) ?_
    funext c
    have := congrFun h c
    linarith

/-- The draw with the signs changed has the length of the draw. -/
theorem further_norm (lower upper : Pt n) {z : Pt n} (hz : z ≠ 0) : ∑ c, further lower upper z c ^ 2 = 1 := by
  classical
  unfold further
  simp only
  set d : Pt n := fun c => if (lower c = 0 ∨ upper c = 0) ∧ z c * away lower c < 0 then z c * -1 else z c with hd
  have h2 : ∀ c, d c ^ 2 = z c ^ 2 := by
    intro c
    simp only [hd]
    split_ifs <;> ring
  have hpos : 0 < ∑ c, d c ^ 2 := by
    obtain ⟨c, hc⟩ := Function.ne_iff.1 hz
    refine Finset.sum_pos' (fun i _ => sq_nonneg _) ⟨c, Finset.mem_univ _, ?_⟩
    rw [h2]
    exact sq_pos_of_ne_zero hc
  have e : ∀ c, (d c / √(∑ i, d i ^ 2)) ^ 2 = d c ^ 2 * (∑ i, d i ^ 2)⁻¹ := fun c => by rw [div_pow, Real.sq_sqrt hpos.le, div_eq_mul_inv]
  refine (Finset.sum_congr rfl fun c _ => e c).trans ?_
  rw [← Finset.sum_mul, mul_inv_cancel₀ hpos.ne']

/-- Away from the active bounds. -/
theorem further_away (lower upper z : Pt n) (c : Fin n) (hc : lower c = 0 ∨ upper c = 0) : 0 ≤ away lower c * further lower upper z c := by
  classical
  unfold further
  simp only
  rw [← mul_div_assoc]
  refine div_nonneg ?_ (Real.sqrt_nonneg _)
  by_cases h : z c * away lower c < 0
  · rw [if_pos ⟨hc, h⟩]
    linarith
  · rw [if_neg fun h' => h h'.2]
    linarith

/-- **C149, further points.** Beyond the first `2 n`, for all draws: a direction is not zero, is no longer than the radius, and
does not lead out of a bound the incumbent is at. -/
theorem c149_further (Q : ℕ → ℕ → ℝ) (z : ℕ → Pt n) (hz : ∀ i, z i ≠ 0) {del : ℝ} {lower upper : Pt n} (h : Limits del lower upper)
    (j : ℕ) (hj : 2 * n ≤ j) :
    randCol Q z del lower upper j ≠ 0 ∧ ∑ c, randCol Q z del lower upper j c ^ 2 ≤ del ^ 2 ∧
    (∀ c, lower c = 0 → 0 ≤ randCol Q z del lower upper j c) ∧ ∀ c, upper c = 0 → randCol Q z del lower upper j c ≤ 0 := by
  have hlen := off_add_at lower upper
  have e : randCol Q z del lower upper j = scaled (further lower upper (z (j - 2 * n))) del lower upper := by
    unfold randCol
    simp only
    rw [if_neg (by omega), if_neg (by omega), if_neg (by omega), if_neg (by omega)]
  rw [e]
  set d := further lower upper (z (j - 2 * n)) with hd
  have h1 : ∑ c, d c ^ 2 = 1 := further_norm lower upper (hz _)
  have hl : ∀ c, lower c = 0 → 0 ≤ d c := by
    intro c hc
    have := further_away lower upper (z (j - 2 * n)) c (.inl hc)
    rw [away, if_pos hc, one_mul] at this
    exact this
  have hu : ∀ c, upper c = 0 → d c ≤ 0 := by
    intro c hc
    have hc' : lower c ≠ 0 := by have := h.width c; rw [hc] at this; exact this.ne
    have := further_away lower upper (z (j - 2 * n)) c (.inr hc)
    rw [away, if_neg hc', neg_one_mul] at this
    linarith
  have hs : 0 < getScale d del lower upper := by
    refine getScale_pos h.pos (fun c hc => ?_) fun c hc => ?_
    · exact lt_of_le_of_ne (h.below c) fun e => absurd (hl c e) (not_le.2 hc)
    · exact lt_of_le_of_ne (h.above c) fun e => absurd (hu c e.symm) (not_le.2 hc)
  have hsd := (c59_get_scale d lower upper del h.pos.le fun c => ⟨h.below c, h.above c⟩).2.1
  have hsum : ∑ c, scaled d del lower upper c ^ 2 = getScale d del lower upper ^ 2 := by
    simp only [scaled, mul_pow]
    rw [← Finset.mul_sum, h1, mul_one]
  refine ⟨?_, ?_, fun c hc => mul_nonneg hs.le (hl c hc), fun c hc => mul_nonpos_of_nonneg_of_nonpos hs.le (hu c hc)⟩
  · intro h0
    rw [h0] at hsum
    simp only [Pi.zero_apply, ne_eq, OfNat.ofNat_ne_zero, not_false_eq_true, zero_pow, Finset.sum_const_zero] at hsum
    have : 0 < getScale d del lower upper ^ 2 := by positivity
    linarith
  · rw [hsum]
    exact pow_le_pow_left₀ hs.le hsd 2

/-! ## A case -/

/-- Directions made from the identity and from draws of ones. -/
noncomputable def envRand : Env n where
  build := fun _ _ _ => none
  newPoint := fun _ _ _ => none
  randDirs := fun s _ i => randCol (fun r i => if r = i then 1 else 0) (fun _ _ => 1) s.del (lowerOf s) (upperOf s) (i - 1)
  argsort := fun l => List.range l.length

theorem orthogonal_one (k : ℕ) : Orthogonal k fun r i => if r = i then 1 else 0 := by
  intro i hi j hj
  rw [Finset.sum_eq_single i]
  · simp
  · intro r _ hr
    simp [hr]
  · intro h
    exact absurd (Finset.mem_range.2 hi) h

theorem envRand_ok [NeZero n] : RandDirs (envRand (n := n)) := by
  intro s num
  refine ⟨fun r i => if r = i then 1 else 0, fun _ _ => 1, orthogonal_one _, fun _ h => ?_, fun i => rfl⟩
  exact one_ne_zero (congrFun h 0)

/-- Two variables, the incumbent at the lower bound of the first. -/
noncomputable def stCorner : St 2 where
  S := []
  f := []
  evals := 0
  sOld := ![0, 1/2]
  fOld := 0
  del := 1/2
  rho := 1/2
  count := 0
  ratio := 0
  lo := fun _ => 0
  hi := fun _ => 1
  calls := []

theorem stCorner_within : Within stCorner stCorner.sOld := by
  intro c
  fin_cases c <;> norm_num [stCorner]

/-- Random directions in two variables. -/
noncomputable def cfgRand : Cfg 2 where
  bounds := some (fun _ => 0, fun _ => 1)
  scale := false
  delInit := some (1/2)
  rhoMin := 1/10^6
  eta1 := 1/10
  eta2 := 7/10
  gamDec := 1/2
  gamInc := 2
  gamIncBar := 5/2
  alpha1 := 1/10
  alpha2 := 1/2
  omegaS := 1/2
  maxEvals := 10000
  random := true
  itermax := 1
  eps1 := 2
  eps2 := 10
  basis := fun k _ => k

/-- An incumbent at a bound. -/
example : DeterminesLinear (generateSet cfgRand envRand stCorner 3) :=
  c149_linear cfgRand rfl envRand envRand_ok stCorner stCorner_within (by norm_num [stCorner]) (by norm_num [stCorner]) 3 le_rfl

example : (generateSet cfgRand envRand stCorner 5).Nodup :=
  c149_distinct cfgRand rfl envRand envRand_ok stCorner stCorner_within (by norm_num [stCorner]) (by norm_num [stCorner]) 5 le_rfl

example : ∑ c, randCol (fun r i => if r = i then 1 else 0) (fun _ _ => 1) (1/2) (lowerOf stCorner) (upperOf stCorner) 4 c ^ 2 ≤ (1/2) ^ 2 :=
  (c149_further _ _ (fun _ h => one_ne_zero (congrFun h 0))
    (limits_of (s := stCorner) stCorner_within (by norm_num [stCorner]) (by norm_num [stCorner])) 4 le_rfl).2.1

end EQ.Opt
