import Verif.Sub.ZonoProps

/-!
# C66, C95: when all vertices have been found

A set of sign rows of directions that are orthogonal to no row of the matrix has at most `totalVertices`
members (Sauer-Shelah). Hence a run that ends without the warning has found them all, and the convex hull of the
points returned is the zonotope.
-/

namespace EQ.Sub
open EQ.Basis Matrix

variable {m n : ℕ}

lemma npSign_eq_pos {x : ℝ} : npSign x = .pos ↔ 0 < x := by
  unfold npSign
  constructor
  · intro h; by_contra hc; rw [if_neg hc] at h; split at h <;> cases h
  · intro h; rw [if_pos h]

lemma npSign_of_neg {x : ℝ} (h : x < 0) : npSign x = .neg := by
  unfold npSign; rw [if_neg (by linarith), if_pos h]

/-- Sign rows with a positive last entry: at most `∑_{i<n} C(m, i)` for `m + 1` rows. -/
lemma card_pos_rows (W : Matrix (Fin (m + 1)) (Fin n) ℝ) (Q : Finset (Fin (m + 1) → Sgn))
    (hQ : ∀ s ∈ Q, ∃ z, Generic W z ∧ s = signRow W z ∧ 0 < ∑ k, z k * W (Fin.last m) k) :
    Q.card ≤ ((List.range n).map fun i => m.choose i).sum := by
  classical
  set F : (Fin (m + 1) → Sgn) → Finset (Fin m) := fun s => Finset.univ.filter fun i => s i.castSucc = .pos with hF
  set A := Q.image F with hA
  have hcard : Q.card = A.card := by
    rw [hA, Finset.card_image_of_injOn]
    intro s hs t ht hst
    obtain ⟨z, hz, rfl, hzl⟩ := hQ s hs
    obtain ⟨w, hw, rfl, hwl⟩ := hQ t ht
    funext i
    refine Fin.lastCases ?_ (fun i => ?_) i
    · simp only [signRow]; rw [npSign_eq_pos.2 hzl, npSign_eq_pos.2 hwl]
    · have h1 : i ∈ F (signRow W z) ↔ i ∈ F (signRow W w) := by rw [hst]
      simp only [hF, Finset.mem_filter, Finset.mem_univ, true_and, signRow, npSign_eq_pos] at h1
      simp only [signRow]
      rcases lt_or_gt_of_ne (hz i.castSucc) with h | h
      · rcases lt_or_gt_of_ne (hw i.castSucc) with h' | h'
        · rw [npSign_of_neg h, npSign_of_neg h']
        · exact absurd (h1.2 h') (by linarith)
      · rw [npSign_eq_pos.2 h, npSign_eq_pos.2 (h1.1 h)]
  have hvc : ∀ S : Finset (Fin m), A.Shatters S → S.card < n := by
    intro S hS
    by_contra hc
    push Not at hc
    -- the rows of `S` and the last row are linearly dependent
    obtain ⟨g, hg0, hgne⟩ : ∃ g : Fin (m + 1) → ℝ, (∑ i ∈ insert (Fin.last m) (S.map Fin.castSuccEmb), g i • W i = 0) ∧
        ∃ i ∈ insert (Fin.last m) (S.map Fin.castSuccEmb), g i ≠ 0 := by
      have hfin : Module.finrank ℝ (Fin n → ℝ) < (insert (Fin.last m) (S.map Fin.castSuccEmb)).card := by
        rw [Module.finrank_fin_fun, Finset.card_insert_of_notMem, Finset.card_map]
        · omega
        · simp only [Finset.mem_map, Fin.coe_castSuccEmb, not_exists, not_and]
          intro a _ h; exact absurd h (Fin.castSucc_lt_last a).ne
      have hdep : ¬ LinearIndepOn ℝ (fun i k => W i k) (insert (Fin.last m) (S.map Fin.castSuccEmb) : Finset (Fin (m + 1))) := by
        intro h
        have h2 := LinearIndependent.fintype_card_le_finrank h
        simp only [Fintype.card_coe, SetLike.coe_sort_coe] at h2
        omega
      rw [linearIndepOn_finset_iff] at hdep
      push Not at hdep
      obtain ⟨g, h1, i, hi, h2⟩ := hdep
      exact ⟨g, h1, i, hi, h2⟩
    -- make the coefficient of the last row nonnegative
    obtain ⟨g, hg0, hgne, hgl⟩ : ∃ g : Fin (m + 1) → ℝ, (∑ i ∈ insert (Fin.last m) (S.map Fin.castSuccEmb), g i • W i = 0) ∧
        (∃ i ∈ insert (Fin.last m) (S.map Fin.castSuccEmb), g i ≠ 0) ∧ 0 ≤ g (Fin.last m) := by
      by_cases hl : 0 ≤ g (Fin.last m)
      · exact ⟨g, hg0, hgne, hl⟩
      · refine ⟨fun i => -g i, ?_, ?_, by linarith⟩
        · simp only [neg_smul, Finset.sum_neg_distrib, hg0, neg_zero]
        · obtain ⟨i, hi, h⟩ := hgne
          exact ⟨i, hi, neg_ne_zero.2 h⟩
    -- the pattern that makes all terms nonnegative
    obtain ⟨u, hu, hSu⟩ := hS (t := S.filter fun i => 0 < g i.castSucc) (Finset.filter_subset _ _)
    obtain ⟨s, hs, rfl⟩ := Finset.mem_image.1 hu
    obtain ⟨z, hz, rfl, hzl⟩ := hQ s hs
    have hterm : ∀ i ∈ insert (Fin.last m) (S.map Fin.castSuccEmb),
        0 ≤ g i * ∑ k, z k * W i k ∧ (g i ≠ 0 → 0 < g i * ∑ k, z k * W i k) := by
      intro i hi
      rw [Finset.mem_insert] at hi
      rcases hi with rfl | hi
      · refine ⟨mul_nonneg hgl hzl.le, fun h => mul_pos (lt_of_le_of_ne hgl (Ne.symm h)) hzl⟩
      · obtain ⟨j, hj, rfl⟩ := Finset.mem_map.1 hi
        simp only [Fin.coe_castSuccEmb]
        have hmem : 0 < g j.castSucc ↔ 0 < ∑ k, z k * W j.castSucc k := by
          have : j ∈ S ∩ F (signRow W z) ↔ j ∈ S.filter fun i => 0 < g i.castSucc := by rw [hSu]
          simp only [hF, Finset.mem_inter, Finset.mem_filter, Finset.mem_univ, true_and, hj, signRow, npSign_eq_pos] at this
          exact this.symm
        rcases lt_trichotomy (g j.castSucc) 0 with h | h | h
        · have h2 : ∑ k, z k * W j.castSucc k < 0 := by
            rcases lt_or_gt_of_ne (hz j.castSucc) with h' | h'
            · exact h'
            · exact absurd (hmem.2 h') (by linarith)
          have := mul_pos_of_neg_of_neg h h2
          exact ⟨this.le, fun _ => this⟩
        · rw [h]; simp
        · have := mul_pos h (hmem.1 h)
          exact ⟨this.le, fun _ => this⟩
    have hsum : ∑ i ∈ insert (Fin.last m) (S.map Fin.castSuccEmb), g i * ∑ k, z k * W i k = 0 := by
      have h1 : ∀ k, ∑ i ∈ insert (Fin.last m) (S.map Fin.castSuccEmb), g i * W i k = 0 := fun k => by
        have := congrFun hg0 k
        simpa [Finset.sum_apply] using this
      simp only [Finset.mul_sum]
      rw [Finset.sum_comm]
      refine Finset.sum_eq_zero fun k _ => ?_
      have : ∀ i, g i * (z k * W i k) = z k * (g i * W i k) := fun i => by ring
      simp only [this, ← Finset.mul_sum, h1, mul_zero]
    obtain ⟨i, hi, hgi⟩ := hgne
    have := Finset.sum_pos' (fun i hi => (hterm i hi).1) ⟨i, hi, (hterm i hi).2 hgi⟩
    linarith
  rw [hcard]
  refine A.card_le_card_shatterer.trans ?_
  have hsub : A.shatterer ⊆ (Finset.range n).biUnion fun k => Finset.powersetCard k Finset.univ := by
    intro S hS
    rw [Finset.mem_biUnion]
    exact ⟨S.card, Finset.mem_range.2 (hvc S (Finset.mem_shatterer.1 hS)), Finset.mem_powersetCard.2 ⟨Finset.subset_univ _, rfl⟩⟩
  refine (Finset.card_le_card hsub).trans (Finset.card_biUnion_le.trans ?_)
  simp only [Finset.card_powersetCard, Finset.card_univ, Fintype.card_fin]
  rw [← List.sum_toFinset _ List.nodup_range, List.toFinset_range]

/-- Sign rows of directions orthogonal to no row of the matrix: there are at most `totalVertices`. -/
lemma card_rows (hm : 0 < m) (W : Matrix (Fin m) (Fin n) ℝ) (L : List (Fin m → Sgn)) (hL : L.Nodup)
    (hG : ∀ s ∈ L, ∃ z, Generic W z ∧ s = signRow W z) : L.length ≤ totalVertices m n := by
  classical
  obtain ⟨m, rfl⟩ : ∃ k, m = k + 1 := ⟨m - 1, by omega⟩
  set P := L.toFinset.filter fun s => s (Fin.last m) = .pos with hP
  set N := L.toFinset.filter fun s => ¬ s (Fin.last m) = .pos with hN
  have hcard : L.length = P.card + N.card := by
    rw [hP, hN, Finset.card_filter_add_card_filter_not, List.toFinset_card_of_nodup hL]
  have h1 : P.card ≤ ((List.range n).map fun i => m.choose i).sum := by
    apply card_pos_rows W
    intro s hs
    rw [hP, Finset.mem_filter, List.mem_toFinset] at hs
    obtain ⟨z, hz, rfl⟩ := hG s hs.1
    exact ⟨z, hz, rfl, npSign_eq_pos.1 hs.2⟩
  have h2 : N.card ≤ ((List.range n).map fun i => m.choose i).sum := by
    have hinj : Function.Injective fun (s : Fin (m + 1) → Sgn) i => (s i).flip := by
      intro s t h
      funext i
      have := congrFun h i
      simp only at this
      rw [← flip_flip (s i), this, flip_flip]
    rw [← Finset.card_image_of_injective N hinj]
    apply card_pos_rows W
    intro s hs
    obtain ⟨t, ht, rfl⟩ := Finset.mem_image.1 hs
    rw [hN, Finset.mem_filter, List.mem_toFinset] at ht
    obtain ⟨z, hz, rfl⟩ := hG t ht.1
    refine ⟨-z, generic_neg hz, (signRow_neg hz).symm, ?_⟩
    have h3 : ¬ 0 < ∑ k, z k * W (Fin.last m) k := fun h => ht.2 (npSign_eq_pos.2 h)
    have h4 := hz (Fin.last m)
    simp only [Pi.neg_apply, neg_mul, Finset.sum_neg_distrib]
    rcases lt_or_gt_of_ne h4 with h | h
    · linarith
    · exact absurd h h3
  rw [hcard, totalVertices, Nat.add_sub_cancel]
  omega

/-- A direction near `z` that is orthogonal to no row and agrees with `z` in sign wherever `z` has one. -/
lemma exists_generic_near (W : Matrix (Fin m) (Fin n) ℝ) {w : Fin n → ℝ} (hw : Generic W w) (z : Fin n → ℝ) :
    ∃ z', Generic W z' ∧ ∀ i, Real.sign (∑ k, z' k * W i k) * (∑ k, z k * W i k) = |∑ k, z k * W i k| := by
  set a : Fin m → ℝ := fun i => ∑ k, z k * W i k with ha
  set b : Fin m → ℝ := fun i => ∑ k, w k * W i k with hb
  obtain ⟨t, ht, hlt⟩ : ∃ t : ℝ, 0 < t ∧ ∀ i, a i ≠ 0 → t * |b i| < |a i| := by
    have : ∀ i : Fin m, ∃ t : ℝ, 0 < t ∧ (a i ≠ 0 → ∀ s, 0 < s → s ≤ t → s * |b i| < |a i|) := by
      intro i
      by_cases h : a i = 0
      · exact ⟨1, one_pos, fun h' => absurd h h'⟩
      · have hbi : 0 < |b i| := abs_pos.2 (hw i)
        refine ⟨|a i| / (2 * |b i|), div_pos (abs_pos.2 h) (by linarith), fun _ s hs hst => ?_⟩
        have h1 : s * |b i| ≤ |a i| / (2 * |b i|) * |b i| := mul_le_mul_of_nonneg_right hst hbi.le
        have h2 : |a i| / (2 * |b i|) * |b i| = |a i| / 2 := by field_simp
        have := abs_pos.2 h
        linarith
    choose t ht hlt using this
    by_cases hm : Nonempty (Fin m)
    · refine ⟨Finset.univ.inf' Finset.univ_nonempty t, ?_, fun i hi => hlt i hi _ ?_ (Finset.inf'_le _ (Finset.mem_univ i))⟩
      · rw [Finset.lt_inf'_iff]; exact fun i _ => ht i
      · rw [Finset.lt_inf'_iff]; exact fun i _ => ht i
    · exact ⟨1, one_pos, fun i => absurd ⟨i⟩ hm⟩
  have hval : ∀ i, ∑ k, (z k + t * w k) * W i k = a i + t * b i := by
    intro i
    rw [ha, hb]
    simp only [add_mul, Finset.sum_add_distrib, Finset.mul_sum, mul_assoc]
  have hsgn : ∀ i, a i ≠ 0 → Real.sign (a i + t * b i) = Real.sign (a i) := by
    intro i hi
    have h1 := hlt i hi
    have h2 : |t * b i| < |a i| := by rw [abs_mul, abs_of_pos ht]; exact h1
    have h3 := abs_lt.1 h2
    rcases lt_or_gt_of_ne hi with h | h
    · rw [abs_of_neg h] at h3
      rw [Real.sign_of_neg h, Real.sign_of_neg (by linarith)]
    · rw [abs_of_pos h] at h3
      rw [Real.sign_of_pos h, Real.sign_of_pos (by linarith)]
  refine ⟨fun k => z k + t * w k, fun i => ?_, fun i => ?_⟩
  · rw [hval]
    by_cases hi : a i = 0
    · rw [hi, zero_add]; exact mul_ne_zero ht.ne' (hw i)
    · intro h0
      have := hsgn i hi
      rw [h0, Real.sign_zero] at this
      exact hi (Real.sign_eq_zero_iff.1 this.symm)
  · rw [hval]
    by_cases hi : a i = 0
    · have hai : ∑ k, z k * W i k = 0 := hi
      rw [hai]; simp
    · rw [hsgn i hi, mul_comm]; exact mul_sign _

/-- The convex hull of projections of box points lies in the zonotope. -/
lemma convex_zono (W : Matrix (Fin m) (Fin n) ℝ) : Convex ℝ (Zono W) := by
  rintro _ ⟨x, hx, rfl⟩ _ ⟨y, hy, rfl⟩ a b ha hb hab
  refine ⟨fun i => a * x i + b * y i, fun i => ?_, ?_⟩
  · have h1 := hx i; have h2 := hy i
    have h3 : a = 1 - b := by linarith
    subst h3
    constructor <;> nlinarith
  · funext k
    simp only [proj, Pi.add_apply, Pi.smul_apply, smul_eq_mul, add_mul, Finset.sum_add_distrib, Finset.mul_sum, mul_assoc]

lemma hull_subset (W : Matrix (Fin m) (Fin n) ℝ) (draw : ℕ → List (Fin n → ℝ)) (maxCount : ℕ) :
    convexHull ℝ {y | y ∈ zonotopeVertices W draw maxCount} ⊆ Zono W :=
  convexHull_min (fun y hy => ((c95_vertices W draw maxCount).1 y hy).1) (convex_zono W)

/-- If every direction has a maximiser among the points, their convex hull contains the zonotope. -/
lemma zono_subset_hull (W : Matrix (Fin m) (Fin n) ℝ) (Y : List (Fin n → ℝ))
    (h : ∀ z : Fin n → ℝ, ∃ y ∈ Y, ∀ y' ∈ Zono W, ∑ k, z k * y' k ≤ ∑ k, z k * y k) :
    Zono W ⊆ convexHull ℝ {y | y ∈ Y} := by
  intro y hy
  by_contra hc
  have hfin : ({y | y ∈ Y} : Set (Fin n → ℝ)).Finite := List.finite_toSet Y
  obtain ⟨f, u, hf, hu⟩ := geometric_hahn_banach_closed_point (convex_convexHull ℝ _) (hfin.isClosed_convexHull ℝ) hc
  have hrep : ∀ v : Fin n → ℝ, f v = ∑ k, f (Pi.single k 1) * v k := by
    intro v
    conv_lhs => rw [pi_eq_sum_univ' v]
    rw [map_sum]
    refine Finset.sum_congr rfl fun k _ => ?_
    rw [map_smul, smul_eq_mul, mul_comm]
  obtain ⟨y0, hy0, hmax⟩ := h fun k => f (Pi.single k 1)
  have h1 := hf y0 (subset_convexHull ℝ _ hy0)
  have h2 := hmax y hy
  rw [← hrep, ← hrep] at h2
  linarith

/-- **C95.** Completeness: if no drawn direction is orthogonal to a row of the matrix, then the number of points
returned never exceeds the number of vertices announced, and a run that ends without the warning (at least that many
found) has found enough: every direction has a maximiser among the points returned, and their convex hull is
exactly the zonotope. -/
theorem c95_complete (hm : 0 < m) (hn : 0 < n) (W : Matrix (Fin m) (Fin n) ℝ) (draw : ℕ → List (Fin n → ℝ)) (maxCount : ℕ)
    (hG : ∀ k, ∀ z ∈ draw k, Generic W z) :
    (zonotopeVertices W draw maxCount).Nodup ∧
    (zonotopeVertices W draw maxCount).length ≤ totalVertices m n ∧
    (totalVertices m n ≤ (zonotopeVertices W draw maxCount).length →
      (∀ z : Fin n → ℝ, ∃ y ∈ zonotopeVertices W draw maxCount, ∀ y' ∈ Zono W, ∑ k, z k * y' k ≤ ∑ k, z k * y k) ∧
      convexHull ℝ {y | y ∈ zonotopeVertices W draw maxCount} = Zono W) := by
  have hR := rowsOK_signs W draw maxCount
  have hpat : ∀ s ∈ zonotopeSigns W draw maxCount, ∃ z, Generic W z ∧ s = signRow W z := by
    intro s hs
    obtain ⟨k, z, hz, rfl | rfl⟩ := hR.origin s hs
    · exact ⟨z, hG k z hz, rfl⟩
    · exact ⟨-z, generic_neg (hG k z hz), (signRow_neg (hG k z hz)).symm⟩
  refine ⟨?_, ?_, fun htot => ?_⟩
  · -- distinct rows give distinct points
    refine List.Nodup.map_on ?_ hR.nodup
    intro s hs t ht hst
    obtain ⟨z, hz, rfl⟩ := hpat s hs
    obtain ⟨w, hw, rfl⟩ := hpat t ht
    have h1 := dot_proj_sign W z
    have h2 : proj W (fun i => (signRow W z i).val) = proj W fun i => (signRow W w i).val := hst
    rw [h2, dot_proj] at h1
    have hle : ∀ i ∈ Finset.univ, (signRow W w i).val * ∑ k, z k * W i k ≤ |∑ k, z k * W i k| := by
      intro i _
      refine (le_abs_self _).trans ?_
      rw [abs_mul]
      exact mul_le_of_le_one_left (abs_nonneg _) (abs_le.2 (val_box (signRow W w) i))
    have heq := (Finset.sum_eq_sum_iff_of_le hle).1 h1
    funext i
    have h3 := heq i (Finset.mem_univ i)
    simp only [signRow, npSign_val] at h3 ⊢
    rcases lt_or_gt_of_ne (hz i) with h | h <;> rcases lt_or_gt_of_ne (hw i) with h' | h'
    · rw [npSign_of_neg h, npSign_of_neg h']
    · rw [Real.sign_of_pos h', abs_of_neg h] at h3; linarith
    · rw [Real.sign_of_neg h', abs_of_pos h] at h3; linarith
    · rw [npSign_eq_pos.2 h, npSign_eq_pos.2 h']
  · rw [zonotopeVertices, List.length_map]
    exact card_rows hm W _ hR.nodup hpat
  · rw [zonotopeVertices, List.length_map] at htot
    -- every sign row has been found
    have hall : ∀ z, Generic W z → signRow W z ∈ zonotopeSigns W draw maxCount := by
      intro z hz
      by_contra hc
      have := card_rows hm W (signRow W z :: zonotopeSigns W draw maxCount) (List.nodup_cons.2 ⟨hc, hR.nodup⟩) (by
        intro s hs
        rcases List.mem_cons.1 hs with rfl | hs
        · exact ⟨z, hz, rfl⟩
        · exact hpat s hs)
      simp only [List.length_cons] at this
      omega
    have htpos : 0 < totalVertices m n := by
      unfold totalVertices
      obtain ⟨n, rfl⟩ : ∃ k, n = k + 1 := ⟨n - 1, by omega⟩
      rw [List.range_succ_eq_map]
      simp only [List.map_cons, List.sum_cons, Nat.choose_zero_right]
      omega
    obtain ⟨s, hs⟩ : ∃ s, s ∈ zonotopeSigns W draw maxCount := by
      rcases hX : zonotopeSigns W draw maxCount with _ | ⟨s, l⟩
      · rw [hX] at htot; simp only [List.length_nil] at htot; omega
      · exact ⟨s, List.mem_cons_self⟩
    obtain ⟨w, hw, -⟩ := hpat s hs
    have hmax : ∀ z : Fin n → ℝ, ∃ y ∈ zonotopeVertices W draw maxCount, ∀ y' ∈ Zono W, ∑ k, z k * y' k ≤ ∑ k, z k * y k := by
      intro z
      obtain ⟨z', hz', hs'⟩ := exists_generic_near W hw z
      refine ⟨_, List.mem_map.2 ⟨_, hall z' hz', rfl⟩, fun y' hy' => (dot_proj_le W z hy').trans (le_of_eq ?_)⟩
      have h1 := dot_proj W z fun i => (signRow W z' i).val
      rw [show ∑ k, z k * ∑ i, (signRow W z' i).val * W i k = ∑ k, z k * proj W (fun i => (signRow W z' i).val) k from rfl, h1]
      refine Finset.sum_congr rfl fun i _ => ?_
      rw [← hs' i, signRow, npSign_val]
    exact ⟨hmax, (hull_subset W draw maxCount).antisymm (zono_subset_hull W _ hmax)⟩

/-- The square: four directions' signs are found from two draws. -/
noncomputable def drawDemo : ℕ → List (Fin 2 → ℝ) := fun _ => [![1, 1], ![1, -1]]

lemma drawDemo_generic : ∀ k, ∀ z ∈ drawDemo k, Generic (1 : Matrix (Fin 2) (Fin 2) ℝ) z := by
  intro k z hz i
  simp only [drawDemo, List.mem_cons, List.not_mem_nil, or_false] at hz
  rcases hz with rfl | rfl <;> fin_cases i <;> simp [Matrix.one_apply]

lemma drawDemo_total (maxCount : ℕ) :
    totalVertices 2 2 ≤ (zonotopeVertices (1 : Matrix (Fin 2) (Fin 2) ℝ) drawDemo maxCount).length := by
  rw [zonotopeVertices, List.length_map]
  have hR := rowsOK_signs (1 : Matrix (Fin 2) (Fin 2) ℝ) drawDemo maxCount
  have h1 : signRow (1 : Matrix (Fin 2) (Fin 2) ℝ) ![1, 1] = ![.pos, .pos] := by
    funext i; fin_cases i <;> simp [signRow, npSign, Matrix.one_apply]
  have h2 : signRow (1 : Matrix (Fin 2) (Fin 2) ℝ) ![1, -1] = ![.pos, .neg] := by
    funext i; fin_cases i <;> simp [signRow, npSign, Matrix.one_apply]
  have h3 := hR.first ![1, 1] (by simp [drawDemo])
  have h4 := hR.first ![1, -1] (by simp [drawDemo])
  have h5 := hR.symm _ h3
  have h6 := hR.symm _ h4
  rw [h1] at h3 h5
  rw [h2] at h4 h6
  have e5 : (fun i => (![Sgn.pos, Sgn.pos] i).flip) = ![Sgn.neg, Sgn.neg] := by funext i; fin_cases i <;> rfl
  have e6 : (fun i => (![Sgn.pos, Sgn.neg] i).flip) = ![Sgn.neg, Sgn.pos] := by funext i; fin_cases i <;> rfl
  rw [e5] at h5
  rw [e6] at h6
  have hnd : [![Sgn.pos, Sgn.pos], ![Sgn.pos, Sgn.neg], ![Sgn.neg, Sgn.neg], ![Sgn.neg, Sgn.pos]].Nodup := by decide
  have hsub : [![Sgn.pos, Sgn.pos], ![Sgn.pos, Sgn.neg], ![Sgn.neg, Sgn.neg], ![Sgn.neg, Sgn.pos]] ⊆
      zonotopeSigns (1 : Matrix (Fin 2) (Fin 2) ℝ) drawDemo maxCount := by
    intro x hx
    simp only [List.mem_cons, List.not_mem_nil, or_false] at hx
    rcases hx with rfl | rfl | rfl | rfl <;> assumption
  exact (hnd.subperm hsub).length_le

/-- The hypotheses of `c95_complete` are met by the square. -/
example : convexHull ℝ {y | y ∈ zonotopeVertices (1 : Matrix (Fin 2) (Fin 2) ℝ) drawDemo 3} =
    Zono (1 : Matrix (Fin 2) (Fin 2) ℝ) :=
  ((c95_complete (by norm_num) (by norm_num) 1 drawDemo 3 drawDemo_generic).2.2 (drawDemo_total 3)).2

/-- **C95, distinctness needs the hypothesis**: with a zero row in the matrix (a variable without influence) `+0` and `-0`
are told apart, and a run that draws a direction and its opposite returns a point twice. -/
theorem c95_distinct_violated : ∃ (W : Matrix (Fin 3) (Fin 2) ℝ) (draw : ℕ → List (Fin 2 → ℝ)),
    Wᵀ * W = 1 ∧ ¬ (zonotopeVertices W draw 0).Nodup := by
  refine ⟨Matrix.of ![![1, 0], ![0, 1], ![0, 0]], fun _ => [![1, 1], ![-1, -1]], ?_, fun hnd => ?_⟩
  · ext i j; fin_cases i <;> fin_cases j <;> simp [Matrix.mul_apply, Fin.sum_univ_three]
  set W : Matrix (Fin 3) (Fin 2) ℝ := Matrix.of ![![1, 0], ![0, 1], ![0, 0]] with hW
  have hR := rowsOK_signs W (fun _ => [![1, 1], ![-1, -1]]) 0
  have h1 : signRow W ![1, 1] = ![.pos, .pos, .zero] := by
    funext i; fin_cases i <;> simp [signRow, npSign, Fin.sum_univ_two, hW]
  have h2 : signRow W ![-1, -1] = ![.neg, .neg, .zero] := by
    funext i; fin_cases i <;> simp [signRow, npSign, Fin.sum_univ_two, hW]
  have h3 := hR.first ![1, 1] (by simp)
  have h4 := hR.symm _ (hR.first ![-1, -1] (by simp))
  rw [h1] at h3
  rw [h2] at h4
  have e4 : (fun i => (![Sgn.neg, Sgn.neg, Sgn.zero] i).flip) = ![Sgn.pos, Sgn.pos, Sgn.negZero] := by
    funext i; fin_cases i <;> rfl
  rw [e4] at h4
  have := List.inj_on_of_nodup_map hnd h3 h4 (by
    funext k; simp [Fin.sum_univ_three, Sgn.val])
  exact absurd (congrFun this 2) (by decide)

/-- What `scipy.spatial.ConvexHull(Y).equations` promises: the half-spaces `normal·y + offset ≤ 0` intersect in the
convex hull of the points. -/
def HullEquations (Y : List (Fin n → ℝ)) (eqs : List ((Fin n → ℝ) × ℝ)) : Prop :=
  ∀ y : Fin n → ℝ, (∀ e ∈ eqs, ∑ k, e.1 k * y k + e.2 ≤ 0) ↔ y ∈ convexHull ℝ {y | y ∈ Y}

/-- Satisfying all rows of `A y ≤ b`. -/
def Feasible (rows : List ((Fin n → ℝ) × ℝ)) (y : Fin n → ℝ) : Prop := ∀ r ∈ rows, ∑ k, r.1 k * y k ≤ r.2

lemma feasible_iff {Y : List (Fin n → ℝ)} {eqs : List ((Fin n → ℝ) × ℝ)} (h : HullEquations Y eqs) (y : Fin n → ℝ) :
    Feasible (linearInequalities eqs) y ↔ y ∈ convexHull ℝ {y | y ∈ Y} := by
  rw [← h y]
  simp only [Feasible, linearInequalities, List.mem_map, forall_exists_index, and_imp, forall_apply_eq_imp_iff₂]
  refine forall₂_congr fun e _ => ?_
  constructor <;> intro h <;> linarith

/-- **C66** for more than one active direction. Whatever the random draws, every `y` that satisfies the inequalities is
the projection of a point of the box; and if the run found all vertices (no drawn direction orthogonal to a row, no
warning) the inequalities hold exactly for the projections of points of the box. -/
theorem c66_many (hm : 0 < m) (hn : 0 < n) (W : Matrix (Fin m) (Fin n) ℝ) (draw : ℕ → List (Fin n → ℝ)) (maxCount : ℕ)
    (eqs : List ((Fin n → ℝ) × ℝ)) (hE : HullEquations (zonotopeVertices W draw maxCount) eqs) (y : Fin n → ℝ) :
    (Feasible (linearInequalities eqs) y → y ∈ Zono W) ∧
    ((∀ k, ∀ z ∈ draw k, Generic W z) → totalVertices m n ≤ (zonotopeVertices W draw maxCount).length →
      (Feasible (linearInequalities eqs) y ↔ y ∈ Zono W)) := by
  rw [feasible_iff hE]
  refine ⟨fun h => hull_subset W draw maxCount h, fun hG htot => ?_⟩
  rw [((c95_complete hm hn W draw maxCount hG).2.2 htot).2]

/-- The half-spaces of the square meet the contract. -/
lemma hullDemo (maxCount : ℕ) : HullEquations (zonotopeVertices (1 : Matrix (Fin 2) (Fin 2) ℝ) drawDemo maxCount)
    [(![1, 0], -1), (![-1, 0], -1), (![0, 1], -1), (![0, -1], -1)] := by
  intro y
  rw [((c95_complete (by norm_num) (by norm_num) 1 drawDemo maxCount drawDemo_generic).2.2 (drawDemo_total maxCount)).2]
  have hp : ∀ x : Fin 2 → ℝ, proj 1 x = x := fun x => by
    funext k; fin_cases k <;> simp [proj, Matrix.one_apply]
  simp only [List.mem_cons, List.not_mem_nil, or_false, forall_eq_or_imp, forall_eq, Fin.sum_univ_two]
  simp only [cons_val_zero, cons_val_one]
  constructor
  · rintro ⟨h1, h2, h3, h4⟩
    exact ⟨y, fun i => by fin_cases i <;> constructor <;> simp <;> linarith, hp y⟩
  · rintro ⟨x, hx, rfl⟩
    have h0 := hx 0
    have h1 := hx 1
    rw [hp]
    refine ⟨?_, ?_, ?_, ?_⟩ <;> linarith

example (y : Fin 2 → ℝ) :
    Feasible (linearInequalities [(![1, 0], -1), (![-1, 0], -1), (![0, 1], -1), (![0, -1], -1)]) y ↔
      y ∈ Zono (1 : Matrix (Fin 2) (Fin 2) ℝ) :=
  (c66_many (by norm_num) (by norm_num) 1 drawDemo 0 _ (hullDemo 0) y).2 drawDemo_generic (drawDemo_total 0)

end EQ.Sub
