import Verif.Poly.PivotProps
import Mathlib.LinearAlgebra.Matrix.AbsoluteValue

/-!
# How good the points kept by QR pivoting are (C211)
-/

namespace EQ.Poly
open EQ.Param EQ.Basis EQ.Sampling EQ.Sampling.Spec EQ.Poly.Spec EQ.Stats

/-! ## Specification -/

/-- The volume of `n` points of a mesh, given by their positions: the absolute determinant of the weighted basis functions at these points. Its square is the
determinant of the information matrix of the points. -/
noncomputable def volume (B : Expansion) (pts : List (List ℝ)) (wts : List ℝ) (S : Fin B.elements.length → ℕ) : ℝ :=
  |(Matrix.of fun (a i : Fin B.elements.length) => √(wts.getD (S a) 0) * basisFun B.params (B.elements.getD i []) (pts.getD (S a) [])).det|

/-- Weights that differ by a factor of at most `ρ ^ 2`; `ρ = 1` for equal weights. -/
def WeightsWithin (wts : List ℝ) (ρ : ℝ) : Prop := ∀ v ∈ wts, ∀ w ∈ wts, v ≤ ρ ^ 2 * w

/-! ## Lemmas -/

/-- Entries of the triangular factor are bounded by the pivot of their row. -/
theorem pivot_bound {m n : ℕ} {R : Matrix (Fin n) (Fin m) ℝ} (hR : ∀ (i : Fin n) (j : Fin m), (j : ℕ) < i → R i j = 0)
    (hpiv : ∀ (i : Fin n) (s j : Fin m), (s : ℕ) = i → s ≤ j → ∑ l with i ≤ l, R l j ^ 2 ≤ R i s ^ 2) (i : Fin n) (s j : Fin m) (hs : (s : ℕ) = i) :
    |R i j| ≤ |R i s| := by
  rcases lt_or_ge (j : ℕ) i with h | h
  · rw [hR i j h, abs_zero]; positivity
  · have h1 : R i j ^ 2 ≤ ∑ l with i ≤ l, R l j ^ 2 :=
      Finset.single_le_sum (f := fun l => R l j ^ 2) (fun l _ => sq_nonneg _) (by simp)
    exact abs_le_abs_of_sq_le_sq (h1.trans (hpiv i s j hs (by rw [Fin.le_def]; omega)))
where
  abs_le_abs_of_sq_le_sq {a b : ℝ} (h : a ^ 2 ≤ b ^ 2) : |a| ≤ |b| := sq_le_sq.1 h

/-- What is small on the first `n` pivot rows is small on all rows. -/
theorem qr_growth {A : List (List ℝ)} {m n : ℕ} {p : List ℕ} (h : PivotedQR A m n p) (z : Fin n → ℝ) (ε : ℝ) (hε : 0 ≤ ε)
    (hz : ∀ j ∈ p.take n, |∑ i : Fin n, entry A j i * z i| ≤ ε) (j : ℕ) (hj : j < m) : |∑ i : Fin n, entry A j i * z i| ≤ (2 ^ n - 1) * ε := by
  obtain ⟨hp, Q, R, hQ, hf, hR, hpiv⟩ := h
  have hlen : p.length = m := by simpa using hp.length_eq
  set y : Fin n → ℝ := fun l => ∑ i, Q i l * z i with hy
  have hdot : ∀ j : Fin m, ∑ i : Fin n, entry A (p.getD j 0) i * z i = ∑ l, R l j * y l := by
    intro j
    simp only [hy, hf, Matrix.mul_apply, Finset.sum_mul, Finset.mul_sum]
    rw [Finset.sum_comm]
    exact Finset.sum_congr rfl fun l _ => Finset.sum_congr rfl fun i _ => by ring
  set G : ℕ → ℝ := fun l => if h : l < n ∧ l < m then |R ⟨l, h.1⟩ ⟨l, h.2⟩ * y ⟨l, h.1⟩| else 0 with hG
  have hG0 : ∀ l, 0 ≤ G l := by
    intro l
    simp only [hG]
    split_ifs <;> positivity
  have hle : ∀ (l : Fin n) (j : Fin m), |R l j * y l| ≤ if (l : ℕ) ≤ j then G l else 0 := by
    intro l j
    split_ifs with hlj
    · have hlm : (l : ℕ) < n ∧ (l : ℕ) < m := ⟨l.2, lt_of_le_of_lt hlj j.2⟩
      simp only [hG]
      rw [dif_pos hlm, abs_mul, abs_mul]
      exact mul_le_mul_of_nonneg_right (pivot_bound hR hpiv l ⟨l, hlm.2⟩ j rfl) (abs_nonneg _)
    · rw [hR l j (by omega)]
      simp
  have hbound : ∀ t, G t ≤ 2 ^ t * ε := by
    intro t
    induction t using Nat.strong_induction_on with
    | _ t ih =>
      by_cases ht : t < n ∧ t < m
      · have h1 : |∑ i : Fin n, entry A (p.getD t 0) i * z i| ≤ ε := by
          apply hz
          rw [getD_of_lt _ _ _ (by omega), List.mem_take_iff_getElem]
          exact ⟨t, by rw [lt_min_iff]; omega, rfl⟩
        rw [hdot ⟨t, ht.2⟩] at h1
        have h2 : ∑ l ∈ Finset.univ.erase (⟨t, ht.1⟩ : Fin n), R l ⟨t, ht.2⟩ * y l + R ⟨t, ht.1⟩ ⟨t, ht.2⟩ * y ⟨t, ht.1⟩ = ∑ l, R l ⟨t, ht.2⟩ * y l :=
          Finset.sum_erase_add _ _ (Finset.mem_univ _)
        have h3 : |∑ l ∈ Finset.univ.erase (⟨t, ht.1⟩ : Fin n), R l ⟨t, ht.2⟩ * y l| ≤ ∑ l ∈ Finset.range t, G l := by
          refine (Finset.abs_sum_le_sum_abs _ _).trans ?_
          have h4 : ∑ l ∈ Finset.univ.erase (⟨t, ht.1⟩ : Fin n), |R l ⟨t, ht.2⟩ * y l| ≤ ∑ l : Fin n, if (l : ℕ) < t then G l else 0 := by
            rw [← Finset.sum_erase_add _ _ (Finset.mem_univ (⟨t, ht.1⟩ : Fin n))]
            rw [if_neg (by simp), add_zero]
            refine Finset.sum_le_sum fun l hl => ?_
            have hne : (l : ℕ) ≠ t := fun e => (Finset.mem_erase.1 hl).1 (Fin.ext e)
            refine (hle l ⟨t, ht.2⟩).trans (le_of_eq ?_)
            by_cases hlt : (l : ℕ) < t
            · rw [if_pos hlt, if_pos (show (l : ℕ) ≤ t by omega)]
            · rw [if_neg hlt, if_neg (show ¬ (l : ℕ) ≤ t by omega)]
          refine h4.trans (le_of_eq ?_)
          rw [Fin.sum_univ_eq_sum_range (fun l => if l < t then G l else 0), ← Finset.sum_filter]
          congr 1
          ext l
          simp only [Finset.mem_filter, Finset.mem_range]
          omega
        have h5 : G t = |R ⟨t, ht.1⟩ ⟨t, ht.2⟩ * y ⟨t, ht.1⟩| := by simp only [hG]; rw [dif_pos ht]
        have h6 : ∑ l ∈ Finset.range t, G l ≤ ∑ l ∈ Finset.range t, 2 ^ l * ε := Finset.sum_le_sum fun l hl => ih l (Finset.mem_range.1 hl)
        have h7 : ∑ l ∈ Finset.range t, (2 : ℝ) ^ l * ε = (2 ^ t - 1) * ε := by
          rw [← Finset.sum_mul, geom_sum_eq (by norm_num)]
          ring
        rw [h5, show R ⟨t, ht.1⟩ ⟨t, ht.2⟩ * y ⟨t, ht.1⟩ = ∑ l, R l ⟨t, ht.2⟩ * y l - ∑ l ∈ Finset.univ.erase (⟨t, ht.1⟩ : Fin n), R l ⟨t, ht.2⟩ * y l by
          linarith]
        refine (abs_sub _ _).trans ?_
        linarith
      · simp only [hG]
        rw [dif_neg ht]
        positivity
  have hmem : j ∈ p := hp.mem_iff.2 (List.mem_range.2 hj)
  obtain ⟨t, ht, rfl⟩ := List.getElem_of_mem hmem
  have := hdot ⟨t, hlen ▸ ht⟩
  rw [show p.getD ((⟨t, hlen ▸ ht⟩ : Fin m) : ℕ) 0 = p[t] from getD_of_lt _ _ _ ht] at this
  rw [this]
  refine (Finset.abs_sum_le_sum_abs _ _).trans ?_
  have h1 : ∑ l : Fin n, |R l ⟨t, hlen ▸ ht⟩ * y l| ≤ ∑ l : Fin n, 2 ^ (l : ℕ) * ε := by
    refine Finset.sum_le_sum fun l _ => (hle l _).trans ?_
    split_ifs
    · exact hbound l
    · positivity
  refine h1.trans (le_of_eq ?_)
  rw [Fin.sum_univ_eq_sum_range (fun l => (2 : ℝ) ^ l * ε), ← Finset.sum_mul, geom_sum_eq (by norm_num)]
  ring

/-- No other choice of `n` rows has a much larger determinant. -/
theorem qr_det {A : List (List ℝ)} {m n : ℕ} {p : List ℕ} (h : PivotedQR A m n p) (hn : n ≤ m) (S : Fin n → ℕ) (hS : ∀ a, S a < m) :
    |(Matrix.of fun (a i : Fin n) => entry A (S a) i).det| ≤ n.factorial * |(Matrix.of fun (a i : Fin n) => entry A (p.getD a 0) i).det| := by
  obtain ⟨hp, Q, R, hQ, hf, hR, hpiv⟩ := h
  have hlen : p.length = m := by simpa using hp.length_eq
  have hex : ∀ a, ∃ j : Fin m, p.getD j 0 = S a := by
    intro a
    obtain ⟨t, ht, e⟩ := List.getElem_of_mem (hp.mem_iff.2 (List.mem_range.2 (hS a)))
    exact ⟨⟨t, hlen ▸ ht⟩, (getD_of_lt _ _ _ ht).trans e⟩
  choose σ hσ using hex
  have hdetQ : |Q.det| = 1 := by
    have := congrArg Matrix.det hQ
    rw [Matrix.det_mul, Matrix.det_transpose, Matrix.det_one] at this
    nlinarith [abs_mul_abs_self Q.det, abs_nonneg Q.det]
  have hfac : ∀ τ : Fin n → Fin m, |(Matrix.of fun (a i : Fin n) => entry A (p.getD (τ a) 0) i).det| = |(Matrix.of fun (i a : Fin n) => R i (τ a)).det| := by
    intro τ
    have : (Matrix.of fun (a i : Fin n) => entry A (p.getD (τ a) 0) i) = (Q * Matrix.of fun (i a : Fin n) => R i (τ a)).transpose := by
      ext a i
      simp only [Matrix.of_apply, Matrix.transpose_apply, hf, Matrix.mul_apply]
    rw [this, Matrix.det_transpose, Matrix.det_mul, abs_mul, hdetQ, one_mul]
  have e1 := hfac σ
  simp only [hσ] at e1
  have e2 := hfac (fun a => Fin.castLE hn a)
  rw [e1]
  refine le_of_le_of_eq ?_ (congrArg (fun t => (n.factorial : ℝ) * t) e2.symm)
  set D : Fin n → ℝ := fun i => R i (Fin.castLE hn i) with hD
  have hupper : (Matrix.of fun (i a : Fin n) => R i (Fin.castLE hn a)).det = ∏ i, D i := by
    rw [Matrix.det_of_isUpperTriangular]
    · rfl
    · intro i j hij
      exact hR i _ hij
  rw [hupper]
  set T : Matrix (Fin n) (Fin n) ℝ := Matrix.of fun i a => if D i = 0 then 0 else R i (σ a) / D i with hT
  have hRT : (Matrix.of fun (i a : Fin n) => R i (σ a)) = Matrix.diagonal D * T := by
    ext i a
    rw [Matrix.diagonal_mul]
    simp only [hT, Matrix.of_apply]
    split_ifs with h0
    · have := pivot_bound hR hpiv i (Fin.castLE hn i) (σ a) rfl
      rw [show R i (Fin.castLE hn i) = 0 from h0, abs_zero] at this
      rw [abs_nonpos_iff.1 this, mul_zero]
    · field_simp
  have hT1 : ∀ i a, (AbsoluteValue.abs : AbsoluteValue ℝ ℝ) (T i a) ≤ 1 := by
    intro i a
    show |T i a| ≤ 1
    simp only [hT, Matrix.of_apply]
    split_ifs with h0
    · simp
    · rw [abs_div, div_le_one (abs_pos.2 h0)]
      exact pivot_bound hR hpiv i (Fin.castLE hn i) (σ a) rfl
  have hdetT := Matrix.det_le hT1
  rw [hRT, Matrix.det_mul, Matrix.det_diagonal, abs_mul, mul_comm]
  refine mul_le_mul_of_nonneg_right ?_ (abs_nonneg _)
  simpa using hdetT


theorem weighted_entry (B : Expansion) (hB : Regular B) (hR : B.invR = none) {pts : List (List ℝ)} (hsz : ∀ x ∈ pts, x.length = B.dims) {wts : List ℝ}
    (hw : wts.length = pts.length) {M : List (List ℝ)} (hM : B.getPoly none pts = .ok M) (i : Fin B.elements.length) (j : ℕ) (hj : j < pts.length) :
    entry (designMatrix M wts) j i = √(wts.getD j 0) * basisFun B.params (B.elements.getD i []) (pts.getD j []) := by
  have h := weighted_row B hB hsz hw hM (Pi.single i 1) j hj
  rw [Finset.sum_eq_single i (by intro k _ hk; rw [Pi.single_eq_of_ne hk, mul_zero]) (by simp), Pi.single_eq_same, mul_one] at h
  rw [h, eff_none B hR, sum_expansion _ _ _ (by simp)]
  congr 1
  rw [Finset.sum_eq_single (i : ℕ)]
  · rw [getD_of_lt (List.ofFn _) _ _ (by simp), List.getElem_ofFn]
    simp
  · intro k hk hne
    have hk : k < B.elements.length := by simpa using hk
    rw [getD_of_lt (List.ofFn _) _ _ (by simpa using hk), List.getElem_ofFn, Pi.single_eq_of_ne (fun e => hne (congrArg Fin.val e)), zero_mul]
  · intro hi
    exact absurd (Finset.mem_range.2 (by simp)) hi

theorem rank_le {A : List (List ℝ)} {n : ℕ} {rows : List ℕ} (h : FullRank A n rows) : n ≤ rows.length := by
  let f : (Fin n → ℝ) →ₗ[ℝ] (Fin rows.length → ℝ) :=
    { toFun := fun z a => ∑ i : Fin n, entry A (rows.getD a 0) i * z i
      map_add' := by
        intro x y
        funext a
        simp [mul_add, Finset.sum_add_distrib]
      map_smul' := by
        intro r x
        funext a
        simp only [Pi.smul_apply, smul_eq_mul, RingHom.id_apply, Finset.mul_sum]
        exact Finset.sum_congr rfl fun i _ => by ring }
  have hinj : Function.Injective f := by
    rw [← LinearMap.ker_eq_bot, LinearMap.ker_eq_bot']
    intro z hz
    apply h
    intro j hj
    obtain ⟨t, ht, rfl⟩ := List.getElem_of_mem hj
    have := congrFun hz ⟨t, ht⟩
    simp only [f, LinearMap.coe_mk, AddHom.coe_mk, Pi.zero_apply] at this
    rwa [getD_of_lt _ _ _ ht] at this
  simpa using LinearMap.finrank_le_finrank_of_injective hinj

theorem rank_solve {A : List (List ℝ)} {n : ℕ} {rows : List ℕ} (h : FullRank A n rows) (hl : rows.length = n) (b : ℕ → ℝ) :
    ∃ z : Fin n → ℝ, ∀ j ∈ rows, ∑ i : Fin n, entry A j i * z i = b j := by
  let f : (Fin n → ℝ) →ₗ[ℝ] (Fin n → ℝ) :=
    { toFun := fun z a => ∑ i : Fin n, entry A (rows.getD a 0) i * z i
      map_add' := by
        intro x y
        funext a
        simp [mul_add, Finset.sum_add_distrib]
      map_smul' := by
        intro r x
        funext a
        simp only [Pi.smul_apply, smul_eq_mul, RingHom.id_apply, Finset.mul_sum]
        exact Finset.sum_congr rfl fun i _ => by ring }
  have hinj : Function.Injective f := by
    rw [← LinearMap.ker_eq_bot, LinearMap.ker_eq_bot']
    intro z hz
    apply h
    intro j hj
    obtain ⟨t, ht, rfl⟩ := List.getElem_of_mem hj
    have := congrFun hz ⟨t, hl ▸ ht⟩
    simp only [f, LinearMap.coe_mk, AddHom.coe_mk, Pi.zero_apply] at this
    rwa [getD_of_lt _ _ _ ht] at this
  obtain ⟨z, hz⟩ := LinearMap.injective_iff_surjective.1 hinj fun a => b (rows.getD a 0)
  refine ⟨z, fun j hj => ?_⟩
  obtain ⟨t, ht, rfl⟩ := List.getElem_of_mem hj
  have := congrFun hz ⟨t, hl ▸ ht⟩
  simp only [f, LinearMap.coe_mk, AddHom.coe_mk] at this
  rwa [getD_of_lt _ _ _ ht] at this

/-! ## Properties -/

/-- **C211 (determinant).** With `qr` and as many points kept as there are basis terms, no choice of that many points of the mesh has a volume of more than `n!`
times the volume of the points kept. -/
theorem c211_volume (B : Expansion) (hB : Regular B) (hR : B.invR = none) (pts : List (List ℝ)) (hsz : ∀ x ∈ pts, x.length = B.dims) (wts : List ℝ)
    (hw : wts.length = pts.length) (hn : B.elements.length ≤ pts.length) (M : List (List ℝ)) (hM : B.getPoly none pts = .ok M) (R : Routines)
    (hqr : PivotedQR (designMatrix M wts) pts.length B.elements.length (R.qrPivots (designMatrix M wts))) (s : List Char) (hs : lower s = "qr".toList) :
    ∃ z : List ℕ, meshKept R (some s) pts wts (designMatrix M wts) B.elements.length = .ok (subsample pts wts z) ∧ z.length = B.elements.length ∧ z.Nodup ∧
      ∀ S : Fin B.elements.length → ℕ, (∀ a, S a < pts.length) → volume B pts wts S ≤ B.elements.length.factorial * volume B pts wts fun a => z.getD a 0 := by
  have hperm := hqr.1
  have hlen : (R.qrPivots (designMatrix M wts)).length = pts.length := by simpa using hperm.length_eq
  obtain ⟨d1, d2, d3⟩ := c25_pivots_distinct _ _ _ hperm hn
  refine ⟨takePivots (R.qrPivots (designMatrix M wts)) B.elements.length, by unfold meshKept; rw [choose_of hs .qr rfl]; rfl, d1, d2, fun S hS => ?_⟩
  have hvol : ∀ T : Fin B.elements.length → ℕ, (∀ a, T a < pts.length) → volume B pts wts T =
      |(Matrix.of fun (a i : Fin B.elements.length) => entry (designMatrix M wts) (T a) i).det| := by
    intro T hT
    unfold volume
    congr 2
    ext a i
    exact (weighted_entry B hB hR hsz hw hM i (T a) (hT a)).symm
  have hz : ∀ a : Fin B.elements.length, (takePivots (R.qrPivots (designMatrix M wts)) B.elements.length).getD a 0 = (R.qrPivots (designMatrix M wts)).getD a 0 := by
    intro a
    have ha : (a : ℕ) < (takePivots (R.qrPivots (designMatrix M wts)) B.elements.length).length := by rw [d1]; exact a.2
    rw [getD_of_lt _ _ _ ha, getD_of_lt _ _ _ (by rw [hlen]; exact lt_of_lt_of_le a.2 hn)]
    exact List.getElem_take
  rw [hvol S hS, hvol _ (fun a => by
    have ha : (a : ℕ) < (takePivots (R.qrPivots (designMatrix M wts)) B.elements.length).length := by rw [d1]; exact a.2
    rw [getD_of_lt _ _ _ ha]
    exact d3 _ (List.getElem_mem _))]
  simp only [hz]
  exact qr_det hqr hn S hS

theorem growth_mesh (B : Expansion) {pts : List (List ℝ)} {wts : List ℝ}
    (hw : wts.length = pts.length) (hpos : ∀ w ∈ wts, 0 < w) {M : List (List ℝ)} {p : List ℕ}
    (hqr : PivotedQR (designMatrix M wts) pts.length B.elements.length p) (ρ : ℝ) (hρ0 : 0 ≤ ρ) (hρ : WeightsWithin wts ρ) (z : Fin B.elements.length → ℝ) (ε : ℝ)
    (hε : 0 ≤ ε) (h : ∀ j ∈ p.take B.elements.length, |∑ i : Fin B.elements.length, entry (designMatrix M wts) j i * z i| ≤ √(wts.getD j 0) * ε) (j : ℕ)
    (hj : j < pts.length) :
    |∑ i : Fin B.elements.length, entry (designMatrix M wts) j i * z i| ≤ √(wts.getD j 0) * ((2 ^ B.elements.length - 1) * (ρ * ε)) := by
  have hperm := hqr.1
  have hjw : j < wts.length := by omega
  have hpj : 0 < wts.getD j 0 := by rw [getD_of_lt _ _ _ hjw]; exact hpos _ (List.getElem_mem _)
  have hroot : ∀ i < wts.length, √(wts.getD i 0) ≤ ρ * √(wts.getD j 0) := by
    intro i hi
    rw [getD_of_lt _ _ _ hi, getD_of_lt _ _ _ hjw]
    have := hρ _ (List.getElem_mem hi) _ (List.getElem_mem hjw)
    calc √wts[i] ≤ √(ρ ^ 2 * wts[j]) := Real.sqrt_le_sqrt this
      _ = ρ * √wts[j] := by rw [Real.sqrt_mul (sq_nonneg _), Real.sqrt_sq hρ0]
  have := qr_growth hqr z (√(wts.getD j 0) * (ρ * ε)) (by positivity) (fun i hi => (h i hi).trans (by
    have hi' : i < wts.length := by rw [hw]; exact List.mem_range.1 (hperm.mem_iff.1 (List.mem_of_mem_take hi))
    nlinarith [mul_le_mul_of_nonneg_right (hroot i hi') hε])) j hj
  linarith

/-- **C211 (size).** With `qr` and at least as many points kept as there are basis terms: a polynomial of the index set that is at most `ε` at the points kept is
at most `(2^n - 1) ρ ε` at every point of the mesh, where the weights differ by a factor of at most `ρ ^ 2`. -/
theorem c211_growth (B : Expansion) (hB : Regular B) (pts : List (List ℝ)) (hsz : ∀ x ∈ pts, x.length = B.dims) (wts : List ℝ)
    (hw : wts.length = pts.length) (hpos : ∀ w ∈ wts, 0 < w) (M : List (List ℝ)) (hM : B.getPoly none pts = .ok M) (R : Routines)
    (hqr : PivotedQR (designMatrix M wts) pts.length B.elements.length (R.qrPivots (designMatrix M wts))) (s : List Char) (hs : lower s = "qr".toList)
    (k : ℕ) (hk : B.elements.length ≤ k) (ρ : ℝ) (hρ0 : 0 ≤ ρ) (hρ : WeightsWithin wts ρ) :
    ∃ p w, meshKept R (some s) pts wts (designMatrix M wts) k = .ok (p, w) ∧ ∀ c : List ℝ, c.length = B.elements.length → ∀ ε, 0 ≤ ε → ∀ yp ys,
      B.polyfit c p = .ok yp → B.polyfit c pts = .ok ys → (∀ y ∈ yp, |y| ≤ ε) → ∀ y ∈ ys, |y| ≤ (2 ^ B.elements.length - 1) * (ρ * ε) := by
  have hperm := hqr.1
  refine ⟨_, _, by unfold meshKept; rw [choose_of hs .qr rfl]; rfl, fun c hc ε hε yp ys hyp hys hle y hy => ?_⟩
  have hin : ∀ i ∈ (R.qrPivots (designMatrix M wts)).take k, i < pts.length := fun i hi => List.mem_range.1 (hperm.mem_iff.1 (List.mem_of_mem_take hi))
  rw [polyfit_eq B hB c hc pts hsz] at hys
  obtain rfl := Except.ok.inj hys
  obtain ⟨x, hx, rfl⟩ := List.mem_map.1 hy
  obtain ⟨j, hj, rfl⟩ := List.getElem_of_mem hx
  have hp : B.polyfit c ((takePivots (R.qrPivots (designMatrix M wts)) k).map fun i => pts.getD i []) = .ok yp := hyp
  rw [polyfit_eq B hB c hc _ (by
    intro x hx
    obtain ⟨i, hi, rfl⟩ := List.mem_map.1 hx
    rw [getD_of_lt _ _ _ (hin i hi)]
    exact hsz _ (List.getElem_mem _))] at hp
  obtain rfl := Except.ok.inj hp
  set z : Fin B.elements.length → ℝ := fun i => c.getD i 0 with hz
  have e : List.ofFn z = c := by
    apply List.ext_getElem (by simp [hc])
    intro i h1 h2
    simp only [List.getElem_ofFn, hz]
    rw [getD_of_lt _ _ _ h2]
  have hrow := weighted_row B hB hsz hw hM z
  rw [e] at hrow
  have hjw : j < wts.length := by omega
  have hpj : 0 < √(wts.getD j 0) := by rw [getD_of_lt _ _ _ hjw]; exact Real.sqrt_pos.2 (hpos _ (List.getElem_mem _))
  have := growth_mesh B hw hpos hqr ρ hρ0 hρ z ε hε (fun i hi => by
    have hi' : i ∈ (R.qrPivots (designMatrix M wts)).take k := List.take_subset_take_left _ hk hi
    rw [hrow i (hin i hi'), abs_mul, abs_of_nonneg (Real.sqrt_nonneg _)]
    refine mul_le_mul_of_nonneg_left (hle _ ?_) (Real.sqrt_nonneg _)
    exact List.mem_map_of_mem (List.mem_map_of_mem hi')) j hj
  rw [hrow j hj, abs_mul, abs_of_pos hpj, getD_of_lt pts _ _ hj] at this
  exact le_of_mul_le_mul_left this hpj


/-- **C211 (fit).** With `qr` and as many points kept as there are basis terms, `n`: if the mesh determines the polynomials of the index set, the least-squares fit
to a model passes through its values at the points kept, and if some polynomial of the index set is within `ε` of the model on the mesh, then the fit is within
`(1 + (2^n - 1) ρ) ε` of the model at every point of the mesh. -/
theorem c211_fit (B : Expansion) (hB : Regular B) (pts : List (List ℝ)) (hsz : ∀ x ∈ pts, x.length = B.dims) (wts : List ℝ)
    (hw : wts.length = pts.length) (hpos : ∀ w ∈ wts, 0 < w) (hdet : Determined B pts) (M : List (List ℝ)) (hM : B.getPoly none pts = .ok M) (R : Routines)
    (hqr : PivotedQR (designMatrix M wts) pts.length B.elements.length (R.qrPivots (designMatrix M wts))) (s : List Char) (hs : lower s = "qr".toList)
    (ρ : ℝ) (hρ0 : 0 ≤ ρ) (hρ : WeightsWithin wts ρ) :
    ∃ p w, meshKept R (some s) pts wts (designMatrix M wts) B.elements.length = .ok (p, w) ∧ p.length = B.elements.length ∧
      ∀ (f : List ℝ → ℝ) (c : List ℝ), LsqFit B p w (p.map f) c → B.polyfit c p = .ok (p.map f) ∧
        ∀ (ε : ℝ) (c₀ : List ℝ) (best fit : List ℝ), c₀.length = B.elements.length → B.polyfit c₀ pts = .ok best → B.polyfit c pts = .ok fit →
          (∀ j < pts.length, |best.getD j 0 - f (pts.getD j [])| ≤ ε) →
          ∀ j < pts.length, |fit.getD j 0 - f (pts.getD j [])| ≤ (1 + (2 ^ B.elements.length - 1) * ρ) * ε := by
  have hperm := hqr.1
  have hfull : FullRank (designMatrix M wts) B.elements.length (List.range pts.length) := by
    rw [← determined_rank B hB hsz hw hpos hM _ (by simp), all_rows]
    exact hdet
  have hn : B.elements.length ≤ pts.length := by simpa using rank_le hfull
  obtain ⟨d1, d2, d3⟩ := c25_pivots_distinct _ _ _ hperm hn
  have hrank := qr_rank hqr hfull B.elements.length le_rfl
  set rows := takePivots (R.qrPivots (designMatrix M wts)) B.elements.length with hrows
  have hne : rows ≠ [] := by
    intro h0
    rw [h0] at d1
    exact hB.ne (List.length_eq_zero_iff.1 d1.symm)
  obtain ⟨hdk, hrec⟩ := still B hB hsz hw hpos hM rows d3 hne hrank
  have hszp : ∀ x ∈ (subsample pts wts rows).1, x.length = B.dims := by
    intro x hx
    obtain ⟨i, hi, rfl⟩ := List.mem_map.1 (show x ∈ rows.map fun j => pts.getD j [] from hx)
    rw [getD_of_lt _ _ _ (d3 i hi)]
    exact hsz _ (List.getElem_mem _)
  refine ⟨(subsample pts wts rows).1, (subsample pts wts rows).2, by unfold meshKept; rw [choose_of hs .qr rfl]; rfl, by simp [subsample, d1], fun f c hc => ?_⟩
  have hwp : ∀ j < pts.length, 0 < √(wts.getD j 0) := by
    intro j hj
    have hjw : j < wts.length := by omega
    rw [getD_of_lt _ _ _ hjw]
    exact Real.sqrt_pos.2 (hpos _ (List.getElem_mem _))
  -- the interpolating polynomial
  obtain ⟨z, hz⟩ := rank_solve hrank d1 fun j => √(wts.getD j 0) * f (pts.getD j [])
  have hpoly : B.polyfit (List.ofFn z) (subsample pts wts rows).1 = .ok ((subsample pts wts rows).1.map f) := by
    rw [polyfit_eq B hB _ (by simp) _ hszp]
    congr 1
    apply List.map_congr_left
    intro x hx
    obtain ⟨j, hj, rfl⟩ := List.mem_map.1 (show x ∈ rows.map fun j => pts.getD j [] from hx)
    have := hz j hj
    rw [weighted_row B hB hsz hw hM z j (d3 j hj)] at this
    exact mul_left_cancel₀ (hwp j (d3 j hj)).ne' this
  obtain rfl := hrec (List.ofFn z) (by simp) _ hpoly c hc
  refine ⟨hpoly, fun ε c₀ best fit hc₀ hbest hfit hle j hj => ?_⟩
  have hε : 0 ≤ ε := (abs_nonneg _).trans (hle j hj)
  rw [polyfit_eq B hB c₀ hc₀ pts hsz] at hbest
  obtain rfl := Except.ok.inj hbest
  rw [polyfit_eq B hB _ (by simp) pts hsz] at hfit
  obtain rfl := Except.ok.inj hfit
  set z₀ : Fin B.elements.length → ℝ := fun i => c₀.getD i 0 with hz₀
  have e : List.ofFn z₀ = c₀ := by
    apply List.ext_getElem (by simp [hc₀])
    intro i h1 h2
    simp only [List.getElem_ofFn, hz₀]
    rw [getD_of_lt _ _ _ h2]
  have hrow₀ := weighted_row B hB hsz hw hM z₀
  rw [e] at hrow₀
  have hget : ∀ (g : List ℝ → ℝ) (i : ℕ), i < pts.length → (pts.map g).getD i 0 = g (pts.getD i []) := by
    intro g i hi
    rw [getD_of_lt _ _ _ (by simpa using hi), List.getElem_map, getD_of_lt _ _ _ hi]
  rw [hget _ j hj]
  have hdiff : ∀ i, ∑ l : Fin B.elements.length, entry (designMatrix M wts) i l * (z - z₀) l =
      ∑ l : Fin B.elements.length, entry (designMatrix M wts) i l * z l - ∑ l : Fin B.elements.length, entry (designMatrix M wts) i l * z₀ l := by
    intro i
    rw [← Finset.sum_sub_distrib]
    exact Finset.sum_congr rfl fun l _ => by rw [Pi.sub_apply]; ring
  have hg := growth_mesh B hw hpos hqr ρ hρ0 hρ (z - z₀) ε hε (fun i hi => by
    have hi' : i < pts.length := d3 i hi
    rw [hdiff, hz i hi, hrow₀ i hi', ← mul_sub, abs_mul, abs_of_pos (hwp i hi'), abs_sub_comm]
    have := hle i hi'
    rw [hget _ i hi'] at this
    exact mul_le_mul_of_nonneg_left this (hwp i hi').le) j hj
  rw [hdiff, weighted_row B hB hsz hw hM z j hj, hrow₀ j hj, ← mul_sub, abs_mul, abs_of_pos (hwp j hj)] at hg
  have hg := le_of_mul_le_mul_left hg (hwp j hj)
  have hj' := hle j hj
  rw [hget _ j hj] at hj'
  calc _ = |(expansion B.params B.elements (B.eff (List.ofFn z)) (pts.getD j []) - expansion B.params B.elements (B.eff c₀) (pts.getD j [])) +
        (expansion B.params B.elements (B.eff c₀) (pts.getD j []) - f (pts.getD j []))| := by congr 1; ring
    _ ≤ _ := abs_add_le _ _
    _ ≤ _ := by linarith

/-- The hypotheses of C211 are met by planes and four points with equal weights. -/
example : Regular planes ∧ planes.invR = none ∧ WeightsWithin [1 / 4, 1 / 4, 1 / 4, 1 / 4] 1 ∧
    ∃ (pts M : List (List ℝ)) (R : Routines), (∀ x ∈ pts, x.length = planes.dims) ∧ pts.length = 4 ∧ planes.elements.length ≤ pts.length ∧ Determined planes pts ∧
      planes.getPoly none pts = .ok M ∧ PivotedQR (designMatrix M [1 / 4, 1 / 4, 1 / 4, 1 / 4]) 4 3 (R.qrPivots (designMatrix M [1 / 4, 1 / 4, 1 / 4, 1 / 4])) := by
  obtain ⟨pts, M, R, h1, h2, h3, h4, h5, -⟩ := planes_case
  refine ⟨planes_regular, rfl, by simp [WeightsWithin], pts, M, R, h1, h2, ?_, h3, h4, h5⟩
  rw [h2]
  simp [planes]

end EQ.Poly
