import Verif.Poly.EquivFit
import Verif.Sampling.ChoiceProps
import Verif.Sampling.SparseWitness
import Mathlib.LinearAlgebra.Matrix.NonsingularInverse

/-!
# The points that subsampling keeps (C210)
-/

namespace EQ.Poly
open EQ.Param EQ.Basis EQ.Sampling EQ.Sampling.Spec EQ.Poly.Spec EQ.Stats

/-! ## Contracts of the factorisations -/

/-- The entry in row `j` and column `i`. -/
def entry (A : List (List ℝ)) (j i : ℕ) : ℝ := (A.getD j []).getD i 0

/-- The contract of `qr(A.T, pivoting=True)` (`subsampling.py:38`, `subsampling.py:48`) for `m` rows and `n` columns of `A`: the columns of the transpose, in
the order of the pivots, are `Q R` with an orthogonal `Q` and an upper triangular `R`, and at every step the column with the longest remainder is taken. -/
def PivotedQR (A : List (List ℝ)) (m n : ℕ) (p : List ℕ) : Prop :=
  p.Perm (List.range m) ∧ ∃ (Q : Matrix (Fin n) (Fin n) ℝ) (R : Matrix (Fin n) (Fin m) ℝ), Q.transpose * Q = 1 ∧
    (∀ (i : Fin n) (j : Fin m), entry A (p.getD j 0) i = (Q * R) i j) ∧ (∀ (i : Fin n) (j : Fin m), (j : ℕ) < i → R i j = 0) ∧
    ∀ (i : Fin n) (s j : Fin m), (s : ℕ) = i → s ≤ j → ∑ l with i ≤ l, R l j ^ 2 ≤ R i s ^ 2

/-- The contract of `lu(A)` (`subsampling.py:56`) for `n ≤ m`: `A = P L U` with the permutation `π` of `P`, partial pivoting. -/
def PivotedLU (A : List (List ℝ)) {m : ℕ} (n : ℕ) (π : Equiv.Perm (Fin m)) : Prop :=
  ∃ (L : Matrix (Fin m) (Fin n) ℝ) (U : Matrix (Fin n) (Fin n) ℝ), (∀ (j : Fin m) (i : Fin n), entry A j i = (L * U) (π j) i) ∧
    (∀ (j : Fin m) (i : Fin n), (j : ℕ) < i → L j i = 0) ∧ (∀ (j : Fin m) (i : Fin n), (j : ℕ) = i → L j i = 1) ∧ (∀ j i, |L j i| ≤ 1) ∧
    ∀ i j : Fin n, j < i → U i j = 0

/-- The contract of `_, _, V = svd(A.T)` (`subsampling.py:47`): `A.T = U S V` with orthogonal `U` and `V` and singular values that do not increase. -/
def Svd (A : List (List ℝ)) (m n : ℕ) (V : Matrix (Fin m) (Fin m) ℝ) : Prop :=
  V * V.transpose = 1 ∧ ∃ (U : Matrix (Fin n) (Fin n) ℝ) (s : Fin n → ℝ) (h : n ≤ m), U.transpose * U = 1 ∧ (∀ i, 0 ≤ s i) ∧ Antitone s ∧
    ∀ (j : Fin m) (i : Fin n), entry A j i = ∑ l, U i l * s l * V (Fin.castLE h l) j

/-- `V[:, 0:k]` (`subsampling.py:48`), row by row; its transpose is the matrix that is factorised. -/
def svdRows {m : ℕ} (V : Matrix (Fin m) (Fin m) ℝ) (k : ℕ) : List (List ℝ) := List.ofFn fun j => (List.ofFn fun i => V j i).take k

/-- The pivots that the routine returns for `svd` (`subsampling.py:46-49`) are those of the first `k` columns of the matrix `V` of the decomposition. -/
def SvdPivots (A : List (List ℝ)) (m n k : ℕ) (p : List ℕ) : Prop := ∃ V : Matrix (Fin m) (Fin m) ℝ, Svd A m n V ∧ PivotedQR (svdRows V k) m k p

/-! ## Lemmas -/

/-- Only zero is orthogonal to all rows. -/
def FullRank (A : List (List ℝ)) (n : ℕ) (rows : List ℕ) : Prop := ∀ z : Fin n → ℝ, (∀ j ∈ rows, ∑ i : Fin n, entry A j i * z i = 0) → z = 0

theorem qr_rank {A : List (List ℝ)} {m n : ℕ} {p : List ℕ} (h : PivotedQR A m n p) (hA : FullRank A n (List.range m)) (k : ℕ) (hk : n ≤ k) :
    FullRank A n (p.take k) := by
  obtain ⟨hp, Q, R, hQ, hf, hR, hpiv⟩ := h
  have hlen : p.length = m := by simpa using hp.length_eq
  have hdot : ∀ (z : Fin n → ℝ) (j : Fin m), ∑ i : Fin n, entry A (p.getD j 0) i * z i = ∑ l, R l j * ∑ i, Q i l * z i := by
    intro z j
    simp only [hf, Matrix.mul_apply, Finset.sum_mul, Finset.mul_sum]
    rw [Finset.sum_comm]
    exact Finset.sum_congr rfl fun l _ => Finset.sum_congr rfl fun i _ => by ring
  have hrow : ∀ i : Fin n, ∃ j, R i j ≠ 0 := by
    intro i
    by_contra hno
    push Not at hno
    have h0 : (fun k => Q k i) = 0 := by
      apply hA
      intro r hr
      have hr' : r ∈ p := hp.mem_iff.2 hr
      obtain ⟨j, hj, rfl⟩ := List.getElem_of_mem hr'
      have := hdot (fun k => Q k i) ⟨j, hlen ▸ hj⟩
      rw [show p.getD ((⟨j, hlen ▸ hj⟩ : Fin m) : ℕ) 0 = p[j] from getD_of_lt _ _ _ hj] at this
      rw [this]
      refine Finset.sum_eq_zero fun l _ => ?_
      have e : ∑ k, Q k l * Q k i = (Q.transpose * Q) l i := by simp [Matrix.mul_apply]
      rw [e, hQ, Matrix.one_apply]
      split_ifs with hli
      · rw [hli, hno]; ring
      · ring
    have e : ∑ k, Q k i * Q k i = (Q.transpose * Q) i i := by simp [Matrix.mul_apply]
    rw [hQ, Matrix.one_apply_eq] at e
    have : ∀ k, Q k i = 0 := fun k => congrFun h0 k
    simp [this] at e
  have hdiag : ∀ i : Fin n, ∃ s : Fin m, (s : ℕ) = i ∧ R i s ≠ 0 := by
    intro i
    obtain ⟨j, hj⟩ := hrow i
    have hij : (i : ℕ) ≤ j := by
      by_contra hlt
      exact hj (hR i j (by omega))
    refine ⟨⟨i, lt_of_le_of_lt hij j.2⟩, rfl, fun h0 => hj ?_⟩
    have := hpiv i ⟨i, lt_of_le_of_lt hij j.2⟩ j rfl hij
    rw [h0] at this
    have h1 : R i j ^ 2 ≤ ∑ l with i ≤ l, R l j ^ 2 :=
      Finset.single_le_sum (f := fun l => R l j ^ 2) (fun l _ => sq_nonneg _) (by simp)
    have : R i j ^ 2 = 0 := le_antisymm (by linarith [this]) (sq_nonneg _)
    exact pow_eq_zero_iff (two_ne_zero) |>.1 this
  intro z hz
  have hy : ∀ t : ℕ, ∀ i : Fin n, (i : ℕ) = t → ∑ k, Q k i * z k = 0 := by
    intro t
    induction t using Nat.strong_induction_on with
    | _ t ih =>
      intro i hi
      obtain ⟨s, hs, hne⟩ := hdiag i
      have h1 : ∑ k : Fin n, entry A (p.getD s 0) k * z k = 0 := by
        apply hz
        have hsl : (s : ℕ) < p.length := by rw [hlen]; exact s.2
        rw [getD_of_lt _ _ _ hsl, List.mem_take_iff_getElem]
        exact ⟨s, by have := i.2; rw [lt_min_iff]; omega, rfl⟩
      rw [hdot, Finset.sum_eq_single i] at h1
      · exact (mul_eq_zero.1 h1).resolve_left hne
      · intro l _ hl
        rcases lt_or_gt_of_ne hl with hlt | hgt
        · rw [ih l (by have : (l : ℕ) < i := hlt; omega) l rfl, mul_zero]
        · rw [hR l s (by have : (i : ℕ) < l := hgt; omega), zero_mul]
      · intro h; exact absurd (Finset.mem_univ i) h
  have hQ' : Q * Q.transpose = 1 := mul_eq_one_comm.1 hQ
  have e : z = (Q * Q.transpose).mulVec z := by rw [hQ', Matrix.one_mulVec]
  rw [e, ← Matrix.mulVec_mulVec]
  have : Q.transpose.mulVec z = 0 := by
    funext i
    have := hy i i rfl
    simpa [Matrix.mulVec, dotProduct] using this
  rw [this, Matrix.mulVec_zero]

theorem lu_rank {A : List (List ℝ)} {m n : ℕ} {π : Equiv.Perm (Fin m)} (h : PivotedLU A n π) (hA : FullRank A n (List.range m)) (k : ℕ) (hk : n ≤ k) (hm : n ≤ m) :
    FullRank A n (topRows π k) := by
  obtain ⟨L, U, hf, hL, hL1, -, hU⟩ := h
  have hdot : ∀ (z : Fin n → ℝ) (j : Fin m), ∑ i : Fin n, entry A j i * z i = ∑ l, L (π j) l * U.mulVec z l := by
    intro z j
    simp only [hf, Matrix.mul_apply, Finset.sum_mul, Matrix.mulVec, dotProduct, Finset.mul_sum]
    rw [Finset.sum_comm]
    exact Finset.sum_congr rfl fun l _ => Finset.sum_congr rfl fun i _ => by ring
  intro z hz
  have hy : ∀ t : ℕ, ∀ i : Fin n, (i : ℕ) = t → U.mulVec z i = 0 := by
    intro t
    induction t using Nat.strong_induction_on with
    | _ t ih =>
      intro i hi
      set r : Fin m := Fin.castLE hm i with hr
      have h1 : ∑ k : Fin n, entry A (π.symm r : Fin m) k * z k = 0 := by
        apply hz
        rw [topRows, List.mem_take_iff_getElem]
        exact ⟨i, by have := i.2; rw [lt_min_iff, List.length_ofFn]; omega, by simp [hr]; rfl⟩
      rw [hdot, Equiv.apply_symm_apply, Finset.sum_eq_single i] at h1
      · rwa [hL1 r i rfl, one_mul] at h1
      · intro l _ hl
        rcases lt_or_gt_of_ne hl with hlt | hgt
        · rw [ih l (by have : (l : ℕ) < i := hlt; omega) l rfl, mul_zero]
        · rw [hL r l hgt, zero_mul]
      · intro h; exact absurd (Finset.mem_univ i) h
  apply hA
  intro j hj
  rw [hdot z ⟨j, List.mem_range.1 hj⟩]
  exact Finset.sum_eq_zero fun l _ => by rw [hy l l rfl, mul_zero]

/-- A row of the weighted matrix times coefficients is the root of the weight times the polynomial at the point. -/
theorem weighted_row (B : Expansion) (hB : Regular B) {pts : List (List ℝ)} (hsz : ∀ x ∈ pts, x.length = B.dims) {wts : List ℝ} (hw : wts.length = pts.length)
    {M : List (List ℝ)} (hM : B.getPoly none pts = .ok M) (z : Fin B.elements.length → ℝ) (j : ℕ) (hj : j < pts.length) :
    ∑ i : Fin B.elements.length, entry (designMatrix M wts) j i * z i = √(wts.getD j 0) * expansion B.params B.elements (B.eff (List.ofFn z)) (pts.getD j []) := by
  obtain ⟨M', hM', hMl, hdot⟩ := getPoly_dot B hB pts hsz
  rw [hM] at hM'
  obtain rfl := Except.ok.inj hM'
  have h := hdot (List.ofFn z) (by simp)
  unfold dotT at h
  rw [if_neg (by simp [hMl])] at h
  have h := Except.ok.inj h
  have h2 := congrArg (fun l => l.getD j 0) h
  rw [getD_of_lt _ _ _ (by simpa using hj), List.getElem_map, List.getElem_range, getD_of_lt _ _ _ (by simpa using hj), List.getElem_map] at h2
  rw [getD_of_lt _ _ _ hj, ← h2]
  have hjw : j < wts.length := by omega
  have hent : ∀ i : Fin B.elements.length, entry (designMatrix M wts) j i = √(wts.getD j 0) * (M.getD i []).getD j 0 := by
    intro i
    have hi : (i : ℕ) < M.length := by rw [hMl]; exact i.2
    unfold entry designMatrix
    rw [getD_of_lt _ _ j (by simpa using hjw), List.getElem_map, List.getElem_zipIdx, getD_of_lt _ _ _ (by simpa using hi), List.getElem_map,
      getD_of_lt _ _ _ hjw, getD_of_lt M _ _ hi]
    simp
  simp only [hent]
  have e : List.zipWith (fun (row : List ℝ) c => row.getD j 0 * c) M (List.ofFn z) = List.ofFn fun i => (M.getD i []).getD j 0 * z i := by
    apply List.ext_getElem
    · simp [hMl]
    · intro i h1 h2
      have hi : i < M.length := by simp at h1; omega
      rw [List.getElem_ofFn, List.getElem_zipWith, List.getElem_ofFn, getD_of_lt M _ _ hi]
  rw [e, List.sum_ofFn, Finset.mul_sum]
  exact Finset.sum_congr rfl fun i _ => by ring

theorem determined_rank (B : Expansion) (hB : Regular B) {pts : List (List ℝ)} (hsz : ∀ x ∈ pts, x.length = B.dims) {wts : List ℝ} (hw : wts.length = pts.length)
    (hpos : ∀ w ∈ wts, 0 < w) {M : List (List ℝ)} (hM : B.getPoly none pts = .ok M) (rows : List ℕ) (hr : ∀ j ∈ rows, j < pts.length) :
    Determined B (rows.map fun j => pts.getD j []) ↔ FullRank (designMatrix M wts) B.elements.length rows := by
  have hsz' : ∀ x ∈ rows.map (fun j => pts.getD j []), x.length = B.dims := by
    intro x hx
    obtain ⟨j, hj, rfl⟩ := List.mem_map.1 hx
    rw [getD_of_lt _ _ _ (hr j hj)]
    exact hsz _ (List.getElem_mem _)
  have hwp : ∀ j ∈ rows, √(wts.getD j 0) ≠ 0 := by
    intro j hj
    have hjw : j < wts.length := by rw [hw]; exact hr j hj
    rw [getD_of_lt _ _ _ hjw]
    exact (Real.sqrt_pos.2 (hpos _ (List.getElem_mem _))).ne'
  constructor
  · intro h z hz
    have h1 := h (List.ofFn z) (by simp) (by
      rw [polyfit_eq B hB _ (by simp) _ hsz', List.map_map, List.map_map]
      congr 1
      apply List.map_congr_left
      intro j hj
      have := hz j hj
      rw [weighted_row B hB hsz hw hM z j (hr j hj)] at this
      exact (mul_eq_zero.1 this).resolve_left (hwp j hj))
    funext i
    have := congrArg (fun l => l.getD i 0) h1
    rw [getD_of_lt _ _ _ (by simp), List.getElem_ofFn, getD_of_lt _ _ _ (by simp), List.getElem_replicate] at this
    exact this
  · intro h z hz h0
    set z' : Fin B.elements.length → ℝ := fun i => z.getD i 0 with hz'
    have e : List.ofFn z' = z := by
      apply List.ext_getElem (by simp [hz])
      intro i h1 h2
      simp only [List.getElem_ofFn, hz']
      rw [getD_of_lt _ _ _ h2]
    have h1 : z' = 0 := by
      apply h
      intro j hj
      rw [weighted_row B hB hsz hw hM z' j (hr j hj), e]
      rw [polyfit_eq B hB _ hz _ hsz', List.map_map, List.map_map] at h0
      have := List.map_inj_left.1 (Except.ok.inj h0) j hj
      rw [show expansion B.params B.elements (B.eff z) (pts.getD j []) = 0 from this, mul_zero]
    rw [← e, h1]
    exact List.ofFn_const _ _

theorem all_rows (pts : List (List ℝ)) : (List.range pts.length).map (fun j => pts.getD j []) = pts := by
  apply List.ext_getElem (by simp)
  intro i h1 h2
  rw [List.getElem_map, List.getElem_range, getD_of_lt _ _ _ h2]

/-- Least squares at points that determine the polynomial recovers it. -/
theorem recovers (B : Expansion) (hB : Regular B) {pts : List (List ℝ)} {wts : List ℝ} (hsz : ∀ x ∈ pts, x.length = B.dims) (hw : wts.length = pts.length)
    (hpos : ∀ w ∈ wts, 0 < w) (hdet : Determined B pts) (c : List ℝ) (hc : c.length = B.elements.length) (ys : List ℝ) (hys : B.polyfit c pts = .ok ys)
    (c' : List ℝ) (h : LsqFit B pts wts ys c') : c' = c := by
  rw [polyfit_eq B hB c hc pts hsz] at hys
  obtain rfl := Except.ok.inj hys
  obtain ⟨M, hM, hls⟩ := c31_least_squares B hB pts hsz wts (pts.map (expansion B.params B.elements (B.eff c))) hw hpos (by simp)
  obtain ⟨M', hM', h'⟩ := h
  rw [hM] at hM'
  obtain rfl := Except.ok.inj hM'
  obtain ⟨fit, hf, -, -, hu⟩ := hls c' h'
  have e : ∀ z : List ℝ, z.length = B.elements.length → ∀ x ∈ pts, fit z x = expansion B.params B.elements (B.eff z) x := by
    intro z hz x hx
    have := hf z hz pts hsz
    rw [polyfit_eq B hB z hz pts hsz] at this
    exact (List.map_inj_left.1 (Except.ok.inj this) x hx).symm
  refine hu c hc (List.map_congr_left fun x hx => (e c hc x hx).symm) fun z hz h0 => ?_
  have := hdet z hz (by
    rw [hf z hz pts hsz]
    congr 1
    exact List.map_congr_left h0)
  intro a ha
  rw [this] at ha
  exact (List.mem_replicate.1 ha).2

/-- What is asked of the points kept: they determine the polynomials of the index set, so that every least-squares fit to the values of such a polynomial
returns its coefficients. -/
def StillDetermines (B : Expansion) (p : List (List ℝ)) (w : List ℝ) : Prop :=
  Determined B p ∧ ∀ c : List ℝ, c.length = B.elements.length → ∀ ys, B.polyfit c p = .ok ys → ∀ c', LsqFit B p w ys c' → c' = c

theorem still (B : Expansion) (hB : Regular B) {pts : List (List ℝ)} (hsz : ∀ x ∈ pts, x.length = B.dims) {wts : List ℝ} (hw : wts.length = pts.length)
    (hpos : ∀ w ∈ wts, 0 < w) {M : List (List ℝ)} (hM : B.getPoly none pts = .ok M) (rows : List ℕ) (hr : ∀ j ∈ rows, j < pts.length) (hne : rows ≠ [])
    (h : FullRank (designMatrix M wts) B.elements.length rows) : StillDetermines B (subsample pts wts rows).1 (subsample pts wts rows).2 := by
  have hd : Determined B (subsample pts wts rows).1 := (determined_rank B hB hsz hw hpos hM rows hr).2 h
  obtain ⟨h1, h2, -, h3, -⟩ := c25_renormalised pts wts rows hne (fun i hi => by rw [hw]; exact hr i hi) hpos
  refine ⟨hd, fun c hc ys hys c' hc' => recovers B hB ?_ (by rw [h1, h2]) h3 hd c hc ys hys c' hc'⟩
  intro x hx
  obtain ⟨j, hj, rfl⟩ := List.mem_map.1 (show x ∈ rows.map fun j => pts.getD j [] from hx)
  rw [getD_of_lt _ _ _ (hr j hj)]
  exact hsz _ (List.getElem_mem _)

/-- Two uniform inputs and the polynomials of degree at most one. -/
noncomputable def planes : Expansion := ⟨[exists_uniform.choose, exists_uniform.choose], [[0, 0], [0, 1], [1, 0]], none⟩

theorem planes_regular : Regular planes := ⟨by simp [planes], by simp [planes, Expansion.dims], by simp [planes, Expansion.dims], by simp [planes, SquareOpt]⟩

theorem planes_fun (a b c x y : ℝ) : expansion planes.params planes.elements (planes.eff [a, b, c]) [x, y] = a + b * (√3 * y) + c * (√3 * x) := by
  have h := exists_uniform.choose_spec
  rw [eff_none _ rfl]
  have e1 : ((exists_uniform.choose).ab 1).2 = 1 / 3 := by rw [h.ab]; exact leg_b1
  have e0 : ((exists_uniform.choose).ab 0).1 = 0 := by rw [h.ab]; exact leg_a 0
  have e3 : (√(1 / 3 : ℝ))⁻¹ = √3 := by rw [one_div, Real.sqrt_inv, inv_inv]
  simp [planes, expansion, basisFun, univ_eq, opoly, e1, e0]
  ring

theorem planes_entry (q : Fin 4 → ℝ × ℝ) (M : List (List ℝ)) (hM : planes.getPoly none (List.ofFn fun j => [(q j).1, (q j).2]) = .ok M) (j : Fin 4) :
    entry (designMatrix M [1 / 4, 1 / 4, 1 / 4, 1 / 4]) j 0 = 1 / 2 ∧ entry (designMatrix M [1 / 4, 1 / 4, 1 / 4, 1 / 4]) j 1 = √3 * (q j).2 / 2 ∧
    entry (designMatrix M [1 / 4, 1 / 4, 1 / 4, 1 / 4]) j 2 = √3 * (q j).1 / 2 := by
  have hrow := fun z => weighted_row planes planes_regular (pts := List.ofFn fun j => [(q j).1, (q j).2]) (by
    intro x hx; obtain ⟨i, rfl⟩ := List.mem_ofFn.1 hx; rfl) (wts := [1 / 4, 1 / 4, 1 / 4, 1 / 4]) (by simp) hM z j (by simp)
  have hp : (List.ofFn fun j => [(q j).1, (q j).2]).getD (j : ℕ) [] = [(q j).1, (q j).2] := by
    rw [getD_of_lt _ _ _ (by simp), List.getElem_ofFn]
  have hw : √(([1 / 4, 1 / 4, 1 / 4, 1 / 4] : List ℝ).getD (j : ℕ) 0) = 1 / 2 := by
    have : ([1 / 4, 1 / 4, 1 / 4, 1 / 4] : List ℝ).getD (j : ℕ) 0 = (1 / 2) ^ 2 := by fin_cases j <;> norm_num
    rw [this]
    exact Real.sqrt_sq (by norm_num)
  rw [hp, hw] at hrow
  have key : ∀ a b c : ℝ, entry (designMatrix M [1 / 4, 1 / 4, 1 / 4, 1 / 4]) j 0 * a + entry (designMatrix M [1 / 4, 1 / 4, 1 / 4, 1 / 4]) j 1 * b +
      entry (designMatrix M [1 / 4, 1 / 4, 1 / 4, 1 / 4]) j 2 * c = 1 / 2 * (a + b * (√3 * (q j).2) + c * (√3 * (q j).1)) := by
    intro a b c
    have := hrow (![a, b, c] : Fin 3 → ℝ)
    have e : List.ofFn (n := planes.elements.length) (![a, b, c] : Fin 3 → ℝ) = [a, b, c] := by
      exact (show List.ofFn (![a, b, c] : Fin 3 → ℝ) = [a, b, c] by simp [List.ofFn_succ])
    rw [e] at this
    rw [← planes_fun, ← this]
    exact (Fin.sum_univ_three (fun i : Fin 3 => entry (designMatrix M [1 / 4, 1 / 4, 1 / 4, 1 / 4]) j i * (![a, b, c] : Fin 3 → ℝ) i)).symm
  have h0 := key 1 0 0
  have h1 := key 0 1 0
  have h2 := key 0 0 1
  refine ⟨by linarith, by linarith, by linarith⟩

/-! ## Properties -/

/-- **C210 (part).** If the mesh determines the polynomials of the index set and at least as many points are kept as there are basis terms, then the points
kept by `qr` determine them as well, and least squares on these points recovers every polynomial of the index set. The same for `lu` if the permutation of its
factorisation is its own inverse. Missing: `lu` with other permutations, and `svd`; see the violations. -/
theorem c210_determined_partial (B : Expansion) (hB : Regular B) (pts : List (List ℝ)) (hsz : ∀ x ∈ pts, x.length = B.dims) (wts : List ℝ)
    (hw : wts.length = pts.length) (hpos : ∀ w ∈ wts, 0 < w) (hdet : Determined B pts) (M : List (List ℝ)) (hM : B.getPoly none pts = .ok M) (R : Routines)
    (k : ℕ) (hk : B.elements.length ≤ k) :
    (∀ s, lower s = "qr".toList → PivotedQR (designMatrix M wts) pts.length B.elements.length (R.qrPivots (designMatrix M wts)) →
      ∃ p w, meshKept R (some s) pts wts (designMatrix M wts) k = .ok (p, w) ∧ StillDetermines B p w) ∧
    (∀ s, lower s = "lu".toList → ∀ π : Equiv.Perm (Fin pts.length), R.luMatrix (designMatrix M wts) = permMatrix π →
      PivotedLU (designMatrix M wts) B.elements.length π → π⁻¹ = π → B.elements.length ≤ pts.length →
      ∃ p w, meshKept R (some s) pts wts (designMatrix M wts) k = .ok (p, w) ∧ StillDetermines B p w) := by
  have hn : 0 < B.elements.length := List.length_pos_iff.2 hB.ne
  have hfull : FullRank (designMatrix M wts) B.elements.length (List.range pts.length) := by
    rw [← determined_rank B hB hsz hw hpos hM _ (by simp), all_rows]
    exact hdet
  have hpts : pts ≠ [] := by
    rintro rfl
    have h0 := hfull (fun _ => 1) (by simp)
    have := congrFun h0 ⟨0, hn⟩
    simp at this
  have hm : 0 < pts.length := List.length_pos_iff.2 hpts
  constructor
  · intro s hs hqr
    have hperm := hqr.1
    have hlen : (R.qrPivots (designMatrix M wts)).length = pts.length := by simpa using hperm.length_eq
    refine ⟨_, _, by unfold meshKept; rw [choose_of hs .qr rfl]; rfl, still B hB hsz hw hpos hM _ ?_ ?_ (qr_rank hqr hfull k hk)⟩
    · intro j hj
      exact List.mem_range.1 (hperm.mem_iff.1 (List.mem_of_mem_take hj))
    · intro h0
      have := congrArg List.length h0
      simp only [List.length_take, List.length_nil] at this
      omega
  · intro s hs π hπ hlu hinv hle
    have hsel : luPivots (R.luMatrix (designMatrix M wts)) k = topRows π k := by
      rw [hπ]
      exact (c26_lu_partial π k).2 hinv
    refine ⟨_, _, by unfold meshKept; rw [choose_of hs .lu rfl]; rfl, still B hB hsz hw hpos hM _ ?_ ?_ ?_⟩
    · rw [hsel]
      intro j hj
      obtain ⟨i, rfl⟩ := List.mem_ofFn.1 (List.mem_of_mem_take hj)
      exact (π.symm i).2
    · rw [hsel]
      intro h0
      have := congrArg List.length h0
      simp only [topRows, List.length_take, List.length_nil, List.length_ofFn] at this
      omega
    · rw [hsel]
      exact lu_rank hlu hfull k hk hle


/-- What a violation consists of: four different points with equal weights determine the planes, three of them are kept, as many as there are basis terms, and
some plane that is not zero vanishes at all of them, for a routine that keeps its contract. -/
def Loses (name : String) (meets : List (List ℝ) → Routines → Prop) : Prop :=
  ∃ (pts : List (List ℝ)) (M : List (List ℝ)) (R : Routines), pts.length = 4 ∧ pts.Nodup ∧ (∀ x ∈ pts, x.length = planes.dims ∧ ∀ t ∈ x, |t| ≤ 1) ∧
    Determined planes pts ∧ planes.getPoly none pts = .ok M ∧ meets (designMatrix M [1 / 4, 1 / 4, 1 / 4, 1 / 4]) R ∧
    ∃ p w, meshKept R (some name.toList) pts [1 / 4, 1 / 4, 1 / 4, 1 / 4] (designMatrix M [1 / 4, 1 / 4, 1 / 4, 1 / 4]) 3 = .ok (p, w) ∧ p.length = 3 ∧
      ¬ Determined planes p

theorem planes_polyfit (a b c : ℝ) (pts : List (ℝ × ℝ)) :
    planes.polyfit [a, b, c] (pts.map fun t => [t.1, t.2]) = .ok (pts.map fun t => a + b * (√3 * t.2) + c * (√3 * t.1)) := by
  rw [polyfit_eq planes planes_regular [a, b, c] rfl _ (by intro x hx; obtain ⟨t, -, rfl⟩ := List.mem_map.1 hx; rfl), List.map_map]
  congr 1
  exact List.map_congr_left fun t _ => planes_fun a b c t.1 t.2

theorem planes_getPoly (q : Fin 4 → ℝ × ℝ) : ∃ M, planes.getPoly none (List.ofFn fun j => [(q j).1, (q j).2]) = .ok M := by
  obtain ⟨M, hM, -⟩ := getPoly_dot planes planes_regular (List.ofFn fun j => [(q j).1, (q j).2]) (by
    intro x hx; obtain ⟨i, rfl⟩ := List.mem_ofFn.1 hx; rfl)
  exact ⟨M, hM⟩

theorem sqrt3 : √(3 : ℝ) ^ 2 = 3 := Real.sq_sqrt (by norm_num)

/-- **C210 fails** for `lu`: the points kept are those of the inverse permutation. -/
theorem c210_lu_violated : Loses "lu" fun A R => ∃ π : Equiv.Perm (Fin 4), PivotedLU A 3 π ∧ R.luMatrix A = permMatrix π := by
  set q : Fin 4 → ℝ × ℝ := ![(0, 0), (1 / 2, 0), (0, 1), (1, 0)] with hq
  obtain ⟨M, hM⟩ := planes_getPoly q
  have hent := planes_entry q M hM
  have e : (List.ofFn fun j => [(q j).1, (q j).2]) = [[0, 0], [1 / 2, 0], [0, 1], [1, 0]] := by simp [List.ofFn_succ, hq]
  set π : Equiv.Perm (Fin 4) := ⟨![0, 3, 1, 2], ![0, 2, 3, 1], by decide, by decide⟩ with hπ
  have hs := sqrt3
  have h3 : (0 : ℝ) < √3 := by positivity
  refine ⟨List.ofFn fun j => [(q j).1, (q j).2], M, ⟨fun _ => [], fun _ _ => [], fun _ => permMatrix π, fun _ _ => .ok []⟩, by simp, ?_, ?_, ?_, hM,
    ⟨π, ⟨!![1, 0, 0; 1, 1, 0; 1, 0, 1; 1, 0, 1 / 2], !![1 / 2, 0, 0; 0, √3 / 2, 0; 0, 0, √3 / 2], ?_, ?_, ?_, ?_, ?_⟩, rfl⟩, ?_⟩
  · rw [e]; norm_num
  · rw [e]; simp [planes, Expansion.dims]; norm_num
  · rw [e]
    intro z hz h
    obtain ⟨a, b, c, rfl⟩ := List.length_eq_three.1 (show z.length = 3 from hz)
    have := planes_polyfit a b c [(0, 0), (1 / 2, 0), (0, 1), (1, 0)]
    simp only [List.map_cons, List.map_nil] at this h
    rw [this] at h
    have h := Except.ok.inj h
    simp at h
    obtain ⟨rfl, h1, h2, -⟩ := h
    have hb : b = 0 := by simpa [h3.ne'] using h2
    have hc : c = 0 := by simpa [h3.ne'] using h1
    subst hb hc
    simp [planes]
  · intro j i
    obtain ⟨h0, h1, h2⟩ := hent j
    fin_cases i
    · rw [show (((⟨0, by norm_num⟩ : Fin 3) : ℕ)) = 0 from rfl, h0]
      fin_cases j <;> simp [Matrix.mul_apply, Fin.sum_univ_three, hπ]
    · rw [show (((⟨1, by norm_num⟩ : Fin 3) : ℕ)) = 1 from rfl, h1]
      fin_cases j <;> simp [Matrix.mul_apply, Fin.sum_univ_three, hπ, hq]
    · rw [show (((⟨2, by norm_num⟩ : Fin 3) : ℕ)) = 2 from rfl, h2]
      fin_cases j <;> (simp [Matrix.mul_apply, Fin.sum_univ_three, hπ, hq]; try ring)
  · intro j i hji
    fin_cases j <;> fin_cases i <;> simp at hji ⊢
  · intro j i hji
    fin_cases j <;> fin_cases i <;> simp at hji ⊢
  · intro j i
    fin_cases j <;> fin_cases i <;> norm_num
  · intro i j hji
    fin_cases j <;> fin_cases i <;> simp at hji ⊢
  · have hsel : luPivots (permMatrix π) 3 = [0, 3, 1] := by
      rw [luPivots_eq]
      simp [List.ofFn_succ, hπ]
    refine ⟨_, _, by unfold meshKept; rw [choose_of (n := "lu".toList) (by decide) .lu rfl]; rfl, ?_, ?_⟩
    · show ((luPivots (permMatrix π) 3).map _).length = 3
      rw [hsel]; rfl
    · show ¬ Determined planes ((luPivots (permMatrix π) 3).map _)
      rw [hsel, e]
      intro h
      have := h [0, 1, 0] rfl (by
        have := planes_polyfit 0 1 0 [(0, 0), (1, 0), (1 / 2, 0)]
        simp at this ⊢
        exact this)
      simp [planes] at this


/-- **C210 fails** for `svd`: the pivots number the singular vectors instead of the points, because the first columns of `V` are factorised instead of its first
rows. -/
theorem c210_svd_violated : Loses "svd" fun A R => SvdPivots A 4 3 3 (R.svdPivots A 3) := by
  set q : Fin 4 → ℝ × ℝ := ![(1 / 2, 0), (-1 / 6, 1), (-1 / 6, 0), (-1 / 6, -1)] with hq
  obtain ⟨M, hM⟩ := planes_getPoly q
  have hent := planes_entry q M hM
  have e : (List.ofFn fun j => [(q j).1, (q j).2]) = [[1 / 2, 0], [-1 / 6, 1], [-1 / 6, 0], [-1 / 6, -1]] := by simp [List.ofFn_succ, hq]
  have hb : √(3 : ℝ) ^ 2 = 3 := sqrt3
  have ha : √(2 : ℝ) ^ 2 = 2 := Real.sq_sqrt (by norm_num)
  have hc : √(11 : ℝ) ^ 2 = 11 := Real.sq_sqrt (by norm_num)
  have h3 : (0 : ℝ) < √3 := by positivity
  have h2 : (0 : ℝ) < √2 := by positivity
  generalize √(2 : ℝ) = a at ha h2
  generalize √(11 : ℝ) = c at hc
  generalize hbe : √(3 : ℝ) = b at hb h3 hent
  set V : Matrix (Fin 4) (Fin 4) ℝ := !![0, a / 2, 0, -(a / 2); 1 / 2, 1 / 2, 1 / 2, 1 / 2; b / 2, -(b / 6), -(b / 6), -(b / 6); 0, a * b / 6, -(a * b / 3), a * b / 6] with hV
  have hab : 1 ≤ a * b / 2 := by nlinarith [sq_nonneg (a * b - 2), mul_pos h2 h3, mul_self_nonneg (a * b + 2)]
  refine ⟨List.ofFn fun j => [(q j).1, (q j).2], M, ⟨fun _ => [], fun _ _ => [2, 3, 1, 0], fun _ => [], fun _ _ => .ok []⟩, by simp, ?_, ?_, ?_, hM,
    ⟨V, ⟨?_, !![0, 1, 0; 1, 0, 0; 0, 0, 1], ![a * b / 2, 1, 1 / 2], by norm_num, ?_, ?_, ?_, ?_⟩, (by decide : List.Perm [2, 3, 1, 0] (List.range 4)),
      !![3 * c / 11, -(a * b * c) / 66, a * b / 6; -c / 11, 4 * (a * b * c) / 66, 2 * (a * b) / 6; -c / 11, -7 * (a * b * c) / 66, a * b / 6],
      !![b * c / 6, a * b * c / 66, c / 22, -(a * c) / 22; 0, 3 * c / 11, -(a * b * c) / 33, 2 * b * c / 33; 0, 0, a * b / 3, b / 3], ?_, ?_, ?_, ?_⟩, ?_⟩
  · rw [e]; norm_num
  · rw [e]; simp [planes, Expansion.dims]; norm_num [abs_le]
  · rw [e]
    intro z hz h
    obtain ⟨x, y, w, rfl⟩ := List.length_eq_three.1 (show z.length = 3 from hz)
    have := planes_polyfit x y w [(1 / 2, 0), (-1 / 6, 1), (-1 / 6, 0), (-1 / 6, -1)]
    simp only [List.map_cons, List.map_nil] at this h
    rw [this, hbe] at h
    have h := Except.ok.inj h
    simp only [List.cons.injEq, and_true] at h
    obtain ⟨e1, e2, e3, -⟩ := h
    have hy : y = 0 := by
      have : y * b = 0 := by linarith
      exact (mul_eq_zero.1 this).resolve_right h3.ne'
    have hw : w = 0 := by
      have : w * b = 0 := by linarith
      exact (mul_eq_zero.1 this).resolve_right h3.ne'
    subst hy hw
    have hx : x = 0 := by linarith
    subst hx
    simp [planes]
  · ext i j
    fin_cases i <;> fin_cases j <;> simp [hV, Matrix.mul_apply, Fin.sum_univ_four] <;> nlinarith
  · ext i j
    fin_cases i <;> fin_cases j <;> simp [Matrix.mul_apply, Fin.sum_univ_three]
  · intro i
    fin_cases i <;> (simp; try positivity)
  · intro i j hij
    fin_cases i <;> fin_cases j <;> (simp at hij ⊢; try linarith)
  · intro j i
    obtain ⟨e0, e1, e2⟩ := hent j
    fin_cases i
    · rw [show (((⟨0, by norm_num⟩ : Fin 3) : ℕ)) = 0 from rfl, e0]
      fin_cases j <;> simp [Fin.sum_univ_three, hV, Fin.castLE]
    · rw [show (((⟨1, by norm_num⟩ : Fin 3) : ℕ)) = 1 from rfl, e1]
      fin_cases j <;> simp [Fin.sum_univ_three, hV, hq, Fin.castLE] <;> first | linear_combination (b / 4) * ha | linear_combination (-b / 4) * ha
    · rw [show (((⟨2, by norm_num⟩ : Fin 3) : ℕ)) = 2 from rfl, e2]
      fin_cases j <;> simp [Fin.sum_univ_three, hV, hq, Fin.castLE] <;> ring
  · ext i j
    fin_cases i <;> fin_cases j <;> simp [Matrix.mul_apply, Fin.sum_univ_three] <;> ring_nf <;> simp [ha, hb, hc] <;> norm_num
  · intro i j
    have hrow : entry (svdRows V 3) ([2, 3, 1, 0].getD (j : ℕ) 0) i = V (![2, 3, 1, 0] j) (Fin.castLE (by norm_num) i) := by
      fin_cases j <;> fin_cases i <;> simp [entry, svdRows, List.ofFn_succ, Fin.castLE]
    rw [hrow]
    fin_cases i <;> fin_cases j <;> simp [hV, Matrix.mul_apply, Fin.sum_univ_three, Fin.castLE] <;> ring_nf <;> simp [ha, hb, hc] <;> ring
  · intro i j hji
    fin_cases j <;> fin_cases i <;> simp at hji ⊢
  · intro i s j hsi hsj
    fin_cases i <;> fin_cases s <;> simp at hsi <;> fin_cases j <;> simp at hsj <;> rw [Finset.sum_filter] <;> simp [Fin.sum_univ_three] <;> ring_nf <;>
      simp [ha, hb, hc] <;> norm_num
  · have hsel : takePivots [2, 3, 1, 0] 3 = [2, 3, 1] := rfl
    refine ⟨_, _, by unfold meshKept; rw [choose_of (n := "svd".toList) (by decide) .svd rfl]; rfl, rfl, ?_⟩
    show ¬ Determined planes ((takePivots [2, 3, 1, 0] 3).map _)
    rw [hsel, e]
    intro h
    have := h [√3 / 6, 0, 1] rfl (by
      have := planes_polyfit (√3 / 6) 0 1 [(-1 / 6, 0), (-1 / 6, -1), (-1 / 6, 1)]
      simp at this ⊢
      rw [this]
      simp
      ring)
    simp [planes] at this


/-- Planes and four points: a pivoted QR factorisation and an LU factorisation without exchanges. -/
theorem planes_case : ∃ (pts M : List (List ℝ)) (R : Routines), (∀ x ∈ pts, x.length = planes.dims) ∧ pts.length = 4 ∧ Determined planes pts ∧ planes.getPoly none pts = .ok M ∧
    PivotedQR (designMatrix M [1 / 4, 1 / 4, 1 / 4, 1 / 4]) 4 3 (R.qrPivots (designMatrix M [1 / 4, 1 / 4, 1 / 4, 1 / 4])) ∧
    R.luMatrix (designMatrix M [1 / 4, 1 / 4, 1 / 4, 1 / 4]) = permMatrix (1 : Equiv.Perm (Fin 4)) ∧
    PivotedLU (designMatrix M [1 / 4, 1 / 4, 1 / 4, 1 / 4]) 3 (1 : Equiv.Perm (Fin 4)) := by
  set q : Fin 4 → ℝ × ℝ := ![(0, 0), (0, 1), (1, 0), (1 / 2, 0)] with hq
  obtain ⟨M, hM⟩ := planes_getPoly q
  have hent := planes_entry q M hM
  have e : (List.ofFn fun j => [(q j).1, (q j).2]) = [[0, 0], [0, 1], [1, 0], [1 / 2, 0]] := by simp [List.ofFn_succ, hq]
  have hb : √(3 : ℝ) ^ 2 = 3 := sqrt3
  have hd : √(5 : ℝ) ^ 2 = 5 := Real.sq_sqrt (by norm_num)
  have h3 : (0 : ℝ) < √3 := by positivity
  generalize √(5 : ℝ) = d at hd
  generalize hbe : √(3 : ℝ) = b at hb h3 hent
  refine ⟨List.ofFn fun j => [(q j).1, (q j).2], M, ⟨fun _ => [1, 2, 0, 3], fun _ _ => [], fun _ => permMatrix (1 : Equiv.Perm (Fin 4)), fun _ _ => .ok []⟩, ?_, by simp, ?_, hM,
    ⟨(by decide : List.Perm [1, 2, 0, 3] (List.range 4)), !![1 / 2, 3 * (b * d) / 30, 3 * (b * d) / 15; b / 2, -(b * (b * d)) / 30, -(b * (b * d)) / 15;
      0, 4 * b * (b * d) / 30, -(b * (b * d)) / 15], !![1, 1 / 4, 1 / 4, 1 / 4; 0, b * d / 4, b * d / 20, 3 * (b * d) / 20; 0, 0, b * d / 10, b * d / 20], ?_, ?_, ?_, ?_⟩, rfl,
    ⟨!![1, 0, 0; 1, 1, 0; 1, 0, 1; 1, 0, 1 / 2], !![1 / 2, 0, 0; 0, b / 2, 0; 0, 0, b / 2], ?_, ?_, ?_, ?_, ?_⟩⟩
  · rw [e]; simp [planes, Expansion.dims]
  · rw [e]
    intro z hz h
    obtain ⟨x, y, w, rfl⟩ := List.length_eq_three.1 (show z.length = 3 from hz)
    have := planes_polyfit x y w [(0, 0), (0, 1), (1, 0), (1 / 2, 0)]
    simp only [List.map_cons, List.map_nil] at this h
    rw [this, hbe] at h
    have h := Except.ok.inj h
    simp at h
    obtain ⟨rfl, h1, h2, -⟩ := h
    have hy : y = 0 := by simpa [h3.ne'] using h1
    have hw : w = 0 := by simpa [h3.ne'] using h2
    subst hy hw
    simp [planes]
  · ext i j
    fin_cases i <;> fin_cases j <;> simp [Matrix.mul_apply, Fin.sum_univ_three] <;> ring_nf <;> simp [hb, hd, show b ^ 4 = 9 by nlinarith, show b ^ 3 = 3 * b by nlinarith] <;> ring
  · intro i j
    obtain ⟨e0, e1, e2⟩ := hent ((![1, 2, 0, 3] : Fin 4 → Fin 4) j)
    have hj : [1, 2, 0, 3].getD (j : ℕ) 0 = ((![1, 2, 0, 3] : Fin 4 → Fin 4) j : ℕ) := by fin_cases j <;> rfl
    show entry _ ([1, 2, 0, 3].getD (j : ℕ) 0) i = _
    rw [hj]
    fin_cases i
    · rw [show (((⟨0, by norm_num⟩ : Fin 3) : ℕ)) = 0 from rfl, e0]
      fin_cases j <;> simp [Matrix.mul_apply, Fin.sum_univ_three] <;> ring_nf <;> simp [hb, hd] <;> ring
    · rw [show (((⟨1, by norm_num⟩ : Fin 3) : ℕ)) = 1 from rfl, e1]
      fin_cases j <;> simp [Matrix.mul_apply, Fin.sum_univ_three, hq] <;> ring_nf <;> simp [hd, show b ^ 3 = 3 * b by nlinarith] <;> ring
    · rw [show (((⟨2, by norm_num⟩ : Fin 3) : ℕ)) = 2 from rfl, e2]
      fin_cases j <;> simp [Matrix.mul_apply, Fin.sum_univ_three, hq] <;> ring_nf <;> simp [hd, show b ^ 3 = 3 * b by nlinarith] <;> ring
  · intro i j hji
    fin_cases j <;> fin_cases i <;> simp at hji ⊢
  · intro i s j hsi hsj
    fin_cases i <;> fin_cases s <;> simp at hsi <;> fin_cases j <;> simp at hsj <;> rw [Finset.sum_filter] <;> simp [Fin.sum_univ_three] <;> ring_nf <;>
      simp [hb, hd] <;> norm_num
  · intro j i
    obtain ⟨h0, h1, h2⟩ := hent j
    fin_cases i
    · rw [show (((⟨0, by norm_num⟩ : Fin 3) : ℕ)) = 0 from rfl, h0]
      fin_cases j <;> simp [Matrix.mul_apply, Fin.sum_univ_three]
    · rw [show (((⟨1, by norm_num⟩ : Fin 3) : ℕ)) = 1 from rfl, h1]
      fin_cases j <;> simp [Matrix.mul_apply, Fin.sum_univ_three, hq]
    · rw [show (((⟨2, by norm_num⟩ : Fin 3) : ℕ)) = 2 from rfl, h2]
      fin_cases j <;> (simp [Matrix.mul_apply, Fin.sum_univ_three, hq]; try ring)
  · intro j i hji
    fin_cases j <;> fin_cases i <;> simp at hji ⊢
  · intro j i hji
    fin_cases j <;> fin_cases i <;> simp at hji ⊢
  · intro j i
    fin_cases j <;> fin_cases i <;> norm_num
  · intro i j hji
    fin_cases j <;> fin_cases i <;> simp at hji ⊢

/-- The hypotheses of C210 are met by planes and four points. -/
example : ∃ (pts M : List (List ℝ)) (R : Routines), (∀ x ∈ pts, x.length = planes.dims) ∧ pts.length = 4 ∧ Determined planes pts ∧ planes.getPoly none pts = .ok M ∧
    PivotedQR (designMatrix M [1 / 4, 1 / 4, 1 / 4, 1 / 4]) 4 3 (R.qrPivots (designMatrix M [1 / 4, 1 / 4, 1 / 4, 1 / 4])) ∧
    R.luMatrix (designMatrix M [1 / 4, 1 / 4, 1 / 4, 1 / 4]) = permMatrix (1 : Equiv.Perm (Fin 4)) ∧
    PivotedLU (designMatrix M [1 / 4, 1 / 4, 1 / 4, 1 / 4]) 3 (1 : Equiv.Perm (Fin 4)) :=
  planes_case

end EQ.Poly
