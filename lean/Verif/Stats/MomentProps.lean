import Verif.Stats.Props

/-!
# Properties of skewness and kurtosis (C40)
-/

namespace EQ.Stats
open EQ.Basis EQ.Param EQ.Poly EQ.Sampling EQ.Sampling.Spec EQ.Poly.Spec EQ.Stats.Spec
open EQ.ParamSpec

theorem getD_map' {α β : Type} (f : α → β) (l : List α) (e : β) (k : ℕ) (h : k < l.length) :
    (l.map f).getD k e = f l[k] := by
  rw [getD_of_lt _ _ _ (by simpa using h), List.getElem_map]

/-- Entries of the weighted evaluations. -/
theorem weightedEvals_getD (P : List (List ℝ)) (c : List ℝ) (hc : c.length = P.length) (i j : ℕ)
    (hj : ∀ row ∈ P, j < row.length) :
    ((weightedEvals P c).getD i []).getD j 0 = c.getD i 0 * entry P i j := by
  unfold entry
  by_cases hi : i < P.length
  · have h1 : i < (weightedEvals P c).length := by simp [weightedEvals, hi, hc]
    rw [getD_of_lt _ _ _ h1, getD_of_lt c 0 i (by omega), getD_of_lt P [] i hi]
    simp only [weightedEvals, List.getElem_zipWith]
    have h2 := hj P[i] (List.getElem_mem hi)
    rw [getD_of_lt _ _ _ (by simpa using h2), getD_of_lt _ _ _ h2]
    simp
  · have h1 : (weightedEvals P c).length ≤ i := by simp [weightedEvals]; omega
    rw [List.getD_eq_default _ _ h1, List.getD_eq_default c _ (by omega)]
    simp

theorem totalEvals_getD (P : List (List ℝ)) (c : List ℝ) (hc : c.length = P.length) (m : ℕ)
    (hm : ∀ row ∈ P, row.length = m) (j : ℕ) (hj : j < m) :
    (totalEvals (weightedEvals P c) m).getD j 0 =
      ∑ i ∈ Finset.range P.length, (if i = 0 then 0 else c.getD i 0 * entry P i j) := by
  have hw : ∀ i, ((weightedEvals P c).getD i []).getD j 0 = c.getD i 0 * entry P i j :=
    fun i => weightedEvals_getD P c hc i j fun row h => by rw [hm row h]; exact hj
  have hlen : (weightedEvals P c).length = P.length := by simp [weightedEvals, hc]
  unfold totalEvals
  rw [getD_map' _ _ _ _ (by simpa using hj)]
  simp only [List.getElem_range]
  cases hW : weightedEvals P c with
  | nil => rw [hW] at hlen; simp at hlen; simp [← hlen]
  | cons w W =>
    rw [← hlen, hW, List.length_cons, Finset.sum_range_succ', if_pos rfl, add_zero,
      List.drop_succ_cons, List.drop_zero, map_eq_range W [], range_map_sum]
    apply Finset.sum_congr rfl
    intro i _
    rw [if_neg (by omega), ← hw (i + 1), hW]
    simp

theorem dotW_map (m : ℕ) (g : ℕ → ℝ) (wts : List ℝ) (hw : wts.length = m) :
    dotW ((List.range m).map g) wts = ∑ j ∈ Finset.range m, wts.getD j 0 * g j := by
  unfold dotW
  rw [zipWith_sum _ _ _ 0 0 (by simp [hw]), List.length_map, List.length_range]
  apply Finset.sum_congr rfl
  intro j hj
  rw [Finset.mem_range] at hj
  rw [getD_map' _ _ _ _ (by simpa using hj)]
  simp [mul_comm]

/-- Skewness and kurtosis as sums over the points. -/
theorem moment_eq (P : List (List ℝ)) (c : List ℝ) (hc : c.length = P.length) (wts : List ℝ)
    (hm : ∀ row ∈ P, row.length = wts.length) (k : ℕ) :
    dotW ((totalEvals (weightedEvals P c) wts.length).map (· ^ k)) wts =
      ∑ j ∈ Finset.range wts.length, wts.getD j 0 *
        (∑ i ∈ Finset.range P.length, (if i = 0 then 0 else c.getD i 0 * entry P i j)) ^ k := by
  have h := dotW_map wts.length
    (fun j => (totalEvals (weightedEvals P c) wts.length).getD j 0 ^ k) wts rfl
  have h2 : (totalEvals (weightedEvals P c) wts.length).map (· ^ k) =
      (List.range wts.length).map
        fun j => (totalEvals (weightedEvals P c) wts.length).getD j 0 ^ k := by
    have hl : (totalEvals (weightedEvals P c) wts.length).length = wts.length := by
      simp [totalEvals]
    conv_lhs => rw [map_eq_range _ 0 (· ^ k), hl]
  rw [h2, h]
  apply Finset.sum_congr rfl
  intro j hj
  rw [Finset.mem_range] at hj
  rw [totalEvals_getD P c hc _ hm j hj]

/-- Central moments of the fit from the weighted evaluations. -/
theorem centralSum_eq (B : Expansion) (pts : List (List ℝ)) (wts : List ℝ)
    (hw : wts.length = pts.length) (P : List (List ℝ)) (hP : B.getPoly none pts = .ok P)
    (hsh : ∀ row ∈ P, row.length = pts.length)
    (hone : ∀ j < pts.length, entry P 0 j = 1) (c : List ℝ) (f : List ℝ → ℝ)
    (hf : B.polyfit c pts = .ok (pts.map f)) (m : ℝ) (hm : mean c = .ok m) (k : ℕ) :
    dotW ((totalEvals (weightedEvals P c) wts.length).map (· ^ k)) wts =
      centralSum pts wts f m k := by
  have hc : P.length = c.length := by
    unfold Expansion.polyfit at hf
    rw [hP] at hf
    simp only [dotT] at hf
    by_contra h
    rw [if_pos h] at hf
    simp at hf
  have hval : ∀ j < pts.length, f (pts.getD j []) - m =
      ∑ i ∈ Finset.range P.length, (if i = 0 then 0 else c.getD i 0 * entry P i j) := by
    intro j hj
    unfold Expansion.polyfit at hf
    rw [hP] at hf
    simp only [dotT] at hf
    rw [if_neg (by simpa using hc), Except.ok.injEq] at hf
    have := congrArg (fun l => l.getD j 0) hf
    rw [getD_map' _ _ _ _ (by simpa using hj), getD_map' _ _ _ _ hj, List.getElem_range,
      ← getD_of_lt pts [] j hj] at this
    rw [← this, zipWith_sum _ _ _ [] 0 hc]
    cases hc' : c with
    | nil => rw [hc'] at hm; simp [mean] at hm
    | cons a l =>
      rw [hc'] at hm
      simp only [mean, Except.ok.injEq] at hm
      rw [hc, hc', List.length_cons, Finset.sum_range_succ', Finset.sum_range_succ']
      have h1 := hone j hj
      unfold entry at h1
      rw [h1, ← hm]
      simp [entry, mul_comm]
  rw [moment_eq P c hc.symm wts (by rw [hw]; exact hsh) k, hw]
  unfold centralSum
  apply Finset.sum_congr rfl
  intro j hj
  rw [Finset.mem_range] at hj
  rw [hval j hj]

/-- C40. Whatever the quadrature: if the first row of the polynomial matrix is constant one (the
constant basis function), skewness and kurtosis are the third and fourth central moments of the
values of `get_polyfit` at the points, about the reported mean and scaled by the reported
variance. -/
theorem c40_central_moments (B : Expansion) (pts : List (List ℝ)) (wts : List ℝ)
    (hw : wts.length = pts.length) (P : List (List ℝ)) (hP : B.getPoly none pts = .ok P)
    (hsh : ∀ row ∈ P, row.length = pts.length)
    (hone : ∀ j < pts.length, entry P 0 j = 1) (c : List ℝ) (f : List ℝ → ℝ)
    (hf : B.polyfit c pts = .ok (pts.map f)) (m v : ℝ) (hm : mean c = .ok m)
    (_hv : variance c = .ok v) (_hv0 : 0 < v) :
    skewness wts (weightedEvals P c) v = centralSum pts wts f m 3 / v ^ (1.5 : ℝ) ∧
    kurtosis wts (weightedEvals P c) v = centralSum pts wts f m 4 / v ^ 2 := by
  have key := centralSum_eq B pts wts hw P hP hsh hone c f hf m hm
  unfold skewness kurtosis
  rw [key, key]
  exact ⟨rfl, rfl⟩

/-- C40. The polynomial matrix of an uncorrected expansion has a first row of ones if the index
set starts with the constant. -/
theorem c40_first_row (B : Expansion) (hB : Regular B) (hR : B.dims = 1 ∨ B.invR = none)
    (hz : B.elements.head? = some (List.replicate B.dims 0)) (pts : List (List ℝ))
    (hp : ∀ x ∈ pts, x.length = B.dims) :
    ∃ P, B.getPoly none pts = .ok P ∧ (∀ row ∈ P, row.length = pts.length) ∧
      ∀ j < pts.length, entry P 0 j = 1 := by
  refine ⟨_, getPoly_plain B hB hR pts hp, ?_, ?_⟩
  · intro row hrow
    obtain ⟨r, _, rfl⟩ := List.mem_map.1 hrow
    simp
  · intro j hj
    unfold entry
    rw [getD_map' _ _ _ _ (List.length_pos_iff.2 hB.ne), getD_map' _ _ _ _ hj,
      ← getD_of_lt B.elements [] 0 (List.length_pos_iff.2 hB.ne), getD_zero_of_head hz]
    exact basisFun_zero B.params _ (hp _ (List.getElem_mem hj))

theorem varSum_affine (c0 : ℝ) (c : List ℝ) (a t : ℝ) :
    varSum ((t * c0 + a) :: c.map (t * ·)) = t ^ 2 * varSum (c0 :: c) := by
  simp only [varSum, List.drop_succ_cons, List.drop_zero, List.map_map]
  rw [← List.sum_map_mul_left]
  simp [Function.comp_def, mul_pow]

/-- C40. Adding a constant to the model and scaling it by `t > 0` (that is, replacing the
coefficients `c` by `t c` and the first by `t c_0 + a`) changes neither skewness nor
kurtosis. -/
theorem c40_invariant (P : List (List ℝ)) (wts : List ℝ)
    (hm : ∀ row ∈ P, row.length = wts.length) (c0 : ℝ) (c : List ℝ)
    (hc : c.length + 1 = P.length) (v : ℝ) (hv : variance (c0 :: c) = .ok v) (hv0 : 0 < v)
    (a t : ℝ) (ht : 0 < t) :
    ∃ v', variance ((t * c0 + a) :: c.map (t * ·)) = .ok v' ∧
      skewness wts (weightedEvals P ((t * c0 + a) :: c.map (t * ·))) v' =
        skewness wts (weightedEvals P (c0 :: c)) v ∧
      kurtosis wts (weightedEvals P ((t * c0 + a) :: c.map (t * ·))) v' =
        kurtosis wts (weightedEvals P (c0 :: c)) v := by
  have h2 : 2 ≤ (c0 :: c).length := by
    by_contra h
    unfold variance at hv
    rw [if_pos (by omega)] at hv
    simp at hv
  have hv' : v = varSum (c0 :: c) := by
    rw [variance_ok _ h2] at hv; exact (Except.ok.inj hv).symm
  have key : ∀ k, dotW ((totalEvals (weightedEvals P ((t * c0 + a) :: c.map (t * ·)))
      wts.length).map (· ^ k)) wts = t ^ k *
      dotW ((totalEvals (weightedEvals P (c0 :: c)) wts.length).map (· ^ k)) wts := by
    intro k
    rw [moment_eq P _ (by simpa using hc) wts hm, moment_eq P _ (by simpa using hc) wts hm,
      Finset.mul_sum]
    apply Finset.sum_congr rfl
    intro j _
    have : ∑ i ∈ Finset.range P.length, (if i = 0 then 0 else
        ((t * c0 + a) :: c.map (t * ·)).getD i 0 * entry P i j) =
        t * ∑ i ∈ Finset.range P.length, (if i = 0 then 0 else (c0 :: c).getD i 0 * entry P i j) := by
      rw [Finset.mul_sum]
      apply Finset.sum_congr rfl
      intro i hi
      rw [Finset.mem_range] at hi
      by_cases h0 : i = 0
      · simp [h0]
      · obtain ⟨i, rfl⟩ := Nat.exists_eq_succ_of_ne_zero h0
        rw [if_neg h0, if_neg h0, List.getD_cons_succ, List.getD_cons_succ,
          getD_map' _ _ _ _ (by omega), getD_of_lt _ _ _ (by omega)]
        ring
    rw [this, mul_pow]
    ring
  refine ⟨t ^ 2 * v, ?_, ?_, ?_⟩
  · rw [variance_ok _ (by simpa using h2), varSum_affine, hv']
  · unfold skewness
    rw [key 3]
    have : (t ^ 2 * v) ^ (1.5 : ℝ) = t ^ 3 * v ^ (1.5 : ℝ) := by
      rw [Real.mul_rpow (by positivity) hv0.le, ← Real.rpow_natCast t 2, ← Real.rpow_mul ht.le,
        ← Real.rpow_natCast t 3]
      norm_num
    rw [this, mul_div_mul_left _ _ (by positivity)]
  · unfold kurtosis
    rw [key 4, mul_pow, ← pow_mul, mul_div_mul_left _ _ (by positivity)]

example : variance (3 :: [1, 2]) = .ok 5 ∧ (0 : ℝ) < 5 := by
  refine ⟨?_, by norm_num⟩
  simp only [variance, List.length_cons, List.length_nil, List.drop_succ_cons, List.drop_zero,
    List.foldl_cons, List.foldl_nil]
  norm_num

end EQ.Stats
