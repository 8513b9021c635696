import Verif.Opt.NewPoint
import Mathlib.LinearAlgebra.FiniteDimensional.Basic

/-!
# C148: the quadratic models are the quadratics through the samples
-/

namespace EQ.Opt
open EQ.Basis EQ.Poly EQ.Sub MvPolynomial

variable {n : ℕ}

/-! ### Quadratic functions and polynomials -/

theorem IsQuadratic.add {f g : Pt n → ℝ} (hf : IsQuadratic f) (hg : IsQuadratic g) : IsQuadratic fun x => f x + g x := by
  obtain ⟨c, b, A, h⟩ := hf
  obtain ⟨c', b', A', h'⟩ := hg
  refine ⟨c + c', b + b', A + A', fun x => ?_⟩
  change f x + g x = _
  rw [h, h']
  simp only [Pi.add_apply, add_mul, Finset.sum_add_distrib]
  ring

theorem isQuadratic_const (a : ℝ) : IsQuadratic fun _ : Pt n => a := ⟨a, 0, 0, fun x => by simp⟩

theorem isQuadratic_linear (a : ℝ) (i : Fin n) : IsQuadratic fun x : Pt n => a * x i :=
  ⟨0, Pi.single i a, 0, fun x => by simp [Pi.single_apply]⟩

theorem isQuadratic_product (a : ℝ) (i j : Fin n) : IsQuadratic fun x : Pt n => a * (x i * x j) := by
  refine ⟨0, 0, fun k l => if k = i then if l = j then a else 0 else 0, fun x => ?_⟩
  rw [Fintype.sum_eq_single (f := fun k => ∑ l, (if k = i then if l = j then a else 0 else 0) * x k * x l) i fun k hk => by simp [hk],
    Fintype.sum_eq_single (f := fun l => (if i = i then if l = j then a else 0 else 0) * x i * x l) j fun l hl => by simp [hl]]
  simp [mul_assoc]

theorem degree_peel (s : Fin n →₀ ℕ) (h : s ≠ 0) : ∃ i t, s = t + Finsupp.single i 1 ∧ s.degree = t.degree + 1 := by
  obtain ⟨i, hi⟩ := Finsupp.ne_iff.1 h
  have hi : 1 ≤ s i := Nat.one_le_iff_ne_zero.2 hi
  have e : s = (s - Finsupp.single i 1) + Finsupp.single i 1 := by
    ext j
    by_cases hj : j = i
    · subst hj; simp; omega
    · simp [Finsupp.single_apply, Ne.symm hj]
  refine ⟨i, _, e, ?_⟩
  conv_lhs => rw [e]
  rw [map_add, Finsupp.degree_single]

theorem isQuadratic_monomial (s : Fin n →₀ ℕ) (hs : s.degree ≤ 2) (a : ℝ) : IsQuadratic fun x : Pt n => eval x (monomial s a) := by
  by_cases h : s = 0
  · subst h
    simpa using isQuadratic_const a
  obtain ⟨i, t, rfl, hd⟩ := degree_peel s h
  by_cases h' : t = 0
  · subst h'
    have := isQuadratic_linear a i
    simpa [eval_monomial] using this
  obtain ⟨j, u, rfl, hd'⟩ := degree_peel t h'
  have hu : u = 0 := by
    rw [← Finsupp.degree_eq_zero_iff]
    omega
  subst hu
  have := isQuadratic_product a j i
  refine (iff_of_eq (congrArg IsQuadratic (funext fun x => ?_))).1 this
  rw [show (monomial (0 + Finsupp.single j 1 + Finsupp.single i 1) a : MvPolynomial (Fin n) ℝ) = C a * (X j * X i) by
    rw [monomial_add_single, monomial_add_single, monomial_zero', pow_one, pow_one, mul_assoc]]
  simp

theorem isQuadratic_iff (f : Pt n → ℝ) : IsQuadratic f ↔ ∃ q : MvPolynomial (Fin n) ℝ, q.totalDegree ≤ 2 ∧ ∀ x, f x = eval x q := by
  constructor
  · rintro ⟨c, b, A, h⟩
    refine ⟨C c + ∑ i, C (b i) * X i + ∑ i, ∑ j, C (A i j) * X i * X j, ?_, fun x => by simp [h]⟩
    refine (totalDegree_add _ _).trans (max_le ((totalDegree_add _ _).trans (max_le (by simp) ?_)) ?_)
    · refine (totalDegree_finsetSum _ _).trans (Finset.sup_le fun i _ => ?_)
      refine (totalDegree_mul _ _).trans ?_
      rw [totalDegree_C, totalDegree_X]
      norm_num
    · refine (totalDegree_finsetSum _ _).trans (Finset.sup_le fun i _ => ?_)
      refine (totalDegree_finsetSum _ _).trans (Finset.sup_le fun j _ => ?_)
      refine (totalDegree_mul _ _).trans ?_
      have := totalDegree_mul (C (A i j) : MvPolynomial (Fin n) ℝ) (X i)
      rw [totalDegree_C, totalDegree_X] at this
      rw [totalDegree_X]
      omega
  · rintro ⟨q, hq, h⟩
    rw [show f = fun x => eval x q from funext h]
    have : ∀ T : Finset (Fin n →₀ ℕ), (∀ s ∈ T, s.degree ≤ 2) → IsQuadratic fun x : Pt n => ∑ s ∈ T, eval x (monomial s (coeff s q)) := by
      intro T
      induction T using Finset.induction_on with
      | empty => intro _; simpa using isQuadratic_const 0
      | insert a T ha ih =>
        intro hT
        simp only [Finset.sum_insert ha]
        exact (isQuadratic_monomial a (hT a (Finset.mem_insert_self _ _)) _).add (ih fun s hs => hT s (Finset.mem_insert_of_mem hs))
    have h2 := this q.support fun s hs => (le_totalDegree hs).trans hq
    refine (iff_of_eq (congrArg IsQuadratic (funext fun x => ?_))).1 h2
    conv_rhs => rw [q.as_sum]
    rw [map_sum]

/-- The points of a set as rows. -/
def ptMat (S : List (Pt n)) : Matrix (Fin S.length) (Fin n) ℝ := fun i => S.get i

theorem rowList_ptMat (S : List (Pt n)) : rowList (ptMat S) = S.map List.ofFn := by
  unfold rowList ptMat
  apply List.ext_getElem <;> simp

theorem determines_det {S : List (Pt n)} : Determines S ↔ Det 2 (ptMat S) := by
  constructor
  · intro h q hq h0
    have := h (fun x => eval x q) (fun _ => 0) ((isQuadratic_iff _).2 ⟨q, hq, fun _ => rfl⟩) (isQuadratic_const 0) fun x hx => by
      obtain ⟨i, rfl⟩ := List.get_of_mem hx
      exact h0 i
    exact MvPolynomial.funext fun x => by rw [congrFun this x, map_zero]
  · intro h f g hf hg hfg
    obtain ⟨p, hp, ef⟩ := (isQuadratic_iff f).1 hf
    obtain ⟨q, hq, eg⟩ := (isQuadratic_iff g).1 hg
    have := h (p - q) ((totalDegree_sub _ _).trans (max_le hp hq)) fun i => by
      rw [map_sub, ← ef, ← eg]
      exact sub_eq_zero.2 (hfg _ (List.get_mem _ _))
    funext x
    rw [ef, eg, sub_eq_zero.1 this]

/-- As many points as there are coefficients: every values are taken by a polynomial. -/
theorem det_surj {K d : ℕ} (hd : 0 < d) (hK : K = redSize d) (Y : Matrix (Fin K) (Fin d) ℝ) (hD : Det 2 Y) (f : Fin K → ℝ) :
    ∃ q : MvPolynomial (Fin d) ℝ, q.totalDegree ≤ 2 ∧ ∀ i, eval (Y i) q = f i := by
  set L := fitElements d 2 with hL
  have hN : L.length = K := by rw [hL, quad_card d hd, hK]
  have hnd : L.Nodup := by
    obtain ⟨L', m, h1, -, -, h2, -⟩ := c01_total_order (List.replicate d 2) (by simp; omega)
    rw [hL]
    unfold fitElements
    rw [h1]
    exact h2
  have hrow : ∀ r : Fin L.length, (L.get r).length = d ∧ (L.get r).sum ≤ 2 := fun r => (mem_fitElements hd 2 _).1 (List.get_mem _ _)
  let e : Fin L.length → (Fin d →₀ ℕ) := fun r => Finsupp.equivFunOnFinite.symm fun i => (L.get r).getD i 0
  have he : Function.Injective e := by
    intro r s h
    have h1 : ∀ i : Fin d, (L.get r).getD i 0 = (L.get s).getD i 0 := fun i => DFunLike.congr_fun h i
    refine List.nodup_iff_injective_get.1 hnd (List.ext_getElem ((hrow r).1.trans (hrow s).1.symm) fun i hi hi' => ?_)
    have := h1 ⟨i, by rw [← (hrow r).1]; exact hi⟩
    rwa [Sampling.getD_of_lt _ _ _ hi, Sampling.getD_of_lt _ _ _ hi'] at this
  have hdeg : ∀ r, (e r).degree ≤ 2 := by
    intro r
    refine le_trans (le_of_eq ?_) (hrow r).2
    rw [Finsupp.degree_eq_sum]
    have : ∀ (l : List ℕ), l.length = d → ∑ i : Fin d, l.getD i 0 = l.sum := by
      intro l hl
      subst hl
      rw [← Fin.sum_univ_getElem]
      exact Finset.sum_congr rfl fun i _ => Sampling.getD_of_lt _ _ _ i.2
    exact this _ (hrow r).1
  let toPoly : (Fin L.length → ℝ) →ₗ[ℝ] MvPolynomial (Fin d) ℝ :=
    { toFun := fun c => ∑ r, monomial (e r) (c r)
      map_add' := fun a b => by simp [Finset.sum_add_distrib]
      map_smul' := fun a b => by simp [Finset.smul_sum, smul_monomial] }
  have hpdeg : ∀ c, (toPoly c).totalDegree ≤ 2 := by
    intro c
    refine (totalDegree_finsetSum _ _).trans (Finset.sup_le fun r _ => ?_)
    exact (totalDegree_monomial_le _ _).trans (hdeg r)
  have hinj : ∀ c, toPoly c = 0 → c = 0 := by
    intro c hc
    funext r
    have := congrArg (coeff (e r)) hc
    simp only [toPoly, LinearMap.coe_mk, AddHom.coe_mk, coeff_sum, coeff_monomial, coeff_zero] at this
    rw [Finset.sum_eq_single r] at this
    · simpa using this
    · intro s _ hs
      rw [if_neg fun h => hs (he h)]
    · simp
  let T : (Fin L.length → ℝ) →ₗ[ℝ] (Fin K → ℝ) :=
    { toFun := fun c i => eval (Y i) (toPoly c)
      map_add' := fun a b => by funext i; simp
      map_smul' := fun a b => by funext i; simp [smul_eval] }
  have hT : Function.Injective T := by
    rw [← LinearMap.ker_eq_bot, LinearMap.ker_eq_bot']
    intro c hc
    exact hinj c (hD _ (hpdeg c) fun i => congrFun hc i)
  obtain ⟨c, hc⟩ := (LinearMap.injective_iff_surjective_of_finrank_eq_finrank (by simp [hN])).1 hT f
  exact ⟨toPoly c, hpdeg c, fun i => congrFun hc i⟩

/-! ### The models -/

theorem list_ofFn_get (S : List (Pt n)) (g : Pt n → ℝ) : (List.ofFn fun i => g (ptMat S i)) = S.map g := by
  unfold ptMat
  apply List.ext_getElem <;> simp

/-- **C148, exactness.** For every quadratic function, every trust region with interior and every set of points that determines a
quadratic: the model fitted to the values at the points is the function, everywhere. -/
theorem c148_exact {lstsq : Lstsq} (hl : LstsqOK lstsq) (hn : 0 < n) (st : St n) (hb : ∀ i, st.lo i < st.hi i) (S : List (Pt n))
    (hS : Determines S) (g : Pt n → ℝ) (hg : IsQuadratic g) :
    ∃ F, buildTR lstsq st S (S.map g) = .ok F ∧ ∀ x : Pt n, valueAt F x = g x := by
  obtain ⟨q, hq, eg⟩ := (isQuadratic_iff g).1 hg
  have hK : 0 < S.length := by
    rcases Nat.eq_zero_or_pos S.length with h | h
    · have : S = [] := List.length_eq_zero_iff.1 h
      subst this
      have := hS (fun _ => 0) (fun _ => 1) (isQuadratic_const 0) (isQuadratic_const 1) (by simp)
      exact absurd (congrFun this 0) (by norm_num)
    · exact h
  obtain ⟨c, h1, hc, h2⟩ := fitSamples_exact hl (fun i => uniformParam (st.lo i) (st.hi i)) (fun i k hk => uniform_pos (hb i) k hk) hn 2
    (ptMat S) hK (determines_det.1 hS) q hq
  rw [rowList_ptMat, show (List.ofFn fun i => eval (ptMat S i) q) = S.map g by
    rw [← list_ofFn_get]; simp only [eg]] at h1
  exact ⟨_, h1, fun x => by rw [valueAt_comb _ hn 2 c hc, h2, ← eg]⟩

/-- **C148, interpolation.** With `(n + 1)(n + 2)/2` points that determine a quadratic, the model takes the given values, whatever
they are, at the points, and it is the only quadratic that does. -/
theorem c148_interpolates {lstsq : Lstsq} (hl : LstsqOK lstsq) (hn : 0 < n) (st : St n) (hb : ∀ i, st.lo i < st.hi i) (S : List (Pt n))
    (hS : Determines S) (hlen : S.length = (n + 1) * (n + 2) / 2) (f : List ℝ) (hf : f.length = S.length) :
    ∃ F, buildTR lstsq st S f = .ok F ∧ IsQuadratic (valueAt F : Pt n → ℝ) ∧ S.map (valueAt F) = f ∧
      ∀ g, IsQuadratic g → S.map g = f → g = valueAt F := by
  obtain ⟨q, hq, hv⟩ := det_surj hn hlen (ptMat S) (determines_det.1 hS) fun i => f.get (i.cast hf.symm)
  have hqq : IsQuadratic fun x : Pt n => eval x q := (isQuadratic_iff _).2 ⟨q, hq, fun _ => rfl⟩
  have hmap : S.map (fun x => eval x q) = f := by
    rw [← list_ofFn_get]
    apply List.ext_getElem
    · simp [hf]
    · intro i h1 h2
      simp [hv]
  obtain ⟨F, h1, h2⟩ := c148_exact hl hn st hb S hS _ hqq
  have h2 : (valueAt F : Pt n → ℝ) = fun x => eval x q := funext h2
  rw [hmap] at h1
  refine ⟨F, h1, by rw [h2]; exact hqq, by rw [h2]; exact hmap, fun g hg hgf => ?_⟩
  rw [h2]
  refine hS g _ hg hqq fun x hx => ?_
  rw [← hmap] at hgf
  exact List.map_inj_left.1 hgf x hx

/-- **C148, the first model.** For the start along the coordinates from an incumbent that is not at a bound: the first model is the
only quadratic with the values found. -/
theorem c148_first {lstsq : Lstsq} (hl : LstsqOK lstsq) (hn : 0 < n) (cfg : Cfg n) (hr : cfg.random = false) (env : Env n) (st : St n)
    (h : Interior st) (f : List ℝ) (hf : f.length = setSize n) :
    ∃ F, buildTR lstsq st (generateSet cfg env st (setSize n)) f = .ok F ∧ IsQuadratic (valueAt F : Pt n → ℝ) ∧
      (generateSet cfg env st (setSize n)).map (valueAt F) = f := by
  have hlen : (generateSet cfg env st (setSize n)).length = setSize n := by
    have := setSize_pos n
    simp [generateSet]
    omega
  obtain ⟨F, h1, h2, h3, -⟩ := c148_interpolates hl hn st (fun i => by linarith [h.lower i, h.upper i, h.del]) _ (c90_initial_partial cfg hr env st h) hlen f
    (hf.trans hlen.symm)
  exact ⟨F, h1, h2, h3⟩

/-- **C148, steps on quadratic functions.** If the function is quadratic, the decrease predicted by the model is the decrease found
(the ratio that steers the radius is one), the step does not increase the function, and it goes to the smallest value between the
local bounds if the minimiser finds it. -/
theorem c148_step {lstsq : Lstsq} (hl : LstsqOK lstsq) {tnc : Tnc n} (ht : TncOK tnc) (hn : 0 < n) (st : St n) (hs : Within st st.sOld)
    (hb : ∀ i, st.lo i < st.hi i) (S : List (Pt n)) (hS : Determines S) (g : Pt n → ℝ) (hg : IsQuadratic g) :
    ∃ m, buildStepTR lstsq tnc st S (S.map g) = some m ∧ Within st m.sNew ∧ m.atOld - m.mNew = g st.sOld - g m.sNew ∧
      g m.sNew ≤ g st.sOld ∧ (TncGlobal tnc → ∀ y, Within st y → g m.sNew ≤ g y) := by
  obtain ⟨F, h1, h2⟩ := c148_exact hl hn st hb S hS g hg
  obtain ⟨F', h1', h3⟩ := c146_model hl hn st S (S.map g)
  obtain rfl : F = F' := Except.ok.inj (h1.symm.trans h1')
  have h2 : (valueAt F : Pt n → ℝ) = g := funext h2
  rw [h2] at h3
  obtain ⟨a, b, c⟩ := ht g (gradAt F) st.sOld st.lo st.hi hs
  refine ⟨stepTR tnc st F, by unfold buildStepTR; rw [h1], ?_⟩
  unfold stepTR
  rw [h2]
  exact ⟨a, congrArg (g st.sOld - ·) b, c h3, fun hG y hy => hG g (gradAt F) st.sOld st.lo st.hi hs h3 y hy⟩

/-- **C148, method `omorf`.** If the function is a quadratic of the coordinates along the directions, and the coordinates of the
points determine a quadratic, the model is the function everywhere. -/
theorem c148_omorf {lstsq : Lstsq} (hl : LstsqOK lstsq) (U : Dirs n) (hU : U ≠ []) (S : List (Pt n)) (hS : Determines (S.map (coords U)))
    (g : Pt U.length → ℝ) (hg : IsQuadratic g) :
    ∃ F, buildRed lstsq U S (S.map fun x => g (coords U x)) = .ok F ∧ ∀ x, objRed U F x = g (coords U x) := by
  have hU : 0 < U.length := List.length_pos_iff.2 hU
  cases S with
  | nil =>
    have := hS (fun _ => 0) (fun _ => 1) (isQuadratic_const 0) (isQuadratic_const 1) (by simp)
    exact absurd (congrFun this 0) (by norm_num)
  | cons s l =>
    obtain ⟨q, hq, eg⟩ := (isQuadratic_iff g).1 hg
    have hD : Det 2 (coordsAll U s l) := by
      intro p hp h0
      refine determines_det.1 hS p hp fun i => ?_
      have h1 := h0 (i.cast (by simp))
      unfold ptMat
      rw [show ((s :: l).map (coords U)).get i = coordsAll U s l (i.cast (by simp)) by
        rw [List.get_eq_getElem, List.getElem_map]; rfl]
      exact h1
    obtain ⟨c, h1, hc, h2⟩ := fitSamples_exact hl (fun j => uniformParam (lows (coordsAll U s l) j) (highs (coordsAll U s l) j))
      (fun i k hk => uniform_pos (det_spread (by norm_num) hD i) k hk) hU 2 (coordsAll U s l) (Nat.succ_pos _) hD q hq
    have e : (List.ofFn fun i => eval (coordsAll U s l i) q) = (s :: l).map fun x => g (coords U x) := by
      rw [← list_ofFn_get (s :: l) fun x => g (coords U x)]
      simp only [eg]
      rfl
    rw [e] at h1
    exact ⟨_, h1, fun x => by unfold objRed; rw [valueAt_comb _ hU 2 c hc, h2, ← eg]⟩

/-! ### The hypotheses can be met -/

/-- A least-squares solver. -/
noncomputable def lstsqDemo : Lstsq := fun A b n => (exists_lstsq A b n).choose

theorem lstsqDemo_ok : LstsqOK lstsqDemo := fun A b n => (exists_lstsq A b n).choose_spec

theorem interior_demo : Interior stDemo := by constructor <;> norm_num [stDemo]

/-- The set of three points of `stDemo` determines a quadratic of one variable. -/
theorem determines_demo : Determines (generateSet cfgDemo envDemo stDemo (setSize 1)) := c90_initial_partial cfgDemo rfl envDemo stDemo interior_demo

example : IsQuadratic fun x : Pt 1 => x 0 ^ 2 := ⟨0, 0, fun _ _ => 1, fun x => by simp [pow_two]⟩

example : ∃ F, buildTR lstsqDemo stDemo (generateSet cfgDemo envDemo stDemo (setSize 1)) [0, 5, 7] = .ok F ∧
    IsQuadratic (valueAt F : Pt 1 → ℝ) ∧ (generateSet cfgDemo envDemo stDemo (setSize 1)).map (valueAt F) = [0, 5, 7] :=
  c148_first lstsqDemo_ok one_pos cfgDemo rfl envDemo stDemo interior_demo _ rfl

/-- On `x ↦ x²` the model is `x ↦ x²` and the step does not leave the minimum. -/
example : ∃ m, buildStepTR lstsqDemo tncStay stDemo (generateSet cfgDemo envDemo stDemo (setSize 1))
      ((generateSet cfgDemo envDemo stDemo (setSize 1)).map fun x => x 0 ^ 2) = some m ∧ Within stDemo m.sNew := by
  obtain ⟨m, h1, h2, -⟩ := c148_step lstsqDemo_ok (tncStay_ok (n := 1)) one_pos stDemo (fun i => by norm_num [stDemo]) (fun i => by norm_num [stDemo])
    _ determines_demo (fun x => x 0 ^ 2) ⟨0, 0, fun _ _ => 1, fun x => by simp [pow_two]⟩
  exact ⟨m, h1, h2⟩

/-- Two variables, the direction `(1, 2)`: three points with the coordinates `0`, `1` and `2`. -/
example : ∃ F, buildRed lstsqDemo [![1, 2]] [![0, 0], ![1, 0], ![0, 1]] ([![0, 0], ![1, 0], ![0, 1]].map fun x => (coords [![1, 2]] x 0) ^ 2) = .ok F ∧
    ∀ x, objRed [![1, 2]] F x = (coords [![1, 2]] x 0) ^ 2 := by
  refine c148_omorf lstsqDemo_ok _ (by simp) _ ?_ (fun y => y 0 ^ 2) ⟨0, 0, fun _ _ => 1, fun x => by simp [pow_two]⟩
  intro f g hf hg h
  obtain ⟨c, b, A, hf⟩ := hf
  obtain ⟨c', b', A', hg⟩ := hg
  have h0 := h (coords [![1, 2]] ![0, 0]) (by simp)
  have h1 := h (coords [![1, 2]] ![1, 0]) (by simp)
  have h2 := h (coords [![1, 2]] ![0, 1]) (by simp)
  rw [hf, hg] at h0 h1 h2
  simp [coords] at h0 h1 h2
  funext x
  rw [hf, hg]
  simp
  have e1 : b 0 = b' 0 := by linarith
  have e2 : A 0 0 = A' 0 0 := by linarith
  rw [h0, e1, e2]

end EQ.Opt
