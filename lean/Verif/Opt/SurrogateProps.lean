import Verif.Opt.Surrogate
import Verif.Opt.PoisedProps
import Verif.Sub.RidgeProps
import Mathlib.Analysis.Calculus.FDeriv.Mul
import Mathlib.Analysis.Calculus.FDeriv.Pow
import Mathlib.Analysis.Calculus.FDeriv.Pi

/-!
# C146: derivatives handed to the optimisers; new sample points
-/

namespace EQ.Opt
open EQ.Basis EQ.Poly EQ.Sub

variable {n : ℕ}

/-- Specification: `g` is the gradient of `f` at `x`. -/
def IsGradient (f : Pt n → ℝ) (g : Pt n) (x : Pt n) : Prop :=
  HasFDerivAt f (∑ i, g i • (ContinuousLinearMap.proj i : (Fin n → ℝ) →L[ℝ] ℝ)) x

theorem hasFDeriv_power (L : Pt n →L[ℝ] ℝ) (s : Pt n) (D : ℝ) (b : ℕ) (x : Pt n) :
    HasFDerivAt (fun x => (L (x - s) / D) ^ b / (b.factorial : ℝ))
      ((b * (L (x - s) / D) ^ (b - 1) / b.factorial / D) • L) x := by
  have h1 : HasFDerivAt (fun x : Pt n => L (x - s)) L x := by
    have : (fun x : Pt n => L (x - s)) = fun x => L x - L s := by funext y; rw [map_sub]
    rw [this]
    exact L.hasFDerivAt.sub_const _
  have h2 := ((h1.mul_const D⁻¹).pow b).mul_const ((b.factorial : ℝ)⁻¹)
  simp only [← div_eq_mul_inv] at h2
  refine h2.congr_fderiv ?_
  ext y
  simp only [_root_.smul_apply, smul_eq_mul, nsmul_eq_mul]
  ring

theorem hasFDeriv_monomial {m : ℕ} (L : Fin m → Pt n →L[ℝ] ℝ) (s : Pt n) (D : ℝ) (b : Fin m → ℕ) (x : Pt n) :
    HasFDerivAt (fun x => ∏ j, (L j (x - s) / D) ^ b j / ((b j).factorial : ℝ))
      (∑ i, ((if b i ≠ 0 then b i * ∏ j, (L j (x - s) / D) ^ (b j - if j = i then 1 else 0) / ((b j).factorial : ℝ) else 0) / D) • L i) x := by
  classical
  have h := HasFDerivAt.finset_prod (u := Finset.univ) (x := x) (fun j (_ : j ∈ Finset.univ) => hasFDeriv_power (L j) s D (b j) x)
  refine h.congr_fderiv (Finset.sum_congr rfl fun i _ => ?_)
  rw [smul_smul]
  congr 1
  by_cases hb : b i = 0
  · simp [hb]
  · rw [if_pos hb, ← Finset.mul_prod_erase _ _ (Finset.mem_univ i), if_pos rfl]
    have : ∀ j ∈ Finset.univ.erase i, (L j (x - s) / D) ^ (b j - if j = i then 1 else 0) / ((b j).factorial : ℝ) =
        (L j (x - s) / D) ^ b j / ((b j).factorial : ℝ) := fun j hj => by rw [if_neg (Finset.ne_of_mem_erase hj), Nat.sub_zero]
    rw [Finset.prod_congr rfl this]
    ring

theorem dot_sum (q : ℕ) (v φ : ℕ → ℝ) : dot q v φ = ∑ k ∈ Finset.range q, v k * φ k := rfl

/-- Gradients of the functions `v · φ` from those of the entries of `φ`. -/
theorem dot_gradient {q : ℕ} {φ : Pt n → ℕ → ℝ} {dφ : Pt n → Fin n → ℕ → ℝ} (v : ℕ → ℝ) (x : Pt n)
    (h : ∀ k < q, IsGradient (fun y => φ y k) (fun i => dφ x i k) x) :
    IsGradient (fun y => dot q v (φ y)) (jac q dφ v x) x := by
  have h1 := HasFDerivAt.fun_sum (u := Finset.range q) fun k hk => (h k (Finset.mem_range.1 hk)).const_mul (v k)
  refine h1.congr_fderiv ?_
  ext y
  simp only [jac, dot_sum, _root_.sum_apply, _root_.smul_apply, ContinuousLinearMap.proj_apply,
    smul_eq_mul, Finset.mul_sum, Finset.sum_mul]
  rw [Finset.sum_comm]
  exact Finset.sum_congr rfl fun i _ => Finset.sum_congr rfl fun k _ => by ring

theorem neg_gradient {f : Pt n → ℝ} {g x : Pt n} (h : IsGradient f g x) : IsGradient (fun y => -f y) (-g) x := by
  refine h.neg.congr_fderiv ?_
  ext y
  simp

theorem phiTR_gradient (cfg : Cfg n) (hb : ∀ i, cfg.basis 0 i = 0) (st : St n) (hatS : List (Pt n)) (k : ℕ) (x : Pt n) :
    IsGradient (fun y => phiTR cfg st hatS y k) (fun i => phiTRDeriv cfg st hatS x i k) x := by
  refine (hasFDeriv_monomial (fun j => ContinuousLinearMap.proj j) st.sOld (delS st hatS) (cfg.basis k) x).congr_fderiv ?_
  refine Finset.sum_congr rfl fun i _ => ?_
  congr 1
  unfold phiTRDeriv
  congr 1
  by_cases h0 : cfg.basis k i = 0
  · rw [if_neg (not_not.2 h0), if_neg (fun h => h.2 h0)]
  · have hk : 1 ≤ k := by
      rcases Nat.eq_zero_or_pos k with rfl | h
      · exact absurd (hb i) h0
      · exact h
    rw [if_pos h0, if_pos ⟨hk, h0⟩]
    rfl

/-- **C146, pivots of the trust-region method**: for every set of multi-indices whose first row is zero (the one used:
`redBasis_zero`) the vector computed by `phi_function_deriv` is the gradient of the function that is minimised. -/
theorem c146_pivot (cfg : Cfg n) (hb : ∀ i, cfg.basis 0 i = 0) (st : St n) (hatS : List (Pt n)) (q : ℕ) (v : ℕ → ℝ) (x : Pt n) :
    IsGradient (fun y => dot q v (phiTR cfg st hatS y)) (jac q (phiTRDeriv cfg st hatS) v x) x :=
  dot_gradient v x fun k _ => phiTR_gradient cfg hb st hatS k x

theorem quad_card (d : ℕ) (hd : 0 < d) : (fitElements d 2).length = redSize d := by
  obtain ⟨L, m, h1, h2, -, -, h3, -⟩ := c01_total_order (List.replicate d 2) (by simp; omega)
  have : m = 2 := by
    obtain ⟨ha, -⟩ := h2
    simpa [hd.ne'] using ha
  subst this
  unfold fitElements redSize
  rw [h1]
  simp only
  rw [h3, List.length_replicate, ← Nat.choose_symm_of_eq_add (n := 2 + d) (a := 2) (b := d) rfl, Nat.choose_two_right]
  congr 1
  rw [show 2 + d - 1 = d + 1 by omega]
  ring

theorem redBasis_eq (d k : ℕ) : redBasis d k = ((fitElements d 2).getD k []).reverse := by
  unfold redBasis fitElements
  cases totalOrderBasis (List.replicate d 2) <;> simp

/-- The rows of multi-indices have one entry per direction. -/
theorem redBasis_length {d k : ℕ} (hd : 0 < d) (hk : k < redSize d) : (redBasis d k).length = d := by
  rw [redBasis_eq, List.length_reverse]
  have hk : k < (fitElements d 2).length := by rwa [quad_card d hd]
  rw [Sampling.getD_of_lt _ _ _ hk]
  exact ((mem_fitElements hd 2 _).1 (List.getElem_mem hk)).1

/-- The first row is zero. -/
theorem redBasis_zero (d : ℕ) : redBasis d 0 = List.replicate d 0 := by
  rcases Nat.eq_zero_or_pos d with rfl | hd
  · decide
  obtain ⟨L, m, h1, -, -, -, -, -, h2⟩ := c01_total_order (List.replicate d 2) (by simp; omega)
  rw [redBasis_eq]
  unfold fitElements
  rw [h1]
  simp only
  cases L with
  | nil => simp at h2
  | cons a L =>
    simp only [List.head?_cons, Option.some.injEq] at h2
    rw [h2]
    simp [Spec.zeroRow]

/-- The coordinate along a direction. -/
noncomputable def form (w : Pt n) : Pt n →L[ℝ] ℝ := ∑ i, w i • (ContinuousLinearMap.proj i : (Fin n → ℝ) →L[ℝ] ℝ)

theorem form_apply (w x : Pt n) : form w x = ∑ i, x i * w i := by
  simp only [form, _root_.sum_apply, _root_.smul_apply, ContinuousLinearMap.proj_apply, smul_eq_mul]
  exact Finset.sum_congr rfl fun i _ => mul_comm _ _

theorem project_getD (st : St n) (U : Dirs n) (x : Pt n) (j : ℕ) : (project st U x).getD j 0 = form (U.getD j 0) (x - st.sOld) := by
  rw [form_apply]
  unfold project
  by_cases h : j < U.length
  · rw [Sampling.getD_of_lt _ _ _ (by simpa using h), Sampling.getD_of_lt _ _ _ h, List.getElem_map]
    rfl
  · rw [List.getD_eq_default _ _ (by simpa using h), List.getD_eq_default _ _ (by simpa using h)]
    simp

theorem zip_prod (g : ℝ → ℕ → ℝ) (l : List ℝ) (b : List ℕ) (h : l.length = b.length) :
    ((l.zip b).map fun t => g t.1 t.2).prod = ∏ j : Fin l.length, g (l.getD j 0) (b.getD j 0) := by
  induction l generalizing b with
  | nil => simp
  | cons a l ih =>
    cases b with
    | nil => simp at h
    | cons c b =>
      rw [List.zip_cons_cons, List.map_cons, List.prod_cons, ih b (by simpa using h)]
      simp only [List.length_cons]
      rw [Fin.prod_univ_succ]
      simp

theorem phiRed_eq {d : ℕ} (hd : 0 < d) (U : Dirs n) (hU : U.length = d) (st : St n) (hatS : List (Pt n)) {k : ℕ} (hk : k < redSize d) (x : Pt n) :
    phiRed d U st hatS x k = ∏ j : Fin d, (form (U.getD j 0) (x - st.sOld) / delRed U st hatS) ^ (redBasis d k).getD j 0 /
      (((redBasis d k).getD j 0).factorial : ℝ) := by
  subst hU
  have hl : (project st U x).length = U.length := by simp [project]
  show (((project st U x).zip (redBasis U.length k)).map fun t => (t.1 / delRed U st hatS) ^ t.2 / (t.2.factorial : ℝ)).prod = _
  rw [zip_prod (fun t b => (t / delRed U st hatS) ^ b / (b.factorial : ℝ)) _ _ (by rw [hl, redBasis_length hd hk])]
  rw [← Finset.prod_range (fun j => ((project st U x).getD j 0 / delRed U st hatS) ^ (redBasis U.length k).getD j 0 /
      (((redBasis U.length k).getD j 0).factorial : ℝ)), hl, Finset.prod_range]
  exact Finset.prod_congr rfl fun j _ => by rw [project_getD]

theorem phiRed_gradient (d : ℕ) (hd : 0 < d) (U : Dirs n) (hU : U.length = d) (st : St n) (hatS : List (Pt n)) {k : ℕ}
    (hk : k < redSize d) (x : Pt n) :
    IsGradient (fun y => phiRed d U st hatS y k) (fun i => phiRedDeriv d U st hatS x i k) x := by
  have h := hasFDeriv_monomial (fun j : Fin d => form (U.getD j 0)) st.sOld (delRed U st hatS) (fun j => (redBasis d k).getD j 0) x
  have e : (fun y => phiRed d U st hatS y k) = fun y => ∏ j : Fin d, (form (U.getD j 0) (y - st.sOld) / delRed U st hatS) ^
      (redBasis d k).getD j 0 / (((redBasis d k).getD j 0).factorial : ℝ) := funext fun y => phiRed_eq hd U hU st hatS hk y
  unfold IsGradient
  rw [e]
  refine h.congr_fderiv ?_
  ext y
  simp only [_root_.sum_apply, _root_.smul_apply, ContinuousLinearMap.proj_apply, smul_eq_mul, form_apply,
    phiRedDeriv, Finset.sum_mul, Finset.mul_sum]
  rw [Finset.sum_comm]
  refine Finset.sum_congr rfl fun i _ => ?_
  rw [Finset.sum_range]
  refine Finset.sum_congr rfl fun j _ => ?_
  have hin : phiRedInner d U st hatS x j k = (if (redBasis d k).getD j 0 ≠ 0 then ((redBasis d k).getD j 0 : ℝ) * ∏ l : Fin d,
      ((∑ i, (x - st.sOld) i * (U.getD l 0) i) / delRed U st hatS) ^ ((redBasis d k).getD l 0 - if l = j then 1 else 0) /
        (((redBasis d k).getD l 0).factorial : ℝ) else 0) / delRed U st hatS := by
    unfold phiRedInner
    congr 1
    by_cases h0 : (redBasis d k).getD j 0 = 0
    · rw [if_neg (not_not.2 h0), if_neg (fun h => h.2 h0)]
    · have hk1 : 1 ≤ k := by
        rcases Nat.eq_zero_or_pos k with rfl | h
        · refine absurd ?_ h0
          rw [redBasis_zero]
          simp
        · exact h
      rw [if_pos h0, if_pos ⟨hk1, h0⟩, Finset.prod_range]
      congr 1
      refine Finset.prod_congr rfl fun l _ => ?_
      rw [project_getD, form_apply]
      by_cases hlj : l = j
      · rw [if_pos hlj, if_pos (congrArg Fin.val hlj)]
      · rw [if_neg hlj, if_neg (fun h => hlj (Fin.ext h))]
  rw [hin]
  ring

/-- **C146, pivots of `omorf`**: the same for the basis functions in the coordinates of `d` directions. -/
theorem c146_pivot_omorf (d : ℕ) (hd : 0 < d) (U : Dirs n) (hU : U.length = d) (st : St n) (hatS : List (Pt n)) (v : ℕ → ℝ) (x : Pt n) :
    IsGradient (fun y => dot (redSize d) v (phiRed d U st hatS y)) (jac (redSize d) (phiRedDeriv d U st hatS) v x) x :=
  dot_gradient v x fun _ hk => phiRed_gradient d hd U hU st hatS hk x

/-! ### The quadratic models -/

open MvPolynomial in
theorem eval_gradient {d : ℕ} (g : MvPolynomial (Fin d) ℝ) (y : Fin d → ℝ) :
    IsGradient (fun y => eval y g) (fun i => eval y (pderiv i g)) y := by
  unfold IsGradient
  induction g using MvPolynomial.induction_on with
  | C a =>
    simp only [eval_C]
    refine (hasFDerivAt_const a y).congr_fderiv ?_
    ext z
    simp
  | add a b ha hb =>
    simp only [map_add]
    refine (ha.fun_add hb).congr_fderiv ?_
    ext z
    simp [add_mul, Finset.sum_add_distrib]
  | mul_X a k ha =>
    have hk : HasFDerivAt (fun y : Fin d → ℝ => y k) (ContinuousLinearMap.proj k : (Fin d → ℝ) →L[ℝ] ℝ) y :=
      (ContinuousLinearMap.proj k : (Fin d → ℝ) →L[ℝ] ℝ).hasFDerivAt
    simp only [map_mul, eval_X]
    refine (ha.fun_mul hk).congr_fderiv ?_
    ext z
    simp only [pderiv_mul, pderiv_X, map_add, map_mul, eval_X, _root_.add_apply, _root_.sum_apply, _root_.smul_apply,
      ContinuousLinearMap.proj_apply, smul_eq_mul, add_mul, Finset.sum_add_distrib]
    rw [add_comm]
    congr 1
    · rw [Finset.mul_sum]
      exact Finset.sum_congr rfl fun i _ => by ring
    · rw [Finset.sum_eq_single k]
      · simp
      · intro i _ hi
        rw [Pi.single_eq_of_ne (by exact fun h => hi h.symm)]
        simp
      · simp

theorem valueAt_comb {d : ℕ} (P : Fin d → Sampling.MParam) (hd : 0 < d) (p : ℕ) (c : List ℝ) (hc : c.length = (fitElements d p).length)
    (y : Fin d → ℝ) : valueAt ⟨orderBasis P p, c⟩ y = MvPolynomial.eval y (comb P p c) := by
  unfold valueAt
  rw [polyfit_comb P hd p c hc y]
  rfl

theorem gradAt_comb {d : ℕ} (P : Fin d → Sampling.MParam) (hd : 0 < d) (p : ℕ) (c : List ℝ) (hc : c.length = (fitElements d p).length)
    (y : Fin d → ℝ) (i : Fin d) : gradAt ⟨orderBasis P p, c⟩ y i = MvPolynomial.eval y (MvPolynomial.pderiv i (comb P p c)) := by
  have h := polygrad_comb (K := 1) P hd p c hc (fun _ => y)
  unfold polygrad at h
  have e : rowList (fun _ : Fin 1 => y) = [List.ofFn y] := by simp [rowList]
  unfold gradAt
  rw [e] at h
  cases hG : (orderBasis P p).polyfitGrad none c [List.ofFn y] with
  | error x => rw [hG] at h; simp at h
  | ok G =>
    rw [hG] at h
    have := congrFun (congrFun (Except.ok.inj h) i) 0
    rw [← this]
    change (G.getD i []).headD 0 = (G.getD i []).getD 0 0
    generalize G.getD i [] = l
    cases l <;> rfl

theorem fitSamples_shape {d : ℕ} {lstsq : Lstsq} (hl : LstsqOK lstsq) (P : Fin d → Sampling.MParam) (hd : 0 < d) (p : ℕ)
    (pts : List (List ℝ)) (hp : ∀ x ∈ pts, x.length = d) (ys : List ℝ) :
    ∃ c, fitSamples lstsq (orderBasis P p) pts ys = .ok ⟨orderBasis P p, c⟩ ∧ c.length = (fitElements d p).length := by
  obtain ⟨M, hM, hMl, -⟩ := getPoly_dot _ (orderBasis_regular P hd p) pts (by simpa [orderBasis, Expansion.dims] using hp)
  unfold fitSamples
  simp only [hM]
  exact ⟨_, rfl, by rw [(hl _ _ _).1, hMl]; rfl⟩

theorem buildTR_shape {lstsq : Lstsq} (hl : LstsqOK lstsq) (hn : 0 < n) (st : St n) (S : List (Pt n)) (f : List ℝ) :
    ∃ c, buildTR lstsq st S f = .ok ⟨orderBasis (fun i => uniformParam (st.lo i) (st.hi i)) 2, c⟩ ∧
      c.length = (fitElements n 2).length :=
  fitSamples_shape hl _ hn 2 _ (by simp) f

theorem buildRed_shape {lstsq : Lstsq} (hl : LstsqOK lstsq) (U : Dirs n) (hU : 0 < U.length) (s : Pt n) (l : List (Pt n)) (f : List ℝ) :
    ∃ c, buildRed lstsq U (s :: l) f =
        .ok ⟨orderBasis (fun j => uniformParam (lows (coordsAll U s l) j) (highs (coordsAll U s l) j)) 2, c⟩ ∧
      c.length = (fitElements U.length 2).length :=
  fitSamples_shape hl _ hU 2 _ (by simp [rowList]) f

/-- **C146, quadratic models of the trust-region method**: the model can always be built, and the vector handed to the optimiser is the
gradient of the function that is minimised, at every point. -/
theorem c146_model {lstsq : Lstsq} (hl : LstsqOK lstsq) (hn : 0 < n) (st : St n) (S : List (Pt n)) (f : List ℝ) :
    ∃ F, buildTR lstsq st S f = .ok F ∧ ∀ x : Pt n, IsGradient (valueAt F) (gradAt F x) x := by
  obtain ⟨c, h, hc⟩ := buildTR_shape hl hn st S f
  refine ⟨_, h, fun x => ?_⟩
  rw [show gradAt _ x = _ from funext fun i => gradAt_comb _ hn 2 c hc x i,
    show valueAt _ = _ from funext fun y => valueAt_comb _ hn 2 c hc y]
  exact eval_gradient _ x

/-- **C146, quadratic models of `omorf`**: the same for the model in the coordinates of the directions, as a function of the point. -/
theorem c146_model_omorf {lstsq : Lstsq} (hl : LstsqOK lstsq) (U : Dirs n) (hU : U ≠ []) (S : List (Pt n)) (hS : S ≠ []) (f : List ℝ) :
    ∃ F, buildRed lstsq U S f = .ok F ∧ ∀ x, IsGradient (objRed U F) (jacRed U F x) x := by
  cases S with
  | nil => exact absurd rfl hS
  | cons s l =>
    have hU : 0 < U.length := List.length_pos_iff.2 hU
    obtain ⟨c, h, hc⟩ := buildRed_shape hl U hU s l f
    refine ⟨_, h, fun x => ?_⟩
    set P := fun j => uniformParam (lows (coordsAll U s l) j) (highs (coordsAll U s l) j)
    have hA : HasFDerivAt (coords U) (ContinuousLinearMap.pi fun j : Fin U.length => form U[j]) x := by
      have : coords U = ContinuousLinearMap.pi fun j : Fin U.length => form U[j] := by
        funext y j
        rw [ContinuousLinearMap.pi_apply, form_apply]
        rfl
      rw [this]
      exact ContinuousLinearMap.hasFDerivAt _
    have hV := eval_gradient (comb P 2 c) (coords U x)
    have hC := hV.comp x hA
    have e1 : objRed U ⟨orderBasis P 2, c⟩ = (fun y => MvPolynomial.eval y (comb P 2 c)) ∘ coords U :=
      funext fun y => valueAt_comb P hU 2 c hc _
    unfold IsGradient
    rw [e1]
    refine hC.congr_fderiv ?_
    ext z
    simp only [ContinuousLinearMap.comp_apply, _root_.sum_apply, _root_.smul_apply, ContinuousLinearMap.proj_apply, smul_eq_mul,
      ContinuousLinearMap.pi_apply, form_apply, jacRed, Finset.sum_mul, Finset.mul_sum]
    rw [Finset.sum_comm]
    refine Finset.sum_congr rfl fun i _ => Finset.sum_congr rfl fun j _ => ?_
    rw [gradAt_comb P hU 2 c hc]
    ring

/-! ### The hypotheses can be met -/

/-- One variable, exponents `0, 1, 2, …`; incumbent `0`, radius one: the derivative of `x² / 2` at `3` is `3`. -/
example : (∀ i, ({ cfgDemo with basis := fun k _ => k } : Cfg 1).basis 0 i = 0) ∧
    jac 3 (phiTRDeriv { cfgDemo with basis := fun k _ => k } stDemo []) (fun k => if k = 2 then 1 else 0) (fun _ => 3) = fun _ => 3 := by
  refine ⟨fun i => rfl, ?_⟩
  funext i
  simp [jac, dot, phiTRDeriv, delS, stDemo, List.range_succ, Nat.factorial, Subsingleton.elim (0 : Fin 1) i]
  norm_num

/-- Two variables and one direction. -/
example (st : St 2) (v : ℕ → ℝ) (x : Pt 2) :
    IsGradient (fun y => dot (redSize 1) v (phiRed 1 [![1, 2]] st [] y)) (jac (redSize 1) (phiRedDeriv 1 [![1, 2]] st []) v x) x :=
  c146_pivot_omorf 1 one_pos [![1, 2]] rfl st [] v x

example (st : St 2) : ∃ F, buildTR (fun A b n => (exists_lstsq A b n).choose) st [![0, 0], ![1, 2]] [3, 4] = .ok F ∧
    ∀ x : Pt 2, IsGradient (valueAt F) (gradAt F x) x :=
  c146_model (fun A b n => (exists_lstsq A b n).choose_spec) two_pos st _ _

example : ∃ F, buildRed (fun A b n => (exists_lstsq A b n).choose) [![1, 2]] [![0, 0], ![1, 2]] [3, 4] = .ok F ∧
    ∀ x, IsGradient (objRed [![1, 2]] F) (jacRed [![1, 2]] F x) x :=
  c146_model_omorf (fun A b n => (exists_lstsq A b n).choose_spec) [![1, 2]] (by simp) _ (by simp) _

end EQ.Opt
