import Verif.Poly.BoxFit
import Verif.Stats.ConvergeProps

/-!
# The units of the inputs: C181
-/

namespace EQ.Poly
open EQ.Basis EQ.Basis.Spec EQ.Param EQ.Sampling EQ.Sampling.Spec Polynomial

/-! ## Specification -/

/-- The recurrence coefficients of `Q` are those of `P` in the units `x' = a x + b`. -/
def SameLaw (s : ℝ × ℝ) (P Q : MParam) : Prop :=
  (∀ k, (Q.ab k).1 = s.1 * (P.ab k).1 + s.2) ∧ ∀ k, 1 ≤ k → (Q.ab k).2 = s.1 ^ 2 * (P.ab k).2

/-- One change of units for each input. -/
inductive Units : List (ℝ × ℝ) → List MParam → List MParam → Prop
  | nil : Units [] [] []
  | cons {s P Q ss Ps Qs} (pos : 0 < s.1) (same : SameLaw s P Q) (validP : Valid P) (validQ : Valid Q) (rest : Units ss Ps Qs) :
      Units (s :: ss) (P :: Ps) (Q :: Qs)

/-- A point in the new units. -/
def move (ss : List (ℝ × ℝ)) (x : List ℝ) : List ℝ := List.zipWith (fun s t => s.1 * t + s.2) ss x

/-! ## Lemmas -/

theorem units_length {ss Ps Qs} (h : Units ss Ps Qs) : Ps.length = ss.length ∧ Qs.length = ss.length := by
  induction h with
  | nil => exact ⟨rfl, rfl⟩
  | cons _ _ _ _ _ ih => simp [ih.1, ih.2]

theorem units_valid {ss Ps Qs} (h : Units ss Ps Qs) : (∀ P ∈ Ps, Valid P) ∧ ∀ Q ∈ Qs, Valid Q := by
  induction h with
  | nil => simp
  | cons _ _ hP hQ _ ih => exact ⟨by simpa using ⟨hP, ih.1⟩, by simpa using ⟨hQ, ih.2⟩⟩

theorem opoly_units {s : ℝ × ℝ} (hs : 0 < s.1) {P Q : MParam} (h : SameLaw s P Q) (n : ℕ) (x : ℝ) :
    (opoly Q.ab n).eval (s.1 * x + s.2) = (opoly P.ab n).eval x := by
  induction n using Nat.strong_induction_on with
  | _ n ih =>
    have hq : ∀ k, 1 ≤ k → √(Q.ab k).2 = s.1 * √(P.ab k).2 := fun k hk => by
      rw [h.2 k hk, Real.sqrt_mul (sq_nonneg _), Real.sqrt_sq hs.le]
    match n with
    | 0 => simp [opoly]
    | 1 =>
      simp only [opoly, eval_mul, eval_C, eval_sub, eval_X, hq 1 le_rfl, h.1, mul_inv]
      have := hs.ne'
      field_simp
      ring
    | n + 2 =>
      simp only [opoly, eval_mul, eval_C, eval_sub, eval_X, ih (n + 1) (by omega), ih n (by omega), hq (n + 2) (by omega), hq (n + 1) (by omega), h.1, mul_inv]
      have := hs.ne'
      field_simp
      ring

/-- The Gauss rules with two or more points correspond. -/
theorem rule_units {s : ℝ × ℝ} (hs : 0 < s.1) {P Q : MParam} (h : SameLaw s P Q) (hP : Valid P) (hQ : Valid Q) (o : ℕ) (ho : 1 ≤ o) :
    (Q.localRule o).pts = (P.localRule o).pts.map (fun t => s.1 * t + s.2) ∧ (Q.localRule o).wts = (P.localRule o).wts := by
  have hgP := gaussFacts P.ab o (fun k h1 _ => hP.pos k h1) _ _ (hP.eigh o)
  have hgQ := gaussFacts Q.ab o (fun k h1 _ => hQ.pos k h1) _ _ (hQ.eigh o)
  have hD : (fun k => s.1 * P.eigD o k + s.2) = Q.eigD o := by
    have h1 : StrictMono fun k => s.1 * P.eigD o k + s.2 := fun i j hij => by
      have := mul_lt_mul_of_pos_left (hgP.strict hij) hs
      simp only
      linarith
    refine (h1.range_inj hgQ.strict).1 ?_
    have hne : opoly Q.ab (o + 1) ≠ 0 := by
      intro h0
      have := (opoly_degree Q.ab (o + 1) fun k h1 _ => hQ.pos k h1).1
      rw [h0] at this
      simp at this
    have hcard : ∀ D : Fin (o + 1) → ℝ, StrictMono D → (∀ k, (opoly Q.ab (o + 1)).eval (D k) = 0) →
        Set.range D = ((opoly Q.ab (o + 1)).roots.toFinset : Set ℝ) := by
      intro D hmono hroot
      have hsub : Finset.univ.image D ⊆ (opoly Q.ab (o + 1)).roots.toFinset := by
        intro t ht
        obtain ⟨k, -, rfl⟩ := Finset.mem_image.1 ht
        rw [Multiset.mem_toFinset, mem_roots hne]
        exact hroot k
      have := Finset.eq_of_subset_of_card_le hsub (by
        rw [Finset.card_image_of_injective _ hmono.injective, Finset.card_univ, Fintype.card_fin]
        refine (Multiset.toFinset_card_le _).trans ((card_roots' _).trans ?_)
        exact ((opoly_degree Q.ab (o + 1) fun k h1 _ => hQ.pos k h1).1).le)
      rw [← this]
      simp
    rw [hcard _ h1 fun k => ?_, hcard _ hgQ.strict fun k => nodes_are_roots Q.ab o (fun k h1 _ => hQ.pos k h1) _ _ (hQ.eigh o) k]
    rw [opoly_units hs h]
    exact nodes_are_roots P.ab o (fun k h1 _ => hP.pos k h1) _ _ (hP.eigh o) k
  have hw : ∀ (R : MParam) (_ : Valid R), GaussFacts R.ab o (R.eigD o) (R.eigV o) → ∀ k,
      (R.eigV o 0 k) ^ 2 * ∑ i : Fin (o + 1), (opoly R.ab i).eval (R.eigD o k) ^ 2 = 1 := by
    intro R hR hg k
    rw [Finset.mul_sum]
    have hcol : (R.eigV o).transpose * R.eigV o = 1 := by
      have : R.eigV o * (R.eigV o).transpose = 1 := by
        ext i j
        rw [Matrix.mul_apply, Matrix.one_apply]
        exact hg.orthRows i j
      exact mul_eq_one_comm.1 this
    have := congrFun (congrFun hcol k) k
    rw [Matrix.mul_apply, Matrix.one_apply_eq] at this
    rw [← this]
    refine Finset.sum_congr rfl fun i _ => ?_
    rw [Matrix.transpose_apply, hg.entries k i]
    ring
  have hVV : ∀ k, (Q.eigV o 0 k) ^ 2 = (P.eigV o 0 k) ^ 2 := by
    intro k
    have h1 := hw P hP hgP k
    have h2 := hw Q hQ hgQ k
    have e : ∑ i : Fin (o + 1), (opoly Q.ab i).eval (Q.eigD o k) ^ 2 = ∑ i : Fin (o + 1), (opoly P.ab i).eval (P.eigD o k) ^ 2 :=
      Finset.sum_congr rfl fun i _ => by rw [← hD, opoly_units hs h]
    rw [e] at h2
    exact mul_right_cancel₀ (fun h0 => by rw [h0, mul_zero] at h1; exact zero_ne_one h1) (h2.trans h1.symm)
  have ho' : o ≠ 0 := by omega
  unfold MParam.localRule
  rw [if_neg ho', if_neg ho']
  simp only
  constructor
  · rw [List.map_ofFn]
    congr 1
    funext k
    rw [Function.comp_apply, (rule_eq Q.ab o (fun k h1 _ => hQ.pos k h1) _ _ (hQ.eigh o) _ (hQ.sort o) k).1,
      (rule_eq P.ab o (fun k h1 _ => hP.pos k h1) _ _ (hP.eigh o) _ (hP.sort o) k).1, ← hD]
  · congr 1
    funext k
    rw [(rule_eq Q.ab o (fun k h1 _ => hQ.pos k h1) _ _ (hQ.eigh o) _ (hQ.sort o) k).2,
      (rule_eq P.ab o (fun k h1 _ => hP.pos k h1) _ _ (hP.eigh o) _ (hP.sort o) k).2, hVV, hP.b0, hQ.b0]

theorem localRules_units {ss Ps Qs} (h : Units ss Ps Qs) (orders : List ℕ) (ho : ∀ o ∈ orders, 1 ≤ o) (hl : orders.length = ss.length) :
    (localRules Qs orders).map (fun r => r.pts.length) = (localRules Ps orders).map (fun r => r.pts.length) ∧
    ∀ idx : List ℕ, List.Forall₂ (· < ·) idx ((localRules Ps orders).map fun r => r.pts.length) →
      gridPoint (localRules Qs orders) idx = move ss (gridPoint (localRules Ps orders) idx) ∧
      gridWeight (localRules Qs orders) idx = gridWeight (localRules Ps orders) idx := by
  induction h generalizing orders with
  | nil =>
    refine ⟨by simp [localRules], fun idx _ => ⟨by simp [localRules, gridPoint, move], by simp [localRules, gridWeight]⟩⟩
  | @cons s P Q ss Ps Qs hs hsame hP hQ rest ih =>
    cases orders with
    | nil => simp at hl
    | cons o orders =>
      obtain ⟨i1, i2⟩ := ih orders (fun o' h' => ho o' (List.mem_cons_of_mem _ h')) (by simpa using hl)
      obtain ⟨r1, r2⟩ := rule_units hs hsame hP hQ o (ho o List.mem_cons_self)
      simp only [localRules] at i1 i2
      refine ⟨?_, fun idx hidx => ?_⟩
      · simp only [localRules, List.zipWith_cons_cons, List.map_cons, i1, r1, List.length_map]
      · simp only [localRules, List.zipWith_cons_cons, List.map_cons] at hidx ⊢
        cases hidx with
        | @cons i _ idx _ hi hrest =>
          obtain ⟨j1, j2⟩ := i2 idx hrest
          simp only [gridPoint, gridWeight, List.zipWith_cons_cons, List.prod_cons, move] at j1 j2 ⊢
          refine ⟨?_, by rw [j2, r2]⟩
          rw [j1, r1, getD_map_lt _ _ 0 i hi, getD_of_lt _ _ i hi]

theorem grid_units {ss Ps Qs} (h : Units ss Ps Qs) (orders : List ℕ) (ho : ∀ o ∈ orders, 1 ≤ o) (hl : orders.length = ss.length) (hne : ss ≠ []) :
    ∃ pts wts, tensorGrid (localRules Ps orders) = .ok (pts, wts) ∧ tensorGrid (localRules Qs orders) = .ok (pts.map (move ss), wts) := by
  obtain ⟨e1, e2⟩ := localRules_units h orders ho hl
  have hlen := units_length h
  have hP : localRules Ps orders ≠ [] := by
    intro h0
    have := localRules_length Ps orders (hl.trans hlen.1.symm)
    rw [h0] at this
    have := List.length_pos_iff.2 hne
    simp_all
  have hQ : localRules Qs orders ≠ [] := by
    intro h0
    rw [h0] at e1
    exact hP (List.map_eq_nil_iff.1 e1.symm)
  refine ⟨_, _, tensorGrid_eq _ hP (localRules_len_eq Ps orders), ?_⟩
  rw [tensorGrid_eq _ hQ (localRules_len_eq Qs orders), e1, List.map_map]
  congr 2
  · exact List.map_congr_left fun idx hidx => (e2 idx ((mem_ixs _ _).1 hidx)).1
  · exact List.map_congr_left fun idx hidx => (e2 idx ((mem_ixs _ _).1 hidx)).2

theorem move_getD {ss Ps Qs} (h : Units ss Ps Qs) (x : List ℝ) (hx : x.length = ss.length) (k : ℕ) (hk : k < ss.length) (N n : ℕ) (hn : n < N) :
    (orthoTables ((Qs.map MParam.ab).getD k fun _ => (0, 0)) N ((move ss x).getD k 0)).poly n =
      (orthoTables ((Ps.map MParam.ab).getD k fun _ => (0, 0)) N (x.getD k 0)).poly n := by
  rw [(orthoTables_eq _ _ _ _ hn).1, (orthoTables_eq _ _ _ _ hn).1]
  induction h generalizing x k with
  | nil => simp at hk
  | @cons s P Q ss Ps Qs hs hsame hP hQ rest ih =>
    cases x with
    | nil => simp at hx
    | cons t x =>
      cases k with
      | zero => simpa [move] using opoly_units hs hsame n t
      | succ k => simpa [move] using ih x (by simpa using hx) k (by simpa using hk)

theorem multiPoly_units {ss Ps Qs} (h : Units ss Ps Qs) (basis : List (List ℕ)) (pts : List (List ℝ)) (hp : ∀ x ∈ pts, x.length = ss.length) (hne : ss ≠ []) :
    multiPoly Qs basis ss.length (pts.map (move ss)) = multiPoly Ps basis ss.length pts := by
  have hpos : 0 < ss.length := List.length_pos_iff.2 hne
  unfold multiPoly
  simp only [List.map_map]
  split_ifs with h1
  · refine List.map_congr_left fun n hn => List.map_congr_left fun x hx => ?_
    exact move_getD h x (hp x hx) 0 hpos _ n (by simpa using hn)
  · refine List.map_congr_left fun row hrow => List.map_congr_left fun x hx => ?_
    rw [Function.comp_apply]
    refine List.foldl_ext _ _ _ fun acc k hk => ?_
    rw [move_getD h x (hp x hx) k (by simpa using hk) _ _ (Nat.lt_succ_of_le (le_colMax basis k row hrow))]

/-! ## Properties -/

/-- **C181.** If the inputs are measured in other units (`x' = a x + b`, `a > 0`, for each input its own), and every parameter follows, then the basis functions take the same values
at corresponding points; so the fit for given coefficients takes the same values, and the conditions that define numerical integration and least squares for given
points, weights and outputs are the same. -/
theorem c181_values {ss Ps Qs} (h : Units ss Ps Qs) (hne : ss ≠ []) (els : List (List ℕ)) (R : Option (List (List ℝ))) (pts : List (List ℝ))
    (hp : ∀ x ∈ pts, x.length = ss.length) :
    (Expansion.mk Qs els R).getPoly none (pts.map (move ss)) = (Expansion.mk Ps els R).getPoly none pts ∧
    (∀ c, (Expansion.mk Qs els R).polyfit c (pts.map (move ss)) = (Expansion.mk Ps els R).polyfit c pts) ∧
    ∀ wts ys, (Expansion.mk Qs els R).integrate (pts.map (move ss)) wts ys = (Expansion.mk Ps els R).integrate pts wts ys := by
  have hl := units_length h
  have key : (Expansion.mk Qs els R).getPoly none (pts.map (move ss)) = (Expansion.mk Ps els R).getPoly none pts := by
    have hm := multiPoly_units h els pts hp hne
    unfold Expansion.getPoly Expansion.dims
    simp only [hl.1, hl.2, Option.getD_none, List.length_map]
    split_ifs with h1 h2
    · rfl
    · rw [h2] at hm; rw [hm]
    · rw [hm]
  refine ⟨key, fun c => ?_, fun wts ys => ?_⟩
  · unfold Expansion.polyfit
    rw [key, List.length_map]
  · unfold Expansion.integrate
    rw [key]

/-- **C181.** The mesh of numerical integration in the new units is the old mesh in the new units, with the same weights; so a model written in the new units gets the same coefficients –
and with them the same mean, variance and Sobol' indices – and a polynomial with the same values at corresponding points. (Orders of at least one: see `c181_constant_violated`.) -/
theorem c181_mesh_partial {ss Ps Qs} (h : Units ss Ps Qs) (hne : ss ≠ []) (els : List (List ℕ)) (orders : List ℕ) (ho : ∀ o ∈ orders, 1 ≤ o)
    (hl : orders.length = ss.length) :
    ∃ pts wts, tensorGrid (localRules Ps orders) = .ok (pts, wts) ∧ tensorGrid (localRules Qs orders) = .ok (pts.map (move ss), wts) ∧
      ∀ f f' : List ℝ → ℝ, (∀ x, x.length = ss.length → f' (move ss x) = f x) →
        (Expansion.mk Qs els none).integrate (pts.map (move ss)) wts ((pts.map (move ss)).map f') = (Expansion.mk Ps els none).integrate pts wts (pts.map f) ∧
        ∀ c x, x.length = ss.length → (Expansion.mk Qs els none).polyfit c [move ss x] = (Expansion.mk Ps els none).polyfit c [x] := by
  obtain ⟨pts, wts, h1, h2⟩ := grid_units h orders ho hl hne
  have hlen := units_length h
  have hpl : ∀ x ∈ pts, x.length = ss.length := by
    obtain ⟨pts', wts', h3, -, -, -, -, -, h4⟩ := c21_parameters Ps (by intro h0; rw [h0] at hlen; exact hne (List.length_eq_zero_iff.1 hlen.1.symm))
      (units_valid h).1 orders (hl.trans hlen.1.symm)
    rw [h1] at h3
    injection h3 with h3
    injection h3 with h3 h5
    subst h3
    intro x hx
    rw [h4 x hx, hlen.1]
  refine ⟨pts, wts, h1, h2, fun f f' hf => ⟨?_, fun c x hx => ?_⟩⟩
  · rw [(c181_values h hne els none pts hpl).2.2, List.map_map]
    congr 1
    exact List.map_congr_left fun x hx => hf x (hpl x hx)
  · exact (c181_values h hne els none [x] (by simpa using hx)).2.1 c

/-- **C181.** Uniform, beta and Chebyshev parameters with the same shapes on `[l, u]` and on `[a l + b, a u + b]` are related in this way. -/
theorem c181_beta (a b A B l u : ℝ) (P Q : MParam) (hP : EQ.Stats.BetaInput P A B l u) (hQ : EQ.Stats.BetaInput Q A B (a * l + b) (a * u + b)) :
    SameLaw (a, b) P Q := by
  refine ⟨fun k => ?_, fun k hk => ?_⟩
  · rw [hP.recurrence, hQ.recurrence]
    simp only [jtab, jacobiRow]
    split_ifs <;> ring
  · rw [hP.recurrence, hQ.recurrence]
    simp only [jtab, jacobiRow, if_neg (show k ≠ 0 by omega)]
    split_ifs <;> ring

/-- **C181 fails for an input of order zero.** Beta parameters of unequal shapes (`m` is the mean the code sets, that of the law on `[0, 1]`), on `[0, 1]` and moved by `b`: the one point
of the mesh does not move with the units. -/
theorem c181_constant_violated (P Q : MParam) (A B b : ℝ) (hA : 0 < A) (hB : 0 < B) (hAB : A ≠ B) (hb : b ≠ 0) (hb1 : b ≠ -1)
    (hP : P.lower = some 0 ∧ P.upper = some 1 ∧ P.mean = A / (A + B)) (hQ : Q.lower = some b ∧ Q.upper = some (1 + b) ∧ Q.mean = A / (A + B)) :
    (Q.localRule 0).pts ≠ (P.localRule 0).pts.map fun t => 1 * t + b := by
  have h1 : 1 + b ≠ 0 := fun h => hb1 (by linarith)
  have hs : A + B ≠ 0 := by positivity
  unfold MParam.localRule
  rw [if_pos rfl, if_pos rfl]
  simp only [onePointRule, hP, hQ, falsy, decide_true, true_or, if_true, hb, h1, decide_false, Bool.false_eq_true, or_self, if_false, List.map_cons, List.map_nil]
  intro h
  simp only [List.cons.injEq, and_true] at h
  norm_num at h
  have h2 : (1 : ℝ) / 2 = A / (A + B) := by linarith
  rw [div_eq_div_iff (by norm_num) hs] at h2
  exact hAB (by linarith)

/-- The hypotheses are met: one input in degrees Celsius between 0 and 100 and in degrees Fahrenheit, another in metres and in centimetres. -/
theorem units_demo : ∃ P P' Q Q' : MParam, Units [(9 / 5, 32), (100, 0)] [P, P'] [Q, Q'] := by
  have ex : ∀ l u : ℝ, l < u → ∃ P, EQ.Stats.BetaInput P 1 1 l u := fun l u h => by
    obtain ⟨P, hv, hab, -⟩ := exists_valid (jtab (1 - 1) (1 - 1) l u) (by norm_num [jtab, jacobiRow])
      (fun k hk => beta_tab_pos one_pos one_pos h k hk) (some l) (some u) ((l + u) / 2)
    exact ⟨P, hv, one_pos, one_pos, h, hab⟩
  obtain ⟨P, hP⟩ := ex 0 100 (by norm_num)
  obtain ⟨P', hP'⟩ := ex 1 2 (by norm_num)
  obtain ⟨Q, hQ⟩ := ex (9 / 5 * 0 + 32) (9 / 5 * 100 + 32) (by norm_num)
  obtain ⟨Q', hQ'⟩ := ex (100 * 1 + 0) (100 * 2 + 0) (by norm_num)
  exact ⟨P, P', Q, Q', .cons (by norm_num) (c181_beta _ _ 1 1 0 100 P Q hP hQ) hP.valid hQ.valid
    (.cons (by norm_num) (c181_beta _ _ 1 1 1 2 P' Q' hP' hQ') hP'.valid hQ'.valid .nil)⟩

end EQ.Poly
