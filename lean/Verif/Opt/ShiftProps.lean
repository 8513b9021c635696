import Verif.Opt.Interp

/-!
# A constant added to the objective (C187)
-/

namespace EQ.Opt
open EQ.Basis EQ.Poly EQ.Sub

variable {n : ℕ}

/-! ## Specification -/

/-- A state whose values are raised by `e`. -/
def St.shift (e : ℝ) (s : St n) : St n := { s with f := s.f.map (· + e), fOld := s.fOld + e }

/-- A model raised by `e`. -/
def Step.shift (e : ℝ) (m : Step n) : Step n := ⟨m.atOld + e, m.sNew, m.mNew + e⟩

/-- The outside calls do not mind a constant: raising the values raises the model and keeps its minimiser; new points and random
directions do not depend on the values. -/
structure EnvShift (env : Env n) (e : ℝ) : Prop where
  build : ∀ s S f, S.length = f.length → env.build (s.shift e) S (f.map (· + e)) = (env.build s S f).map (Step.shift e)
  newPoint : ∀ s φ v, env.newPoint (s.shift e) φ v = env.newPoint s φ v
  randDirs : ∀ s, env.randDirs (s.shift e) = env.randDirs s

/-! ## Proofs -/

theorem argmin_shift (e : ℝ) : ∀ l : List ℝ, argmin (l.map (· + e)) = argmin l
  | [] => rfl
  | [a] => rfl
  | a :: b :: l => by
    have ih := argmin_shift e (b :: l)
    have hlt := (argmin_spec (b :: l) (by simp)).1
    simp only [List.map_cons] at ih ⊢
    rw [argmin, argmin, ih]
    rw [show ((b + e) :: l.map (· + e)) = (b :: l).map (· + e) from rfl, getD_map' (· + e) (b :: l) _ 0 0 hlt]
    by_cases h : a ≤ (b :: l).getD (argmin (b :: l)) 0
    · rw [if_pos h, if_pos (by linarith)]
    · rw [if_neg h, if_neg (by linarith [not_le.1 h])]

theorem getD_shift (e : ℝ) (l : List ℝ) (i : ℕ) (d : ℝ) : (l.map (· + e)).getD i (d + e) = l.getD i d + e := by
  rw [List.getD_eq_getElem?_getD, List.getD_eq_getElem?_getD, List.getElem?_map]
  cases l[i]? <;> rfl

theorem updateBounds_shift (cfg : Cfg n) (e : ℝ) (s : St n) : updateBounds cfg (s.shift e) = (updateBounds cfg s).shift e := by
  unfold updateBounds
  split <;> [split_ifs; skip] <;> rfl

theorem setDel_shift (cfg : Cfg n) (e v : ℝ) (s : St n) : setDel cfg v (s.shift e) = (setDel cfg v s).shift e :=
  updateBounds_shift cfg e { s with del := v }

theorem setIterate_shift (cfg : Cfg n) (e : ℝ) (s : St n) : setIterate cfg (s.shift e) = (setIterate cfg s).shift e := by
  unfold setIterate
  rw [← updateBounds_shift]
  congr 1
  simp only [St.shift, argmin_shift, getD_shift]

/-- As many values as points. -/
def OkS (s : St n) : Prop := s.S.length = s.f.length

/-- As many values as points, also in the sample set. -/
def OkR (r : Run n) : Prop := OkS r.st ∧ r.S.length = r.f.length

theorem okS_updateBounds (cfg : Cfg n) (s : St n) (h : OkS s) : OkS (updateBounds cfg s) := by simpa [OkS] using h

theorem blackbox_shift (cfg : Cfg n) (obj : Pt n → ℝ) (e : ℝ) (s : St n) (h : OkS s) (x : Pt n) :
    blackbox cfg (fun y => obj y + e) (s.shift e) x = ((blackbox cfg obj s x).1.shift e, (blackbox cfg obj s x).2 + e) ∧
    OkS (blackbox cfg obj s x).1 := by
  have h : s.S.length = s.f.length := h
  unfold blackbox
  rw [show (s.shift e).S = s.S from rfl]
  by_cases hc : s.S.length > 0 ∧ (s.S ++ [x]).dedup.length = s.S.length
  · rw [if_pos hc, if_pos hc]
    have hlt : argmin (s.S.map fun y => normInf fun i => y i - x i) < s.f.length := by
      have := (argmin_spec (s.S.map fun y => normInf fun i => y i - x i) (by
        intro h0; rw [List.map_eq_nil_iff] at h0; rw [h0] at hc; exact absurd hc.1 (by simp))).1
      rw [List.length_map, h] at this
      exact this
    refine ⟨?_, h⟩
    simp only [St.shift]
    rw [getD_map' (· + e) s.f _ 0 0 hlt]
  · rw [if_neg hc, if_neg hc]
    refine ⟨?_, by simp [OkS, h]⟩
    simp [St.shift]

theorem generateSet_shift (cfg : Cfg n) (env : Env n) (e : ℝ) (he : EnvShift env e) (s : St n) (num : ℕ) :
    generateSet cfg env (s.shift e) num = generateSet cfg env s num := by
  unfold generateSet
  rw [he.randDirs]
  rfl

theorem choosePoint_shift (cfg : Cfg n) (env : Env n) (e : ℝ) (he : EnvShift env e) (s : St n) (q : ℕ) (φ : Pt n → ℕ → ℝ)
    (v : ℕ → ℝ) (S : List (Pt n)) : choosePoint cfg env (s.shift e) q φ v S = choosePoint cfg env s q φ v S := by
  unfold choosePoint altPoint
  rw [he.newPoint, generateSet_shift cfg env e he]
  rfl

/-- The variables of the loop with the values raised. -/
def LU.shift (e : ℝ) (a : LU n) : LU n := ⟨a.st.shift e, a.S, a.f.map (· + e), a.hatS, a.hatF.map (· + e), a.U⟩

/-- As many values as points. -/
def OkL (a : LU n) : Prop := OkS a.st ∧ a.S.length = a.f.length ∧ a.hatS.length = a.hatF.length

theorem luPick_shift (q : ℕ) (φ : Pt n → ℕ → ℝ) (e : ℝ) (a : LU n) (h : OkL a) (k index : ℕ) (hi : index < a.hatF.length) :
    luPick q φ (a.shift e) k index = (luPick q φ a k index).shift e ∧ OkL (luPick q φ a k index) := by
  obtain ⟨h1, h2, h3⟩ := h
  refine ⟨?_, h1, by simp [luPick, h2], ?_⟩
  · simp only [luPick, LU.shift]
    rw [getD_map' (· + e) a.hatF index 0 0 hi, map_eraseIdx']
    simp [St.shift]
  · simp only [luPick]
    rw [List.length_eraseIdx, List.length_eraseIdx, h3]

theorem luStep_shift (cfg : Cfg n) (env : Env n) (obj : Pt n → ℝ) (e : ℝ) (he : EnvShift env e) (method : LUMethod) (psi2 : ℝ)
    (q : ℕ) (φ : Pt n → ℕ → ℝ) (a : LU n) (h : OkL a) (k : ℕ) :
    luStep cfg env (fun y => obj y + e) method psi2 q φ (a.shift e) k = (luStep cfg env obj method psi2 q φ a k).shift e ∧
    OkL (luStep cfg env obj method psi2 q φ a k) := by
  have hidx : a.hatF.length > 0 → argmax (a.hatS.map fun x => |dot q (luV a.U k) (φ x)|) < a.hatF.length := by
    intro hpos
    have := argmax_lt (a.hatS.map fun x => |dot q (luV a.U k) (φ x)|) (by
      intro h0; rw [List.map_eq_nil_iff] at h0; rw [← h.2.2, h0] at hpos; exact absurd hpos (by simp))
    rw [List.length_map, h.2.2] at this
    exact this
  have hfl : ∀ b, luFlag method psi2 q k (a.hatF.map (· + e)) b = luFlag method psi2 q k a.hatF b := by
    intro b; unfold luFlag; rw [List.length_map]
  unfold luStep
  simp only [show (a.shift e).U = a.U from rfl, show (a.shift e).hatS = a.hatS from rfl, show (a.shift e).S = a.S from rfl,
    show (a.shift e).st = a.st.shift e from rfl, show (a.shift e).hatF = a.hatF.map (· + e) from rfl, hfl,
    choosePoint_shift cfg env e he, List.length_map]
  generalize (a.hatS.map fun x => |dot q (luV a.U k) (φ x)|) = M at hidx
  generalize choosePoint cfg env a.st q φ (luV a.U k) a.S = x
  by_cases hf : luFlag method psi2 q k a.hatF (M.getD (argmax M) 0) = true
  · rw [if_pos hf, if_pos hf]
    refine luPick_shift q φ e a h k _ (hidx ?_)
    by_contra hcon
    unfold luFlag at hf
    rw [if_neg hcon] at hf
    exact absurd hf (by simp)
  · rw [if_neg hf, if_neg hf]
    by_cases hc : a.hatF.length > 0 ∧ M.getD (argmax M) 0 ≥ |dot q (luV a.U k) (φ x)|
    · rw [if_pos hc, if_pos hc]
      exact luPick_shift q φ e a h k _ (hidx hc.1)
    · rw [if_neg hc, if_neg hc]
      obtain ⟨b1, b2⟩ := blackbox_shift cfg obj e a.st h.1 x
      rw [b1]
      refine ⟨by simp [LU.shift], b2, by simp [h.2.1], h.2.2⟩

theorem luPivot_shift (cfg : Cfg n) (env : Env n) (obj : Pt n → ℝ) (e : ℝ) (he : EnvShift env e) (method : LUMethod) (psi2 : ℝ)
    (q : ℕ) (φ : Pt n → ℕ → ℝ) (st : St n) (hst : OkS st) (hatS : List (Pt n)) (hatF : List ℝ) (hl : hatS.length = hatF.length) :
    luPivot cfg env (fun y => obj y + e) method psi2 q φ (st.shift e) hatS (hatF.map (· + e)) =
      (luPivot cfg env obj method psi2 q φ st hatS hatF).shift e ∧ OkL (luPivot cfg env obj method psi2 q φ st hatS hatF) := by
  unfold luPivot
  have key : ∀ (l : List ℕ) (a : LU n), OkL a →
      l.foldl (luStep cfg env (fun y => obj y + e) method psi2 q φ) (a.shift e) =
        (l.foldl (luStep cfg env obj method psi2 q φ) a).shift e ∧ OkL (l.foldl (luStep cfg env obj method psi2 q φ) a) := by
    intro l
    induction l with
    | nil => intro a h; exact ⟨rfl, h⟩
    | cons k l ih =>
      intro a h
      obtain ⟨h1, h2⟩ := luStep_shift cfg env obj e he method psi2 q φ a h k
      rw [List.foldl_cons, List.foldl_cons, h1]
      exact ih _ h2
  exact key (List.range' 1 (q - 1)) ⟨st, [st.sOld], [st.fOld], hatS, hatF, [φ st.sOld]⟩ ⟨hst, rfl, hl⟩

theorem removeFurthest_shift (e : ℝ) (st : St n) (r : List (Pt n) × List ℝ) (h : r.1.length = r.2.length) :
    removeFurthest (st.shift e) (r.1, r.2.map (· + e)) = ((removeFurthest st r).1, (removeFurthest st r).2.map (· + e)) ∧
    (removeFurthest st r).1.length = (removeFurthest st r).2.length := by
  unfold removeFurthest
  refine ⟨?_, by simp only; rw [List.length_eraseIdx, List.length_eraseIdx, h]⟩
  simp only [map_eraseIdx']
  rfl

theorem removePoint_shift (e : ℝ) (st : St n) (r : List (Pt n) × List ℝ) :
    removePoint (st.shift e) (r.1, r.2.map (· + e)) = ((removePoint st r).1, (removePoint st r).2.map (· + e)) ∧
    (removePoint st r).1.length = (removePoint st r).2.length := by
  unfold removePoint
  refine ⟨?_, by simp⟩
  simp only [List.zip_map_right, List.filter_map, List.map_map]
  rfl

theorem uniqueRows_shift (e : ℝ) (r : List (Pt n) × List ℝ) (h : r.1.length = r.2.length) :
    uniqueRows (r.1, r.2.map (· + e)) = ((uniqueRows r).1, (uniqueRows r).2.map (· + e)) ∧
    (uniqueRows r).1.length = (uniqueRows r).2.length := by
  unfold uniqueRows
  refine ⟨?_, by simp⟩
  simp only
  set first := (List.range r.1.length).filter fun i =>
    (List.range i).all fun j => r.1.getD j default ≠ r.1.getD i default with hfirst
  have hrows : (first.map fun i => (r.1.getD i default, (r.2.map (· + e)).getD i 0)) =
      (first.map fun i => (r.1.getD i default, r.2.getD i 0)).map fun a => (a.1, a.2 + e) := by
    rw [List.map_map]
    refine List.map_congr_left fun i hi => ?_
    have hlt : i < r.2.length := by
      have := List.mem_range.1 (List.mem_filter.1 hi).1
      rw [h] at this
      exact this
    simp only [Function.comp_apply]
    rw [getD_map' (· + e) r.2 i 0 0 hlt]
  rw [hrows, ← List.map_mergeSort (r := fun a b : Pt n × ℝ => decide (toLex a.1 ≤ toLex b.1)) (by intros; rfl), List.map_map,
    List.map_map, List.map_map]
  rfl

/-- A run with the values raised. -/
def Run.shift (e : ℝ) (r : Run n) : Run n := ⟨r.st.shift e, r.S, r.f.map (· + e)⟩

theorem lu_shift (cfg : Cfg n) (env : Env n) (obj : Pt n → ℝ) (e : ℝ) (he : EnvShift env e) (method : LUMethod)
    (st : St n) (hst : OkS st) (hat : List (Pt n) × List ℝ) (hl : hat.1.length = hat.2.length) :
    let a := luPivot cfg env (fun y => obj y + e) method (1/4) (setSize n) (phiTR cfg (st.shift e) hat.1) (st.shift e) hat.1
      (hat.2.map (· + e))
    let b := luPivot cfg env obj method (1/4) (setSize n) (phiTR cfg st hat.1) st hat.1 hat.2
    (⟨a.st, a.S, a.f⟩ : Run n) = Run.shift e ⟨b.st, b.S, b.f⟩ ∧ OkR ⟨b.st, b.S, b.f⟩ := by
  obtain ⟨h1, h2⟩ := luPivot_shift cfg env obj e he method (1/4) (setSize n) (phiTR cfg st hat.1) st hst hat.1 hat.2 hl
  intro a b
  have ha : a = b.shift e := h1
  rw [ha]
  exact ⟨rfl, h2.1, h2.2.1⟩

theorem improveSet_shift (cfg : Cfg n) (env : Env n) (obj : Pt n → ℝ) (e : ℝ) (he : EnvShift env e) (r : Run n) (h : OkR r) :
    improveSet cfg env (fun y => obj y + e) (r.shift e) = (improveSet cfg env obj r).shift e ∧ OkR (improveSet cfg env obj r) := by
  unfold improveSet
  simp only [show (r.shift e).S = r.S from rfl, show (r.shift e).f = r.f.map (· + e) from rfl,
    show (r.shift e).st = r.st.shift e from rfl, show spread (r.st.shift e) r.S = spread r.st r.S from rfl,
    show limit cfg (r.st.shift e) = limit cfg r.st from rfl]
  by_cases hs : spread r.st r.S > limit cfg r.st
  · rw [if_pos hs, if_pos hs, (removeFurthest_shift e r.st (r.S, r.f) h.2).1, (removePoint_shift e r.st (removeFurthest r.st (r.S, r.f))).1]
    exact lu_shift cfg env obj e he .improve r.st h.1 _ (removePoint_shift e r.st (removeFurthest r.st (r.S, r.f))).2
  · rw [if_neg hs, if_neg hs, (removePoint_shift e r.st (r.S, r.f)).1]
    exact lu_shift cfg env obj e he .improve r.st h.1 _ (removePoint_shift e r.st (r.S, r.f)).2

theorem replaceSet_shift (cfg : Cfg n) (env : Env n) (obj : Pt n → ℝ) (e : ℝ) (he : EnvShift env e) (r : Run n) (h : OkR r)
    (x : Pt n) (v : ℝ) :
    replaceSet cfg env (fun y => obj y + e) (r.shift e) x (v + e) = (replaceSet cfg env obj r x v).shift e ∧
    OkR (replaceSet cfg env obj r x v) := by
  have hl : (r.S ++ [x]).length = (r.f ++ [v]).length := by simp [h.2]
  unfold replaceSet
  simp only [show (r.shift e).S = r.S from rfl, show (r.shift e).f = r.f.map (· + e) from rfl,
    show (r.shift e).st = r.st.shift e from rfl, show spread (r.st.shift e) (r.S ++ [x]) = spread r.st (r.S ++ [x]) from rfl,
    show limit cfg (r.st.shift e) = limit cfg r.st from rfl]
  rw [show r.f.map (· + e) ++ [v + e] = (r.f ++ [v]).map (· + e) by simp, List.length_map]
  by_cases h1 : (r.S ++ [x]).dedup.length ≠ (r.S ++ [x]).length
  · rw [if_pos h1, if_pos h1, (uniqueRows_shift e (r.S ++ [x], r.f ++ [v]) hl).1, (removePoint_shift e r.st (uniqueRows (r.S ++ [x], r.f ++ [v]))).1]
    exact lu_shift cfg env obj e he .replace r.st h.1 _ (removePoint_shift e r.st (uniqueRows (r.S ++ [x], r.f ++ [v]))).2
  · rw [if_neg h1, if_neg h1]
    by_cases h2 : (r.f ++ [v]).length > setSize n ∧ spread r.st (r.S ++ [x]) > limit cfg r.st
    · rw [if_pos h2, if_pos h2, (removeFurthest_shift e r.st (r.S ++ [x], r.f ++ [v]) hl).1,
        (removePoint_shift e r.st (removeFurthest r.st (r.S ++ [x], r.f ++ [v]))).1]
      exact lu_shift cfg env obj e he .replace r.st h.1 _ (removePoint_shift e r.st (removeFurthest r.st (r.S ++ [x], r.f ++ [v]))).2
    · rw [if_neg h2, if_neg h2, (removePoint_shift e r.st (r.S ++ [x], r.f ++ [v])).1]
      exact lu_shift cfg env obj e he .replace r.st h.1 _ (removePoint_shift e r.st (r.S ++ [x], r.f ++ [v])).2

theorem okS_setDel (cfg : Cfg n) (v : ℝ) (s : St n) (h : OkS s) : OkS (setDel cfg v s) := okS_updateBounds cfg _ h

theorem okS_setIterate (cfg : Cfg n) (s : St n) (h : OkS s) : OkS (setIterate cfg s) := okS_updateBounds cfg _ h

theorem updateGeometry_shift (cfg : Cfg n) (env : Env n) (obj : Pt n → ℝ) (e : ℝ) (he : EnvShift env e) (r : Run n) (h : OkR r) :
    updateGeometry cfg env (fun y => obj y + e) (r.shift e) = (updateGeometry cfg env obj r).shift e ∧
    OkR (updateGeometry cfg env obj r) := by
  unfold updateGeometry
  simp only [show (r.shift e).S = r.S from rfl, show (r.shift e).st = r.st.shift e from rfl,
    show spread (r.st.shift e) r.S = spread r.st r.S from rfl, show limit cfg (r.st.shift e) = limit cfg r.st from rfl,
    show (r.st.shift e).del = r.st.del from rfl, show (r.st.shift e).rho = r.st.rho from rfl, setDel_shift]
  by_cases h1 : spread r.st r.S > limit cfg r.st
  · rw [if_pos h1, if_pos h1]
    exact improveSet_shift cfg env obj e he r h
  · rw [if_neg h1, if_neg h1]
    by_cases h2 : r.st.del = r.st.rho
    · rw [if_pos h2, if_pos h2]
      have hok := okS_setDel cfg (cfg.alpha2 * r.st.rho) r.st h.1
      generalize setDel cfg (cfg.alpha2 * r.st.rho) r.st = st at hok
      simp only [show (st.shift e).count = st.count from rfl, show (st.shift e).ratio = st.ratio from rfl]
      by_cases h3 : st.count ≥ 3 ∧ st.ratio < 0
      · rw [if_pos h3, if_pos h3]
        exact ⟨rfl, hok, h.2⟩
      · rw [if_neg h3, if_neg h3]
        exact ⟨rfl, hok, h.2⟩
    · rw [if_neg h2, if_neg h2]
      exact ⟨rfl, h⟩

theorem settle_shift (cfg : Cfg n) (env : Env n) (obj : Pt n → ℝ) (e : ℝ) (he : EnvShift env e) (r : Run n) (h : OkR r)
    (fNew delM stepDist : ℝ) :
    settle cfg env (fun y => obj y + e) (r.shift e) (fNew + e) delM stepDist = (settle cfg env obj r fNew delM stepDist).shift e ∧
    OkR (settle cfg env obj r fNew delM stepDist) := by
  unfold settle
  have e1 : setIterate cfg { (r.shift e).st with ratio := ratioOf ((r.shift e).st.fOld - (fNew + e)) delM } =
      (setIterate cfg { r.st with ratio := ratioOf (r.st.fOld - fNew) delM }).shift e := by
    rw [← setIterate_shift]
    congr 1
    simp only [Run.shift, St.shift]
    congr 2
    ring
  simp only [e1]
  have hok : OkS (setIterate cfg { r.st with ratio := ratioOf (r.st.fOld - fNew) delM }) := okS_setIterate cfg _ h.1
  generalize setIterate cfg { r.st with ratio := ratioOf (r.st.fOld - fNew) delM } = st at hok
  simp only [show (st.shift e).ratio = st.ratio from rfl]
  by_cases h1 : st.ratio ≥ cfg.eta2
  · rw [if_pos h1, if_pos h1]
    refine ⟨?_, okS_setDel cfg _ { st with count := 0 } hok, h.2⟩
    simp only [Run.shift]
    rw [← setDel_shift]
    rfl
  · rw [if_neg h1, if_neg h1]
    by_cases h2 : st.ratio ≥ cfg.eta1
    · rw [if_pos h2, if_pos h2]
      refine ⟨?_, okS_setDel cfg _ { st with count := 0 } hok, h.2⟩
      simp only [Run.shift]
      rw [← setDel_shift]
      rfl
    · rw [if_neg h2, if_neg h2]
      have := updateGeometry_shift cfg env obj e he
        ⟨setDel cfg (max (min (cfg.gamDec * st.del) stepDist) st.rho) { st with count := st.count + 1 }, r.S, r.f⟩
        ⟨okS_setDel cfg _ { st with count := st.count + 1 } hok, h.2⟩
      refine ⟨?_, this.2⟩
      rw [← this.1]
      congr 1
      simp only [Run.shift]
      rw [← setDel_shift]
      rfl

theorem iter_shift (cfg : Cfg n) (env : Env n) (obj : Pt n → ℝ) (e : ℝ) (he : EnvShift env e) (r : Run n) (h : OkR r) :
    iter cfg env (fun y => obj y + e) (r.shift e) = ((iter cfg env obj r).1.shift e, (iter cfg env obj r).2) ∧
    OkR (iter cfg env obj r).1 := by
  unfold iter
  simp only [show (r.shift e).S = r.S from rfl, show (r.shift e).f = r.f.map (· + e) from rfl,
    show (r.shift e).st = r.st.shift e from rfl, show (r.st.shift e).evals = r.st.evals from rfl,
    show (r.st.shift e).rho = r.st.rho from rfl, he.build r.st r.S r.f h.2, show (r.st.shift e).sOld = r.st.sOld from rfl]
  by_cases h0 : r.st.evals ≥ cfg.maxEvals ∨ r.st.rho ≤ cfg.rhoMin
  · rw [if_pos h0, if_pos h0]
    exact ⟨rfl, h⟩
  · rw [if_neg h0, if_neg h0]
    cases env.build r.st r.S r.f with
    | none =>
      obtain ⟨a1, a2⟩ := improveSet_shift cfg env obj e he r h
      exact ⟨by simp only [Option.map_none]; rw [a1], a2⟩
    | some m =>
      simp only [Option.map_some, Step.shift]
      by_cases h1 : (normInf fun i => m.sNew i - r.st.sOld i) < cfg.omegaS * r.st.rho
      · rw [if_pos h1, if_pos h1]
        obtain ⟨a1, a2⟩ := updateGeometry_shift cfg env obj e he
          ⟨setDel cfg (max (cfg.gamDec * r.st.del) r.st.rho) { r.st with ratio := -1/10, count := 3 }, r.S, r.f⟩
          ⟨okS_setDel cfg _ { r.st with ratio := -1/10, count := 3 } h.1, h.2⟩
        refine ⟨?_, a2⟩
        rw [← a1]
        simp only [Prod.mk.injEq, and_true]
        congr 1
        simp only [Run.shift]
        rw [← setDel_shift]
        rfl
      · rw [if_neg h1, if_neg h1]
        obtain ⟨b1, b2⟩ := blackbox_shift cfg obj e r.st h.1 m.sNew
        rw [b1]
        generalize blackbox cfg obj r.st m.sNew = b at b2
        simp only [show (b.1.shift e).evals = b.1.evals from rfl, show (b.1.shift e).rho = b.1.rho from rfl]
        by_cases h2 : b.1.evals ≥ cfg.maxEvals ∨ b.1.rho ≤ cfg.rhoMin
        · rw [if_pos h2, if_pos h2]
          exact ⟨rfl, b2, h.2⟩
        · rw [if_neg h2, if_neg h2]
          obtain ⟨c1, c2⟩ := replaceSet_shift cfg env obj e he ⟨b.1, r.S, r.f⟩ ⟨b2, h.2⟩ m.sNew b.2
          obtain ⟨d1, d2⟩ := settle_shift cfg env obj e he _ c2 b.2 (m.atOld - m.mNew) (normInf fun i => m.sNew i - r.st.sOld i)
          refine ⟨?_, d2⟩
          rw [← d1, ← c1, show m.atOld + e - (m.mNew + e) = m.atOld - m.mNew by ring]
          rfl

theorem loop_shift (cfg : Cfg n) (env : Env n) (obj : Pt n → ℝ) (e : ℝ) (he : EnvShift env e) (fuel : ℕ) (r : Run n) (h : OkR r) :
    loop cfg env (fun y => obj y + e) fuel (r.shift e) = (loop cfg env obj fuel r).shift e := by
  induction fuel generalizing r with
  | zero => rfl
  | succ fuel ih =>
    obtain ⟨a1, a2⟩ := iter_shift cfg env obj e he r h
    rw [loop, loop, a1]
    rcases hI : iter cfg env obj r with ⟨r', b⟩
    rw [hI] at a2
    cases b with
    | true => rfl
    | false => exact ih r' a2

theorem start_shift (cfg : Cfg n) (obj : Pt n → ℝ) (e : ℝ) (s : St n) (h : OkS s) (x0 : Pt n) :
    start cfg (fun y => obj y + e) (s.shift e) x0 = (start cfg obj s x0).shift e ∧ OkS (start cfg obj s x0) := by
  obtain ⟨b1, b2⟩ := blackbox_shift cfg obj e { s with sOld := applyScaling cfg x0 } h (applyScaling cfg x0)
  unfold start
  simp only
  rw [show ({ s.shift e with sOld := applyScaling cfg x0 } : St n) = St.shift e { s with sOld := applyScaling cfg x0 } from rfl, b1]
  generalize blackbox cfg obj { s with sOld := applyScaling cfg x0 } (applyScaling cfg x0) = b at b2
  have e2 : ({ (b.1.shift e) with fOld := b.2 + e } : St n) = St.shift e { b.1 with fOld := b.2 } := rfl
  simp only [e2, setDel_shift]
  exact ⟨rfl, okS_setDel cfg _ { b.1 with fOld := b.2 } b2⟩

theorem evalInitial_shift (cfg : Cfg n) (obj : Pt n → ℝ) (e : ℝ) (xs : List (Pt n)) (r : Run n) (h : OkR r) :
    evalInitial cfg (fun y => obj y + e) xs (r.shift e) = ((evalInitial cfg obj xs r).1.shift e, (evalInitial cfg obj xs r).2) ∧
    OkR (evalInitial cfg obj xs r).1 := by
  induction xs generalizing r with
  | nil => exact ⟨rfl, h⟩
  | cons x xs ih =>
    obtain ⟨b1, b2⟩ := blackbox_shift cfg obj e r.st h.1 x
    unfold evalInitial
    simp only [show (r.shift e).st = r.st.shift e from rfl, b1]
    generalize blackbox cfg obj r.st x = b at b2
    simp only [show (b.1.shift e).evals = b.1.evals from rfl]
    have hok : OkR ⟨b.1, r.S ++ [x], r.f ++ [b.2]⟩ := ⟨b2, by simp [h.2]⟩
    have e1 : (⟨b.1.shift e, (r.shift e).S ++ [x], (r.shift e).f ++ [b.2 + e]⟩ : Run n) = Run.shift e ⟨b.1, r.S ++ [x], r.f ++ [b.2]⟩ := by
      simp [Run.shift]
    rw [e1]
    by_cases h1 : b.1.evals ≥ cfg.maxEvals
    · rw [if_pos h1, if_pos h1]
      exact ⟨rfl, hok⟩
    · rw [if_neg h1, if_neg h1]
      exact ih _ hok

theorem finish_shift (cfg : Cfg n) (e : ℝ) (s : St n) : finish cfg (s.shift e) = (finish cfg s).shift e :=
  setIterate_shift cfg e { s with S := s.S.map (removeScaling cfg) }

theorem trustRegion_shift (cfg : Cfg n) (env : Env n) (obj : Pt n → ℝ) (e : ℝ) (he : EnvShift env e) (s : St n) (h : OkS s)
    (x0 : Pt n) : trustRegion cfg env (fun y => obj y + e) (s.shift e) x0 = (trustRegion cfg env obj s x0).shift e := by
  obtain ⟨a1, a2⟩ := start_shift cfg obj e s h x0
  unfold trustRegion
  simp only [a1]
  generalize start cfg obj s x0 = t at a2
  rw [generateSet_shift cfg env e he]
  obtain ⟨b1, b2⟩ := evalInitial_shift cfg obj e (generateSet cfg env t (setSize n)).tail ⟨t, [t.sOld], [t.fOld]⟩ ⟨a2, rfl⟩
  have e1 : (⟨t.shift e, [(t.shift e).sOld], [(t.shift e).fOld]⟩ : Run n) = Run.shift e ⟨t, [t.sOld], [t.fOld]⟩ := rfl
  rw [e1, b1]
  generalize evalInitial cfg obj (generateSet cfg env t (setSize n)).tail ⟨t, [t.sOld], [t.fOld]⟩ = r at b2
  obtain ⟨r, b⟩ := r
  cases b with
  | true => exact finish_shift cfg e r.st
  | false =>
    show finish cfg (loop cfg env (fun y => obj y + e) cfg.itermax (r.shift e)).st = _
    rw [loop_shift cfg env obj e he _ r b2]
    exact finish_shift cfg e _

theorem start_init (cfg : Cfg n) (obj : Pt n → ℝ) (e : ℝ) (x0 : Pt n) :
    start cfg obj ((St.init n).shift e) x0 = start cfg obj (St.init n) x0 := by
  unfold start
  simp only
  congr 1

/-- **C187.** A constant added to the objective does not change what the method does: the same points are evaluated in the same
order, the same point is returned, and the value found has the constant added, whether one minimises or maximises. -/
theorem c187_constant (cfg : Cfg n) (env : Env n) (maximise : Bool) (f : Pt n → ℝ) (e : ℝ)
    (he : EnvShift env (if maximise then -e else e)) (x0 : Pt n) :
    let a := optimise cfg env maximise f (St.init n) x0
    let b := optimise cfg env maximise (fun x => f x + e) (St.init n) x0
    b.1.calls = a.1.calls ∧ b.2.x = a.2.x ∧ b.2.fn = a.2.fn + e ∧ b.2.nfev = a.2.nfev := by
  have hobj : objective maximise (fun x => f x + e) = fun x => objective maximise f x + if maximise then -e else e := by
    funext x
    unfold objective
    cases maximise
    · simp
    · simp only [if_true]; ring
  have key := trustRegion_shift cfg env (objective maximise f) (if maximise then -e else e) he (St.init n) rfl x0
  have h0 : trustRegion cfg env (fun x => objective maximise f x + if maximise then -e else e)
      ((St.init n).shift (if maximise then -e else e)) x0 =
      trustRegion cfg env (fun x => objective maximise f x + if maximise then -e else e) (St.init n) x0 := by
    unfold trustRegion
    simp only [start_init]
  rw [h0] at key
  intro a b
  have hb : b = ((trustRegion cfg env (objective maximise f) (St.init n) x0).shift (if maximise then -e else e),
      ⟨((trustRegion cfg env (objective maximise f) (St.init n) x0).shift (if maximise then -e else e)).sOld,
        if maximise then ((trustRegion cfg env (objective maximise f) (St.init n) x0).shift (if maximise then -e else e)).fOld * -1
        else ((trustRegion cfg env (objective maximise f) (St.init n) x0).shift (if maximise then -e else e)).fOld,
        ((trustRegion cfg env (objective maximise f) (St.init n) x0).shift (if maximise then -e else e)).evals⟩) := by
    show optimise cfg env maximise (fun x => f x + e) (St.init n) x0 = _
    unfold optimise
    simp only [hobj, key]
  have ha : a = (trustRegion cfg env (objective maximise f) (St.init n) x0,
      ⟨(trustRegion cfg env (objective maximise f) (St.init n) x0).sOld,
        if maximise then (trustRegion cfg env (objective maximise f) (St.init n) x0).fOld * -1
        else (trustRegion cfg env (objective maximise f) (St.init n) x0).fOld,
        (trustRegion cfg env (objective maximise f) (St.init n) x0).evals⟩) := rfl
  rw [hb, ha]
  refine ⟨rfl, rfl, ?_, rfl⟩
  cases maximise
  · rfl
  · show (_ + -e) * -1 = _ * -1 + e
    ring

/-- Models that promise a decrease of one at the point `1/2`, or the nearest one between the local bounds, whatever the values. -/
noncomputable def envStep : Env 1 :=
  { envDemo with build := fun s _ _ => some ⟨s.fOld, fun i => min (max (s.lo i) (1/2)) (s.hi i), s.fOld - 1⟩ }

theorem envStep_shift (e : ℝ) : EnvShift envStep e where
  build := by
    intro s S f _
    simp only [envStep, Step.shift, Option.map_some, St.shift, Option.some.injEq, Step.mk.injEq, true_and]
    ring
  newPoint := fun _ _ _ => rfl
  randDirs := fun _ => rfl

example : (optimise cfgDemo envStep true (fun x => -x 0 ^ 2 + 1000) (St.init 1) fun _ => 1/3).2.x =
    (optimise cfgDemo envStep true (fun x => -x 0 ^ 2) (St.init 1) fun _ => 1/3).2.x :=
  (c187_constant cfgDemo envStep true (fun x => -x 0 ^ 2) 1000 (envStep_shift _) _).2.1

/-! ## The fitted models -/

/-- A minimiser that does not mind a constant added to the function: it goes by differences of values and gradients. -/
def TncShift (tnc : Tnc n) : Prop := ∀ (f : Pt n → ℝ) g s lo hi e,
  tnc (fun x => f x + e) g s lo hi = ((tnc f g s lo hi).1, (tnc f g s lo hi).2 + e)

theorem isQuadratic_add_const {g : Pt n → ℝ} (h : IsQuadratic g) (e : ℝ) : IsQuadratic fun x => g x + e := by
  obtain ⟨c, b, A, h⟩ := h
  exact ⟨c + e, b, A, fun x => by beta_reduce; rw [h]; ring⟩

theorem isGradient_unique {f : Pt n → ℝ} {g g' x : Pt n} (h : IsGradient f g x) (h' : IsGradient f g' x) : g = g' := by
  have h1 := HasFDerivAt.unique h h'
  funext i
  have h2 := congrArg (fun L : Pt n →L[ℝ] ℝ => L (Pi.single i 1)) h1
  simpa [Pi.single_apply] using h2

/-- **C187, models.** The condition above on the models is what the fitted models fulfil: for `(n + 1)(n + 2)/2` points that
determine a quadratic and local bounds with interior, raising the values raises the model and leaves the step as it is. -/
theorem c187_model {lstsq : Lstsq} (hl : LstsqOK lstsq) {tnc : Tnc n} (ht : TncShift tnc) (hn : 0 < n) (st : St n)
    (hb : ∀ i, st.lo i < st.hi i) (S : List (Pt n)) (hS : Determines S) (hlen : S.length = (n + 1) * (n + 2) / 2) (f : List ℝ)
    (hf : f.length = S.length) (e : ℝ) :
    ∃ m, buildStepTR lstsq tnc st S f = some m ∧ buildStepTR lstsq tnc (st.shift e) S (f.map (· + e)) = some (m.shift e) := by
  obtain ⟨F, h1, h2, h3, h4⟩ := c148_interpolates hl hn st hb S hS hlen f hf
  obtain ⟨G, g1, g2, g3, g4⟩ := c148_interpolates hl hn (st.shift e) hb S hS hlen (f.map (· + e)) (by simpa using hf)
  have hG : (fun x : Pt n => valueAt F x + e) = valueAt G := by
    refine g4 _ (isQuadratic_add_const h2 e) ?_
    rw [← h3, List.map_map]
    rfl
  obtain ⟨F', f1, f2⟩ := c146_model hl hn st S f
  obtain rfl : F = F' := Except.ok.inj (h1.symm.trans f1)
  obtain ⟨G', k1, k2⟩ := c146_model hl hn (st.shift e) S (f.map (· + e))
  obtain rfl : G = G' := Except.ok.inj (g1.symm.trans k1)
  have hgrad : (gradAt G : Pt n → Pt n) = gradAt F := by
    funext x
    refine isGradient_unique (k2 x) ?_
    rw [← hG]
    exact HasFDerivAt.add_const e (f2 x)
  refine ⟨stepTR tnc st F, by unfold buildStepTR; rw [h1], ?_⟩
  unfold buildStepTR
  rw [g1]
  simp only [stepTR, Step.shift, ← hG, hgrad]
  rw [ht (valueAt F)]
  rfl

theorem tncStay_shift : TncShift (tncStay : Tnc n) := fun _ _ _ _ _ _ => rfl

example : ∃ m, buildStepTR lstsqDemo tncStay stDemo (generateSet cfgDemo envDemo stDemo (setSize 1)) [0, 1, 1] = some m ∧
    buildStepTR lstsqDemo tncStay (stDemo.shift 1000) (generateSet cfgDemo envDemo stDemo (setSize 1)) ([0, 1, 1].map (· + 1000)) =
      some (m.shift 1000) :=
  have hlen : (generateSet cfgDemo envDemo stDemo (setSize 1)).length = 3 := by simp [generateSet, setSize]
  c187_model lstsqDemo_ok tncStay_shift one_pos stDemo (fun i => by norm_num [stDemo]) _ determines_demo hlen [0, 1, 1] hlen.symm 1000

end EQ.Opt
