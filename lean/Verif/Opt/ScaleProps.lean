import Verif.Opt.ShiftProps
import Verif.Opt.Omorf

/-!
# The units of the objective (C199)
-/

namespace EQ.Opt
open EQ.Basis EQ.Poly EQ.Sub

variable {n : ℕ}

/-! ## Specification -/

/-- A value in other units. -/
def aff (g e v : ℝ) : ℝ := g * v + e

/-- A state whose values are given in other units. -/
def St.units (g e : ℝ) (s : St n) : St n := { s with f := s.f.map (aff g e), fOld := aff g e s.fOld }

/-- A model in other units. -/
def Step.units (g e : ℝ) (m : Step n) : Step n := ⟨aff g e m.atOld, m.sNew, aff g e m.mNew⟩

/-- The outside calls do not mind the units: the model follows the values and keeps its minimiser; new points and random
directions do not depend on the values. -/
structure EnvUnits (env : Env n) (g e : ℝ) : Prop where
  build : ∀ s S f, S.length = f.length → env.build (s.units g e) S (f.map (aff g e)) = (env.build s S f).map (Step.units g e)
  newPoint : ∀ s φ v, env.newPoint (s.units g e) φ v = env.newPoint s φ v
  randDirs : ∀ s, env.randDirs (s.units g e) = env.randDirs s

/-! ## Proofs -/

theorem argmin_units {g : ℝ} (hg : 0 < g) (e : ℝ) : ∀ l : List ℝ, argmin (l.map (aff g e)) = argmin l
  | [] => rfl
  | [a] => rfl
  | a :: b :: l => by
    have ih := argmin_units hg e (b :: l)
    have hlt := (argmin_spec (b :: l) (by simp)).1
    simp only [List.map_cons] at ih ⊢
    rw [argmin, argmin, ih]
    rw [show (aff g e b :: l.map (aff g e)) = (b :: l).map (aff g e) from rfl, getD_map' (aff g e) (b :: l) _ 0 0 hlt]
    have hiff : aff g e a ≤ aff g e ((b :: l).getD (argmin (b :: l)) 0) ↔ a ≤ (b :: l).getD (argmin (b :: l)) 0 := by
      unfold aff
      rw [add_le_add_iff_right, mul_le_mul_iff_right₀ hg]
    by_cases h : a ≤ (b :: l).getD (argmin (b :: l)) 0
    · rw [if_pos h, if_pos (hiff.2 h)]
    · rw [if_neg h, if_neg (fun h' => h (hiff.1 h'))]

theorem getD_units (g e : ℝ) (l : List ℝ) (i : ℕ) (d : ℝ) : (l.map (aff g e)).getD i (aff g e d) = aff g e (l.getD i d) := by
  rw [List.getD_eq_getElem?_getD, List.getD_eq_getElem?_getD, List.getElem?_map]
  cases l[i]? <;> rfl

theorem updateBounds_units (cfg : Cfg n) (g e : ℝ) (s : St n) : updateBounds cfg (s.units g e) = (updateBounds cfg s).units g e := by
  unfold updateBounds
  split <;> [split_ifs; skip] <;> rfl

theorem setDel_units (cfg : Cfg n) (g e v : ℝ) (s : St n) : setDel cfg v (s.units g e) = (setDel cfg v s).units g e :=
  updateBounds_units cfg g e { s with del := v }

theorem setIterate_units (cfg : Cfg n) {g : ℝ} (hg : 0 < g) (e : ℝ) (s : St n) : setIterate cfg (s.units g e) = (setIterate cfg s).units g e := by
  unfold setIterate
  rw [← updateBounds_units]
  congr 1
  simp only [St.units, argmin_units hg, getD_units]

theorem blackbox_units (cfg : Cfg n) (obj : Pt n → ℝ) (g e : ℝ) (s : St n) (h : OkS s) (x : Pt n) :
    blackbox cfg (fun y => aff g e (obj y)) (s.units g e) x = ((blackbox cfg obj s x).1.units g e, aff g e (blackbox cfg obj s x).2) ∧
    OkS (blackbox cfg obj s x).1 := by
  have h : s.S.length = s.f.length := h
  unfold blackbox
  rw [show (s.units g e).S = s.S from rfl]
  by_cases hc : s.S.length > 0 ∧ (s.S ++ [x]).dedup.length = s.S.length
  · rw [if_pos hc, if_pos hc]
    have hlt : argmin (s.S.map fun y => normInf fun i => y i - x i) < s.f.length := by
      have := (argmin_spec (s.S.map fun y => normInf fun i => y i - x i) (by
        intro h0; rw [List.map_eq_nil_iff] at h0; rw [h0] at hc; exact absurd hc.1 (by simp))).1
      rw [List.length_map, h] at this
      exact this
    refine ⟨?_, h⟩
    simp only [St.units]
    rw [getD_map' (aff g e) s.f _ 0 0 hlt]
  · rw [if_neg hc, if_neg hc]
    refine ⟨?_, by simp [OkS, h]⟩
    simp [St.units]

theorem generateSet_units (cfg : Cfg n) (env : Env n) (g e : ℝ) (he : EnvUnits env g e) (s : St n) (num : ℕ) :
    generateSet cfg env (s.units g e) num = generateSet cfg env s num := by
  unfold generateSet
  rw [he.randDirs]
  rfl

theorem choosePoint_units (cfg : Cfg n) (env : Env n) (g e : ℝ) (he : EnvUnits env g e) (s : St n) (q : ℕ) (φ : Pt n → ℕ → ℝ)
    (v : ℕ → ℝ) (S : List (Pt n)) : choosePoint cfg env (s.units g e) q φ v S = choosePoint cfg env s q φ v S := by
  unfold choosePoint altPoint
  rw [he.newPoint, generateSet_units cfg env g e he]
  rfl

/-- The variables of the loop with the values raised. -/
def LU.units (g e : ℝ) (a : LU n) : LU n := ⟨a.st.units g e, a.S, a.f.map (aff g e), a.hatS, a.hatF.map (aff g e), a.U⟩

theorem luPick_units (q : ℕ) (φ : Pt n → ℕ → ℝ) (g e : ℝ) (a : LU n) (h : OkL a) (k index : ℕ) (hi : index < a.hatF.length) :
    luPick q φ (a.units g e) k index = (luPick q φ a k index).units g e ∧ OkL (luPick q φ a k index) := by
  obtain ⟨h1, h2, h3⟩ := h
  refine ⟨?_, h1, by simp [luPick, h2], ?_⟩
  · simp only [luPick, LU.units]
    rw [getD_map' (aff g e) a.hatF index 0 0 hi, map_eraseIdx']
    simp [St.units]
  · simp only [luPick]
    rw [List.length_eraseIdx, List.length_eraseIdx, h3]

theorem luStep_units (cfg : Cfg n) (env : Env n) (obj : Pt n → ℝ) (g e : ℝ) (he : EnvUnits env g e) (method : LUMethod) (psi2 : ℝ)
    (q : ℕ) (φ : Pt n → ℕ → ℝ) (a : LU n) (h : OkL a) (k : ℕ) :
    luStep cfg env (fun y => aff g e (obj y)) method psi2 q φ (a.units g e) k = (luStep cfg env obj method psi2 q φ a k).units g e ∧
    OkL (luStep cfg env obj method psi2 q φ a k) := by
  have hidx : a.hatF.length > 0 → argmax (a.hatS.map fun x => |dot q (luV a.U k) (φ x)|) < a.hatF.length := by
    intro hpos
    have := argmax_lt (a.hatS.map fun x => |dot q (luV a.U k) (φ x)|) (by
      intro h0; rw [List.map_eq_nil_iff] at h0; rw [← h.2.2, h0] at hpos; exact absurd hpos (by simp))
    rw [List.length_map, h.2.2] at this
    exact this
  have hfl : ∀ b, luFlag method psi2 q k (a.hatF.map (aff g e)) b = luFlag method psi2 q k a.hatF b := by
    intro b; unfold luFlag; rw [List.length_map]
  unfold luStep
  simp only [show (a.units g e).U = a.U from rfl, show (a.units g e).hatS = a.hatS from rfl, show (a.units g e).S = a.S from rfl,
    show (a.units g e).st = a.st.units g e from rfl, show (a.units g e).hatF = a.hatF.map (aff g e) from rfl, hfl,
    choosePoint_units cfg env g e he, List.length_map]
  generalize (a.hatS.map fun x => |dot q (luV a.U k) (φ x)|) = M at hidx
  generalize choosePoint cfg env a.st q φ (luV a.U k) a.S = x
  by_cases hf : luFlag method psi2 q k a.hatF (M.getD (argmax M) 0) = true
  · rw [if_pos hf, if_pos hf]
    refine luPick_units q φ g e a h k _ (hidx ?_)
    by_contra hcon
    unfold luFlag at hf
    rw [if_neg hcon] at hf
    exact absurd hf (by simp)
  · rw [if_neg hf, if_neg hf]
    by_cases hc : a.hatF.length > 0 ∧ M.getD (argmax M) 0 ≥ |dot q (luV a.U k) (φ x)|
    · rw [if_pos hc, if_pos hc]
      exact luPick_units q φ g e a h k _ (hidx hc.1)
    · rw [if_neg hc, if_neg hc]
      obtain ⟨b1, b2⟩ := blackbox_units cfg obj g e a.st h.1 x
      rw [b1]
      refine ⟨by simp [LU.units], b2, by simp [h.2.1], h.2.2⟩

theorem luPivot_units (cfg : Cfg n) (env : Env n) (obj : Pt n → ℝ) (g e : ℝ) (he : EnvUnits env g e) (method : LUMethod) (psi2 : ℝ)
    (q : ℕ) (φ : Pt n → ℕ → ℝ) (st : St n) (hst : OkS st) (hatS : List (Pt n)) (hatF : List ℝ) (hl : hatS.length = hatF.length) :
    luPivot cfg env (fun y => aff g e (obj y)) method psi2 q φ (st.units g e) hatS (hatF.map (aff g e)) =
      (luPivot cfg env obj method psi2 q φ st hatS hatF).units g e ∧ OkL (luPivot cfg env obj method psi2 q φ st hatS hatF) := by
  unfold luPivot
  have key : ∀ (l : List ℕ) (a : LU n), OkL a →
      l.foldl (luStep cfg env (fun y => aff g e (obj y)) method psi2 q φ) (a.units g e) =
        (l.foldl (luStep cfg env obj method psi2 q φ) a).units g e ∧ OkL (l.foldl (luStep cfg env obj method psi2 q φ) a) := by
    intro l
    induction l with
    | nil => intro a h; exact ⟨rfl, h⟩
    | cons k l ih =>
      intro a h
      obtain ⟨h1, h2⟩ := luStep_units cfg env obj g e he method psi2 q φ a h k
      rw [List.foldl_cons, List.foldl_cons, h1]
      exact ih _ h2
  exact key (List.range' 1 (q - 1)) ⟨st, [st.sOld], [st.fOld], hatS, hatF, [φ st.sOld]⟩ ⟨hst, rfl, hl⟩

theorem removeFurthest_units (g e : ℝ) (st : St n) (r : List (Pt n) × List ℝ) (h : r.1.length = r.2.length) :
    removeFurthest (st.units g e) (r.1, r.2.map (aff g e)) = ((removeFurthest st r).1, (removeFurthest st r).2.map (aff g e)) ∧
    (removeFurthest st r).1.length = (removeFurthest st r).2.length := by
  unfold removeFurthest
  refine ⟨?_, by simp only; rw [List.length_eraseIdx, List.length_eraseIdx, h]⟩
  simp only [map_eraseIdx']
  rfl

theorem removePoint_units (g e : ℝ) (st : St n) (r : List (Pt n) × List ℝ) :
    removePoint (st.units g e) (r.1, r.2.map (aff g e)) = ((removePoint st r).1, (removePoint st r).2.map (aff g e)) ∧
    (removePoint st r).1.length = (removePoint st r).2.length := by
  unfold removePoint
  refine ⟨?_, by simp⟩
  simp only [List.zip_map_right, List.filter_map, List.map_map]
  rfl

theorem uniqueRows_units (g e : ℝ) (r : List (Pt n) × List ℝ) (h : r.1.length = r.2.length) :
    uniqueRows (r.1, r.2.map (aff g e)) = ((uniqueRows r).1, (uniqueRows r).2.map (aff g e)) ∧
    (uniqueRows r).1.length = (uniqueRows r).2.length := by
  unfold uniqueRows
  refine ⟨?_, by simp⟩
  simp only
  set first := (List.range r.1.length).filter fun i =>
    (List.range i).all fun j => r.1.getD j default ≠ r.1.getD i default with hfirst
  have hrows : (first.map fun i => (r.1.getD i default, (r.2.map (aff g e)).getD i 0)) =
      (first.map fun i => (r.1.getD i default, r.2.getD i 0)).map fun a => (a.1, aff g e a.2) := by
    rw [List.map_map]
    refine List.map_congr_left fun i hi => ?_
    have hlt : i < r.2.length := by
      have := List.mem_range.1 (List.mem_filter.1 hi).1
      rw [h] at this
      exact this
    simp only [Function.comp_apply]
    rw [getD_map' (aff g e) r.2 i 0 0 hlt]
  rw [hrows, ← List.map_mergeSort (r := fun a b : Pt n × ℝ => decide (toLex a.1 ≤ toLex b.1)) (by intros; rfl), List.map_map,
    List.map_map, List.map_map]
  rfl

/-- A run with the values raised. -/
def Run.units (g e : ℝ) (r : Run n) : Run n := ⟨r.st.units g e, r.S, r.f.map (aff g e)⟩

theorem lu_units (cfg : Cfg n) (env : Env n) (obj : Pt n → ℝ) (g e : ℝ) (he : EnvUnits env g e) (method : LUMethod) (psi2 : ℝ) (q : ℕ)
    (φ : St n → List (Pt n) → Pt n → ℕ → ℝ) (hφ : ∀ st l, φ (st.units g e) l = φ st l)
    (st : St n) (hst : OkS st) (hat : List (Pt n) × List ℝ) (hl : hat.1.length = hat.2.length) :
    let a := luPivot cfg env (fun y => aff g e (obj y)) method psi2 q (φ (st.units g e) hat.1) (st.units g e) hat.1
      (hat.2.map (aff g e))
    let b := luPivot cfg env obj method psi2 q (φ st hat.1) st hat.1 hat.2
    (⟨a.st, a.S, a.f⟩ : Run n) = Run.units g e ⟨b.st, b.S, b.f⟩ ∧ OkR ⟨b.st, b.S, b.f⟩ := by
  obtain ⟨h1, h2⟩ := luPivot_units cfg env obj g e he method psi2 q (φ st hat.1) st hst hat.1 hat.2 hl
  intro a b
  have ha : a = b.units g e := by
    show luPivot _ _ _ _ _ _ (φ (st.units g e) hat.1) _ _ _ = _
    rw [hφ]
    exact h1
  rw [ha]
  exact ⟨rfl, h2.1, h2.2.1⟩

theorem oImprove_units (cfg : Cfg n) (env : Env n) (obj : Pt n → ℝ) (g e : ℝ) (he : EnvUnits env g e) (psi2 : ℝ) (q : ℕ)
    (φ : St n → List (Pt n) → Pt n → ℕ → ℝ) (hφ : ∀ st l, φ (st.units g e) l = φ st l) (r : Run n) (h : OkR r) :
    oImprove cfg env (fun y => aff g e (obj y)) psi2 q φ (r.units g e) = (oImprove cfg env obj psi2 q φ r).units g e ∧
    OkR (oImprove cfg env obj psi2 q φ r) := by
  unfold oImprove
  simp only [show (r.units g e).S = r.S from rfl, show (r.units g e).f = r.f.map (aff g e) from rfl,
    show (r.units g e).st = r.st.units g e from rfl, show spread (r.st.units g e) r.S = spread r.st r.S from rfl,
    show limit cfg (r.st.units g e) = limit cfg r.st from rfl]
  by_cases hs : spread r.st r.S > limit cfg r.st
  · rw [if_pos hs, if_pos hs, (removeFurthest_units g e r.st (r.S, r.f) h.2).1, (removePoint_units g e r.st (removeFurthest r.st (r.S, r.f))).1]
    exact lu_units cfg env obj g e he .improve psi2 q φ hφ r.st h.1 _ (removePoint_units g e r.st (removeFurthest r.st (r.S, r.f))).2
  · rw [if_neg hs, if_neg hs, (removePoint_units g e r.st (r.S, r.f)).1]
    exact lu_units cfg env obj g e he .improve psi2 q φ hφ r.st h.1 _ (removePoint_units g e r.st (r.S, r.f)).2

theorem oReplace_units (cfg : Cfg n) (env : Env n) (obj : Pt n → ℝ) (g e : ℝ) (he : EnvUnits env g e) (psi2 : ℝ) (q : ℕ)
    (φ : St n → List (Pt n) → Pt n → ℕ → ℝ) (hφ : ∀ st l, φ (st.units g e) l = φ st l) (r : Run n) (h : OkR r)
    (x : Pt n) (v : ℝ) :
    oReplace cfg env (fun y => aff g e (obj y)) psi2 q φ (r.units g e) x (aff g e v) = (oReplace cfg env obj psi2 q φ r x v).units g e ∧
    OkR (oReplace cfg env obj psi2 q φ r x v) := by
  have hl : (r.S ++ [x]).length = (r.f ++ [v]).length := by simp [h.2]
  unfold oReplace
  simp only [show (r.units g e).S = r.S from rfl, show (r.units g e).f = r.f.map (aff g e) from rfl,
    show (r.units g e).st = r.st.units g e from rfl, show spread (r.st.units g e) (r.S ++ [x]) = spread r.st (r.S ++ [x]) from rfl,
    show limit cfg (r.st.units g e) = limit cfg r.st from rfl]
  rw [show r.f.map (aff g e) ++ [aff g e v] = (r.f ++ [v]).map (aff g e) by simp, List.length_map]
  by_cases h1 : (r.S ++ [x]).dedup.length ≠ (r.S ++ [x]).length
  · rw [if_pos h1, if_pos h1, (uniqueRows_units g e (r.S ++ [x], r.f ++ [v]) hl).1, (removePoint_units g e r.st (uniqueRows (r.S ++ [x], r.f ++ [v]))).1]
    exact lu_units cfg env obj g e he .replace psi2 q φ hφ r.st h.1 _ (removePoint_units g e r.st (uniqueRows (r.S ++ [x], r.f ++ [v]))).2
  · rw [if_neg h1, if_neg h1]
    by_cases h2 : (r.f ++ [v]).length > q ∧ spread r.st (r.S ++ [x]) > limit cfg r.st
    · rw [if_pos h2, if_pos h2, (removeFurthest_units g e r.st (r.S ++ [x], r.f ++ [v]) hl).1,
        (removePoint_units g e r.st (removeFurthest r.st (r.S ++ [x], r.f ++ [v]))).1]
      exact lu_units cfg env obj g e he .replace psi2 q φ hφ r.st h.1 _ (removePoint_units g e r.st (removeFurthest r.st (r.S ++ [x], r.f ++ [v]))).2
    · rw [if_neg h2, if_neg h2, (removePoint_units g e r.st (r.S ++ [x], r.f ++ [v])).1]
      exact lu_units cfg env obj g e he .replace psi2 q φ hφ r.st h.1 _ (removePoint_units g e r.st (r.S ++ [x], r.f ++ [v])).2

theorem improveSet_units (cfg : Cfg n) (env : Env n) (obj : Pt n → ℝ) (g e : ℝ) (he : EnvUnits env g e) (r : Run n) (h : OkR r) :
    improveSet cfg env (fun y => aff g e (obj y)) (r.units g e) = (improveSet cfg env obj r).units g e ∧ OkR (improveSet cfg env obj r) :=
  oImprove_units cfg env obj g e he (1/4) (setSize n) (phiTR cfg) (fun _ _ => rfl) r h

theorem replaceSet_units (cfg : Cfg n) (env : Env n) (obj : Pt n → ℝ) (g e : ℝ) (he : EnvUnits env g e) (r : Run n) (h : OkR r)
    (x : Pt n) (v : ℝ) :
    replaceSet cfg env (fun y => aff g e (obj y)) (r.units g e) x (aff g e v) = (replaceSet cfg env obj r x v).units g e ∧
    OkR (replaceSet cfg env obj r x v) :=
  oReplace_units cfg env obj g e he (1/4) (setSize n) (phiTR cfg) (fun _ _ => rfl) r h x v

/-- (optimisation.py:892, 954) The test of the ratio falls out alike in both units. -/
def SameTest (g d : ℝ) : Prop := |d| < 100 / 2 ^ 52 ↔ |g * d| < 100 / 2 ^ 52

theorem ratio_units {g : ℝ} (hg : 0 < g) {d : ℝ} (h : SameTest g d) (x : ℝ) : ratioOf (g * x) (g * d) = ratioOf x d := by
  unfold ratioOf
  by_cases h1 : |d| < 100 / 2 ^ 52
  · rw [if_pos h1, if_pos (h.1 h1)]
  · rw [if_neg h1, if_neg (fun h2 => h1 (h.2 h2)), mul_div_mul_left _ _ hg.ne']

theorem updateGeometry_units (cfg : Cfg n) (env : Env n) (obj : Pt n → ℝ) (g e : ℝ) (he : EnvUnits env g e) (r : Run n) (h : OkR r) :
    updateGeometry cfg env (fun y => aff g e (obj y)) (r.units g e) = (updateGeometry cfg env obj r).units g e ∧
    OkR (updateGeometry cfg env obj r) := by
  unfold updateGeometry
  simp only [show (r.units g e).S = r.S from rfl, show (r.units g e).st = r.st.units g e from rfl,
    show spread (r.st.units g e) r.S = spread r.st r.S from rfl, show limit cfg (r.st.units g e) = limit cfg r.st from rfl,
    show (r.st.units g e).del = r.st.del from rfl, show (r.st.units g e).rho = r.st.rho from rfl, setDel_units]
  by_cases h1 : spread r.st r.S > limit cfg r.st
  · rw [if_pos h1, if_pos h1]
    exact improveSet_units cfg env obj g e he r h
  · rw [if_neg h1, if_neg h1]
    by_cases h2 : r.st.del = r.st.rho
    · rw [if_pos h2, if_pos h2]
      have hok := okS_setDel cfg (cfg.alpha2 * r.st.rho) r.st h.1
      generalize setDel cfg (cfg.alpha2 * r.st.rho) r.st = st at hok
      simp only [show (st.units g e).count = st.count from rfl, show (st.units g e).ratio = st.ratio from rfl]
      by_cases h3 : st.count ≥ 3 ∧ st.ratio < 0
      · rw [if_pos h3, if_pos h3]
        exact ⟨rfl, hok, h.2⟩
      · rw [if_neg h3, if_neg h3]
        exact ⟨rfl, hok, h.2⟩
    · rw [if_neg h2, if_neg h2]
      exact ⟨rfl, h⟩

theorem settle_units (cfg : Cfg n) (env : Env n) (obj : Pt n → ℝ) {g : ℝ} (hg : 0 < g) (e : ℝ) (he : EnvUnits env g e) (r : Run n) (h : OkR r)
    (fNew delM stepDist : ℝ) (hd : SameTest g delM) :
    settle cfg env (fun y => aff g e (obj y)) (r.units g e) (aff g e fNew) (g * delM) stepDist = (settle cfg env obj r fNew delM stepDist).units g e ∧
    OkR (settle cfg env obj r fNew delM stepDist) := by
  unfold settle
  have e1 : setIterate cfg { (r.units g e).st with ratio := ratioOf ((r.units g e).st.fOld - aff g e fNew) (g * delM) } =
      (setIterate cfg { r.st with ratio := ratioOf (r.st.fOld - fNew) delM }).units g e := by
    rw [← setIterate_units cfg hg]
    congr 1
    simp only [Run.units, St.units]
    rw [← ratio_units hg hd]
    congr 2
    unfold aff
    ring
  simp only [e1]
  have hok : OkS (setIterate cfg { r.st with ratio := ratioOf (r.st.fOld - fNew) delM }) := okS_setIterate cfg _ h.1
  generalize setIterate cfg { r.st with ratio := ratioOf (r.st.fOld - fNew) delM } = st at hok
  simp only [show (st.units g e).ratio = st.ratio from rfl]
  by_cases h1 : st.ratio ≥ cfg.eta2
  · rw [if_pos h1, if_pos h1]
    refine ⟨?_, okS_setDel cfg _ { st with count := 0 } hok, h.2⟩
    simp only [Run.units]
    rw [← setDel_units]
    rfl
  · rw [if_neg h1, if_neg h1]
    by_cases h2 : st.ratio ≥ cfg.eta1
    · rw [if_pos h2, if_pos h2]
      refine ⟨?_, okS_setDel cfg _ { st with count := 0 } hok, h.2⟩
      simp only [Run.units]
      rw [← setDel_units]
      rfl
    · rw [if_neg h2, if_neg h2]
      have := updateGeometry_units cfg env obj g e he
        ⟨setDel cfg (max (min (cfg.gamDec * st.del) stepDist) st.rho) { st with count := st.count + 1 }, r.S, r.f⟩
        ⟨okS_setDel cfg _ { st with count := st.count + 1 } hok, h.2⟩
      refine ⟨?_, this.2⟩
      rw [← this.1]
      congr 1
      simp only [Run.units]
      rw [← setDel_units]
      rfl

theorem iter_units (cfg : Cfg n) (env : Env n) (obj : Pt n → ℝ) {g : ℝ} (hg : 0 < g) (e : ℝ) (he : EnvUnits env g e) (r : Run n) (h : OkR r) :
    (∀ m, env.build r.st r.S r.f = some m → SameTest g (m.atOld - m.mNew)) →
    iter cfg env (fun y => aff g e (obj y)) (r.units g e) = ((iter cfg env obj r).1.units g e, (iter cfg env obj r).2) ∧
    OkR (iter cfg env obj r).1 := by
  intro ht
  unfold iter
  simp only [show (r.units g e).S = r.S from rfl, show (r.units g e).f = r.f.map (aff g e) from rfl,
    show (r.units g e).st = r.st.units g e from rfl, show (r.st.units g e).evals = r.st.evals from rfl,
    show (r.st.units g e).rho = r.st.rho from rfl, he.build r.st r.S r.f h.2, show (r.st.units g e).sOld = r.st.sOld from rfl]
  by_cases h0 : r.st.evals ≥ cfg.maxEvals ∨ r.st.rho ≤ cfg.rhoMin
  · rw [if_pos h0, if_pos h0]
    exact ⟨rfl, h⟩
  · rw [if_neg h0, if_neg h0]
    cases hbuild : env.build r.st r.S r.f with
    | none =>
      obtain ⟨a1, a2⟩ := improveSet_units cfg env obj g e he r h
      exact ⟨by simp only [Option.map_none]; rw [a1], a2⟩
    | some m =>
      simp only [Option.map_some, Step.units]
      by_cases h1 : (normInf fun i => m.sNew i - r.st.sOld i) < cfg.omegaS * r.st.rho
      · rw [if_pos h1, if_pos h1]
        obtain ⟨a1, a2⟩ := updateGeometry_units cfg env obj g e he
          ⟨setDel cfg (max (cfg.gamDec * r.st.del) r.st.rho) { r.st with ratio := -1/10, count := 3 }, r.S, r.f⟩
          ⟨okS_setDel cfg _ { r.st with ratio := -1/10, count := 3 } h.1, h.2⟩
        refine ⟨?_, a2⟩
        rw [← a1]
        simp only [Prod.mk.injEq, and_true]
        congr 1
        simp only [Run.units]
        rw [← setDel_units]
        rfl
      · rw [if_neg h1, if_neg h1]
        obtain ⟨b1, b2⟩ := blackbox_units cfg obj g e r.st h.1 m.sNew
        rw [b1]
        generalize blackbox cfg obj r.st m.sNew = b at b2
        simp only [show (b.1.units g e).evals = b.1.evals from rfl, show (b.1.units g e).rho = b.1.rho from rfl]
        by_cases h2 : b.1.evals ≥ cfg.maxEvals ∨ b.1.rho ≤ cfg.rhoMin
        · rw [if_pos h2, if_pos h2]
          exact ⟨rfl, b2, h.2⟩
        · rw [if_neg h2, if_neg h2]
          obtain ⟨c1, c2⟩ := replaceSet_units cfg env obj g e he ⟨b.1, r.S, r.f⟩ ⟨b2, h.2⟩ m.sNew b.2
          obtain ⟨d1, d2⟩ := settle_units cfg env obj hg e he _ c2 b.2 (m.atOld - m.mNew) (normInf fun i => m.sNew i - r.st.sOld i) (ht m hbuild)
          refine ⟨?_, d2⟩
          rw [← d1, ← c1, show aff g e m.atOld - aff g e m.mNew = g * (m.atOld - m.mNew) by unfold aff; ring]
          rfl

/-- (optimisation.py:867-906) The states before the passes of the main loop that a run of the trust-region method goes through, from the one after the evaluation of the
initial sample set on. -/
inductive Passes (cfg : Cfg n) (env : Env n) (obj : Pt n → ℝ) (s0 : St n) (x0 : Pt n) : Run n → Prop
  | first {r : Run n} : evalInitial cfg obj (generateSet cfg env (start cfg obj s0 x0) (setSize n)).tail
      ⟨start cfg obj s0 x0, [(start cfg obj s0 x0).sOld], [(start cfg obj s0 x0).fOld]⟩ = (r, false) → Passes cfg env obj s0 x0 r
  | next {r r' : Run n} : Passes cfg env obj s0 x0 r → iter cfg env obj r = (r', false) → Passes cfg env obj s0 x0 r'

theorem loop_units (cfg : Cfg n) (env : Env n) (obj : Pt n → ℝ) {g : ℝ} (hg : 0 < g) (e : ℝ) (he : EnvUnits env g e) (s0 : St n) (x0 : Pt n)
    (ht : ∀ r m, Passes cfg env obj s0 x0 r → env.build r.st r.S r.f = some m → SameTest g (m.atOld - m.mNew))
    (fuel : ℕ) (r : Run n) (h : OkR r) (hr : Passes cfg env obj s0 x0 r) :
    loop cfg env (fun y => aff g e (obj y)) fuel (r.units g e) = (loop cfg env obj fuel r).units g e := by
  induction fuel generalizing r with
  | zero => rfl
  | succ fuel ih =>
    obtain ⟨a1, a2⟩ := iter_units cfg env obj hg e he r h fun m => ht r m hr
    rw [loop, loop, a1]
    rcases hI : iter cfg env obj r with ⟨r', b⟩
    rw [hI] at a2
    cases b with
    | true => rfl
    | false => exact ih r' a2 (.next hr hI)

theorem start_units (cfg : Cfg n) (obj : Pt n → ℝ) (g e : ℝ) (s : St n) (h : OkS s) (x0 : Pt n) :
    start cfg (fun y => aff g e (obj y)) (s.units g e) x0 = (start cfg obj s x0).units g e ∧ OkS (start cfg obj s x0) := by
  obtain ⟨b1, b2⟩ := blackbox_units cfg obj g e { s with sOld := applyScaling cfg x0 } h (applyScaling cfg x0)
  unfold start
  simp only
  rw [show ({ s.units g e with sOld := applyScaling cfg x0 } : St n) = St.units g e { s with sOld := applyScaling cfg x0 } from rfl, b1]
  generalize blackbox cfg obj { s with sOld := applyScaling cfg x0 } (applyScaling cfg x0) = b at b2
  have e2 : ({ (b.1.units g e) with fOld := aff g e b.2 } : St n) = St.units g e { b.1 with fOld := b.2 } := rfl
  simp only [e2, setDel_units]
  exact ⟨rfl, okS_setDel cfg _ { b.1 with fOld := b.2 } b2⟩

theorem evalInitial_units (cfg : Cfg n) (obj : Pt n → ℝ) (g e : ℝ) (xs : List (Pt n)) (r : Run n) (h : OkR r) :
    evalInitial cfg (fun y => aff g e (obj y)) xs (r.units g e) = ((evalInitial cfg obj xs r).1.units g e, (evalInitial cfg obj xs r).2) ∧
    OkR (evalInitial cfg obj xs r).1 := by
  induction xs generalizing r with
  | nil => exact ⟨rfl, h⟩
  | cons x xs ih =>
    obtain ⟨b1, b2⟩ := blackbox_units cfg obj g e r.st h.1 x
    unfold evalInitial
    simp only [show (r.units g e).st = r.st.units g e from rfl, b1]
    generalize blackbox cfg obj r.st x = b at b2
    simp only [show (b.1.units g e).evals = b.1.evals from rfl]
    have hok : OkR ⟨b.1, r.S ++ [x], r.f ++ [b.2]⟩ := ⟨b2, by simp [h.2]⟩
    have e1 : (⟨b.1.units g e, (r.units g e).S ++ [x], (r.units g e).f ++ [aff g e b.2]⟩ : Run n) = Run.units g e ⟨b.1, r.S ++ [x], r.f ++ [b.2]⟩ := by
      simp [Run.units]
    rw [e1]
    by_cases h1 : b.1.evals ≥ cfg.maxEvals
    · rw [if_pos h1, if_pos h1]
      exact ⟨rfl, hok⟩
    · rw [if_neg h1, if_neg h1]
      exact ih _ hok

theorem finish_units (cfg : Cfg n) {g : ℝ} (hg : 0 < g) (e : ℝ) (s : St n) : finish cfg (s.units g e) = (finish cfg s).units g e :=
  setIterate_units cfg hg e { s with S := s.S.map (removeScaling cfg) }

theorem trustRegion_units (cfg : Cfg n) (env : Env n) (obj : Pt n → ℝ) {g : ℝ} (hg : 0 < g) (e : ℝ) (he : EnvUnits env g e) (s : St n) (h : OkS s)
    (x0 : Pt n) (ht : ∀ r m, Passes cfg env obj s x0 r → env.build r.st r.S r.f = some m → SameTest g (m.atOld - m.mNew)) :
    trustRegion cfg env (fun y => aff g e (obj y)) (s.units g e) x0 = (trustRegion cfg env obj s x0).units g e := by
  obtain ⟨a1, a2⟩ := start_units cfg obj g e s h x0
  unfold trustRegion
  simp only [a1]
  rw [generateSet_units cfg env g e he]
  obtain ⟨b1, b2⟩ := evalInitial_units cfg obj g e (generateSet cfg env (start cfg obj s x0) (setSize n)).tail
    ⟨start cfg obj s x0, [(start cfg obj s x0).sOld], [(start cfg obj s x0).fOld]⟩ ⟨a2, rfl⟩
  have e1 : (⟨(start cfg obj s x0).units g e, [((start cfg obj s x0).units g e).sOld], [((start cfg obj s x0).units g e).fOld]⟩ : Run n) =
    Run.units g e ⟨start cfg obj s x0, [(start cfg obj s x0).sOld], [(start cfg obj s x0).fOld]⟩ := rfl
  rw [e1, b1]
  rcases hr : evalInitial cfg obj (generateSet cfg env (start cfg obj s x0) (setSize n)).tail
    ⟨start cfg obj s x0, [(start cfg obj s x0).sOld], [(start cfg obj s x0).fOld]⟩ with ⟨r, b⟩
  rw [hr] at b2
  cases b with
  | true => exact finish_units cfg hg e r.st
  | false =>
    show finish cfg (loop cfg env (fun y => aff g e (obj y)) cfg.itermax (r.units g e)).st = _
    rw [loop_units cfg env obj hg e he s x0 ht _ r b2 (.first hr)]
    exact finish_units cfg hg e _

theorem start_init_units (cfg : Cfg n) (obj : Pt n → ℝ) (g e : ℝ) (x0 : Pt n) :
    start cfg obj ((St.init n).units g e) x0 = start cfg obj (St.init n) x0 := by
  unfold start
  simp only
  congr 1

theorem objective_units (maximise : Bool) (f : Pt n → ℝ) (g e : ℝ) :
    objective maximise (fun x => g * f x + e) = fun x => aff g (if maximise then -e else e) (objective maximise f x) := by
  funext x
  unfold objective aff
  cases maximise
  · simp
  · simp only [if_true]; ring

/-- **C199, the part that holds.** The objective in other units, `f ↦ g f + e` with `g > 0`: the same points are evaluated in the same order, the same point
is returned and its value is given in the new units, whether one minimises or maximises, provided the predicted decreases of all passes fall on the same
side of the threshold `100 ε` in both units. Missing: this condition, see `c199_units_violated`. -/
theorem c199_units_partial (cfg : Cfg n) (env : Env n) (maximise : Bool) (f : Pt n → ℝ) (g e : ℝ) (hg : 0 < g)
    (he : EnvUnits env g (if maximise then -e else e)) (x0 : Pt n)
    (ht : ∀ r m, Passes cfg env (objective maximise f) (St.init n) x0 r → env.build r.st r.S r.f = some m → SameTest g (m.atOld - m.mNew)) :
    let a := optimise cfg env maximise f (St.init n) x0
    let b := optimise cfg env maximise (fun x => g * f x + e) (St.init n) x0
    b.1.calls = a.1.calls ∧ b.2.x = a.2.x ∧ b.2.fn = g * a.2.fn + e ∧ b.2.nfev = a.2.nfev := by
  have key := trustRegion_units cfg env (objective maximise f) hg (if maximise then -e else e) he (St.init n) rfl x0 ht
  have h0 : trustRegion cfg env (fun x => aff g (if maximise then -e else e) (objective maximise f x))
      ((St.init n).units g (if maximise then -e else e)) x0 =
      trustRegion cfg env (fun x => aff g (if maximise then -e else e) (objective maximise f x)) (St.init n) x0 := by
    unfold trustRegion
    simp only [start_init_units]
  rw [h0] at key
  intro a b
  set T := trustRegion cfg env (objective maximise f) (St.init n) x0 with hT
  have hb : b = (T.units g (if maximise then -e else e), ⟨(T.units g (if maximise then -e else e)).sOld,
        if maximise then (T.units g (if maximise then -e else e)).fOld * -1
        else (T.units g (if maximise then -e else e)).fOld, (T.units g (if maximise then -e else e)).evals⟩) := by
    show optimise cfg env maximise (fun x => g * f x + e) (St.init n) x0 = _
    unfold optimise
    simp only [objective_units, key]
  have ha : a = (T, ⟨T.sOld, if maximise then T.fOld * -1 else T.fOld, T.evals⟩) := rfl
  rw [hb, ha]
  refine ⟨rfl, rfl, ?_, rfl⟩
  cases maximise
  · rfl
  · show (g * T.fOld + -e) * -1 = g * (T.fOld * -1) + e
    ring

/-- A predicted decrease below `100 ε` counts as a full success, whatever the objective did: the radius grows. -/
theorem iter_flat (cfg : Cfg n) (env : Env n) (obj : Pt n → ℝ) (r : Run n) (hr : RunInv cfg obj r) (h0 : ¬(r.st.evals ≥ cfg.maxEvals ∨ r.st.rho ≤ cfg.rhoMin))
    (m : Step n) (hm : env.build r.st r.S r.f = some m) (hd : cfg.omegaS * r.st.rho ≤ normInf fun i => m.sNew i - r.st.sOld i)
    (hev : r.st.evals + 1 < cfg.maxEvals) (hflat : |m.atOld - m.mNew| < 100 / 2 ^ 52) (heta : cfg.eta2 ≤ 1) :
    (iter cfg env obj r).1.st.del = max (cfg.gamInc * r.st.del) (cfg.gamIncBar * normInf fun i => m.sNew i - r.st.sOld i) ∧
    (iter cfg env obj r).1.st.count = 0 := by
  obtain ⟨b1, b2, b3, b4, b5⟩ := blackbox_spec hr.inv m.sNew
  have hb : (blackbox cfg obj r.st m.sNew).1.evals ≤ r.st.evals + 1 := by
    rw [b1.evals, b5, hr.inv.evals]
    split_ifs
    · omega
    · simp
  have p1 : Prim cfg env obj 1 r.st (blackbox cfg obj r.st m.sNew).1 := .eval _ (.refl _) (.inl ⟨_, _, _, hm, rfl⟩)
  obtain ⟨-, -, -, hex⟩ := replaceSet_spec (env := env) (hr.prim p1) (x := m.sNew) b4 b3
  unfold iter
  rw [if_neg h0, hm]
  simp only
  rw [if_neg (not_lt.2 hd), if_neg (by
    push Not
    rw [b2.rho]
    push Not at h0
    exact ⟨by omega, h0.2⟩)]
  simp only at hex ⊢
  unfold settle
  have e1 : ratioOf ((replaceSet cfg env obj { r with st := (blackbox cfg obj r.st m.sNew).1 } m.sNew (blackbox cfg obj r.st m.sNew).2).st.fOld -
      (blackbox cfg obj r.st m.sNew).2) (m.atOld - m.mNew) = 1 := by
    unfold ratioOf
    rw [if_pos hflat]
  simp only [e1]
  rw [if_pos (by simpa [setIterate] using heta)]
  constructor
  · simp only [setDel, updateBounds_del, setIterate]
    rw [hex.del, b2.del]
  · simp [setDel]

/-- The spread of the first two values. -/
noncomputable def gap (f : List ℝ) : ℝ := if 2 ≤ f.length then |f.getD 1 0 - f.getD 0 0| else 0

/-- Models that promise to lower the value by the spread of the first two, at the point `1/2` or the nearest one between the local bounds. -/
noncomputable def envSpan : Env 1 :=
  { envDemo with build := fun s _ f => some ⟨s.fOld, fun i => min (max (s.lo i) (1/2)) (s.hi i), s.fOld - gap f⟩ }

theorem gap_units {g : ℝ} (hg : 0 < g) (e : ℝ) (f : List ℝ) : gap (f.map (aff g e)) = g * gap f := by
  unfold gap
  rw [List.length_map]
  by_cases h : 2 ≤ f.length
  · rw [if_pos h, if_pos h, getD_map' (aff g e) f 1 0 0 (by omega), getD_map' (aff g e) f 0 0 0 (by omega), ← abs_of_pos hg, ← abs_mul, abs_of_pos hg]
    unfold aff
    congr 1
    ring
  · rw [if_neg h, if_neg h, mul_zero]

theorem envSpan_units {g : ℝ} (hg : 0 < g) (e : ℝ) : EnvUnits envSpan g e where
  build := by
    intro s S f _
    simp only [envSpan, Step.units, Option.map_some, St.units, Option.some.injEq, Step.mk.injEq, true_and, gap_units hg]
    unfold aff
    ring
  newPoint := fun _ _ _ => rfl
  randDirs := fun _ => rfl

theorem envSpan_ok : EnvOK envSpan where
  build := by
    intro s S f m h hm i
    simp only [envSpan, Option.some.injEq] at hm
    subst hm
    exact ⟨le_min (le_max_left _ _) ((h i).1.trans (h i).2), min_le_right _ _⟩
  newPoint := envDemo_ok.newPoint

/-- The state before the first pass of the run on `x ↦ x²` from `0`. -/
theorem first_pass : ∃ r : Run 1, (let s := start cfgDemo (objective false fun x => x 0 ^ 2) (St.init 1) fun _ => 0
      evalInitial cfgDemo (objective false fun x => x 0 ^ 2) (generateSet cfgDemo envSpan s (setSize 1)).tail ⟨s, [s.sOld], [s.fOld]⟩ = (r, false)) ∧
    RunInv cfgDemo (objective false fun x => x 0 ^ 2) r ∧ BoxInv cfgDemo r.st ∧ r.st.rho = 1 ∧ r.st.del = 1 ∧ r.st.sOld = (fun _ => 0) ∧ r.st.fOld = 0 ∧
    r.st.count = 0 ∧ r.st.evals ≤ 3 ∧ (∀ i, r.st.lo i = -1 ∧ r.st.hi i = 1) ∧ gap r.f = 1 := by
  set f : Pt 1 → ℝ := fun x => x 0 ^ 2 with hf
  have h := inv_init cfgDemo (objective false f)
  have hap : ∀ x, applyScaling cfgDemo x = x := fun x => by simp [applyScaling, cfgDemo]
  have hrm : ∀ x, removeScaling cfgDemo x = x := fun x => by simp [removeScaling, cfgDemo]
  obtain ⟨h1, h2, h3, h4, h5, h6⟩ := start_spec h (fun _ => 0)
  have hbox := start_box cfgDemo_signs h (by simp [St.init]) (x0 := fun _ => 0) (by
    rw [hap]; simp [Box, cfgDemo])
  have hdel : (start cfgDemo (objective false f) (St.init 1) fun _ => 0).del = 1 := by
    unfold start
    simp only [setDel, updateBounds_del, initRadius]
    rfl
  have hcount : (start cfgDemo (objective false f) (St.init 1) fun _ => 0).count = 0 := rfl
  rw [hap] at h3
  have hlo : ∀ i, (start cfgDemo (objective false f) (St.init 1) fun _ => 0).lo i = -1 ∧
      (start cfgDemo (objective false f) (St.init 1) fun _ => 0).hi i = 1 := by
    intro i
    have e1 := h3
    have e2 := hdel
    revert e1 e2
    unfold start
    simp only [setDel, updateBounds_del, updateBounds_sOld]
    intro e1 e2
    simp only [updateBounds, cfgDemo]
    simp only [cfgDemo] at e1
    rw [e1]
    simp [initRadius]
  have hev : (start cfgDemo (objective false f) (St.init 1) fun _ => 0).evals = 1 := by
    rw [h1.evals, h5]; simp [St.init]
  have hfo : (start cfgDemo (objective false f) (St.init 1) fun _ => 0).fOld = 0 := by
    rw [h2.value, h3]; simp [val, hrm, objective, hf]
  set s := start cfgDemo (objective false f) (St.init 1) (fun _ => 0) with hs
  have hlen : (generateSet cfgDemo envSpan s (setSize 1)).tail.length = 2 := by simp [generateSet, setSize]
  obtain ⟨g1, g2⟩ := evalInitial_ext (cfg := cfgDemo) (obj := objective false f)
    (generateSet cfgDemo envSpan s (setSize 1)).tail ⟨s, [s.sOld], [s.fOld]⟩ h1
  obtain ⟨g3, g4⟩ := g2 (by rw [hlen, hev]; norm_num [cfgDemo])
  obtain ⟨m, hm, hp, -, hset⟩ := evalInitial_spec (env := envSpan) (cfg := cfgDemo) (obj := objective false f) s
    (generateSet cfgDemo envSpan s (setSize 1)).tail
    ⟨s, [s.sOld], [s.fOld]⟩ 0 (.refl _) (Ext.refl _) h1 h2 ⟨by simp [h2.value], by simpa using h2.mem⟩
    (fun x hx => ⟨_, List.mem_of_mem_tail hx⟩)
  rcases hres : evalInitial cfgDemo (objective false f) (generateSet cfgDemo envSpan s (setSize 1)).tail
    ⟨s, [s.sOld], [s.fOld]⟩ with ⟨r, fl⟩
  rw [hres] at g1 g3 g4 hp hset
  simp only at g1 g3 g4 hp hset
  subst g3
  obtain ⟨hset1, hset2⟩ := hset rfl
  obtain ⟨i1, i2, -, -, -⟩ := hp.inv h1 h2
  have hri : RunInv cfgDemo (objective false f) r := ⟨i1, i2, hset1, by
    rw [hset2, List.length_append, hlen]; simp [setSize]⟩
  have hb1 := hp.box envSpan_ok cfgDemo_signs h1 h2 hbox
  refine ⟨r, hres, hri, hb1, by rw [g1.rho, h6, hdel], by rw [g1.del, hdel], by rw [g1.sOld, h3], by rw [g1.fOld, hfo],
    by rw [g1.count, hcount], by rw [hlen, hev] at g4; exact g4, fun i => by rw [g1.lo, g1.hi]; exact hlo i, ?_⟩
  rw [hset1.vals, hset2]
  have hpt : (generateSet cfgDemo envSpan s (setSize 1)).tail = [fun _ => 1, fun _ => -1] := by
    have e : (List.range (setSize 1 - 1)) = [0, 1] := by decide
    unfold generateSet
    rw [e]
    simp only [List.tail_cons, List.map_cons, List.map_nil, List.cons.injEq, and_true]
    constructor
    · funext i
      have hi := hlo i
      simp only [hi.1, hi.2, h3, hdel]
      norm_num [cfgDemo, coordDir, step1, (hlo 0).1, (hlo 0).2, Fin.fin_one_eq_zero i]
    · funext i
      have hi := hlo i
      simp only [hi.1, hi.2, h3, hdel]
      norm_num [cfgDemo, coordDir, step2, (hlo 0).1, (hlo 0).2, Fin.fin_one_eq_zero i]
  rw [hpt, h3]
  have e : List.map (val cfgDemo (objective false f)) ([fun _ => 0] ++ [fun _ => 1, fun _ => -1]) = [0, 1, 1] := by
    simp only [List.cons_append, List.nil_append, List.map_cons, List.map_nil, val, hrm, objective, hf]
    norm_num
  rw [e]
  norm_num [gap]

/-- **C199 is violated**: the first pass of the run on `x ↦ x²` from `0` rejects the step to `1/2` and halves the radius; for `x ↦ 10⁻²⁰ x²` the run goes through the same
state in the new units, takes the same step for a success and doubles the radius. -/
theorem c199_units_violated : ∃ r : Run 1, EnvUnits envSpan (1/10^20) 0 ∧
    Passes cfgDemo envSpan (objective false fun x => x 0 ^ 2) (St.init 1) (fun _ => 0) r ∧
    Passes cfgDemo envSpan (objective false fun x => 1/10^20 * x 0 ^ 2 + 0) (St.init 1) (fun _ => 0) (r.units (1/10^20) 0) ∧
    (iter cfgDemo envSpan (objective false fun x => x 0 ^ 2) r).1.st.del = 1/2 ∧
    (iter cfgDemo envSpan (objective false fun x => 1/10^20 * x 0 ^ 2 + 0) (r.units (1/10^20) 0)).1.st.del = 2 := by
  obtain ⟨r, hr, hri, hb1, hrho, hrdel, hso, hfo, hco, hev, hlo, hgap⟩ := first_pass
  have hg : (0 : ℝ) < 1/10^20 := by norm_num
  have hob := objective_units false (fun x : Pt 1 => x 0 ^ 2) (1/10^20) 0
  simp only [Bool.false_eq_true, if_false] at hob
  have hrm : ∀ x, removeScaling cfgDemo x = x := fun x => by simp [removeScaling, cfgDemo]
  have hstep : (fun i => min (max (r.st.lo i) (1/2)) (r.st.hi i)) = (fun _ : Fin 1 => (1/2 : ℝ)) := by
    funext i
    rw [(hlo i).1, (hlo i).2]
    norm_num
  have hbuild : envSpan.build r.st r.S r.f = some ⟨0, fun _ => 1/2, 0 - 1⟩ := by
    simp only [envSpan]
    rw [hstep, hfo, hgap]
  have hdist : (normInf fun i => (1/2 : ℝ) - r.st.sOld i) = 1/2 := by
    rw [normInf_one, hso]; norm_num
  refine ⟨r, envSpan_units hg 0, .first hr, ?_, ?_, ?_⟩
  · rw [hob]
    refine .first ?_
    obtain ⟨a1, a2⟩ := start_units cfgDemo (objective false fun x : Pt 1 => x 0 ^ 2) (1/10^20) 0 (St.init 1) rfl fun _ => 0
    rw [start_init_units] at a1
    rw [a1, generateSet_units cfgDemo envSpan (1/10^20) 0 (envSpan_units hg 0)]
    have := (evalInitial_units cfgDemo (objective false fun x : Pt 1 => x 0 ^ 2) (1/10^20) 0
      (generateSet cfgDemo envSpan (start cfgDemo (objective false fun x => x 0 ^ 2) (St.init 1) fun _ => 0) (setSize 1)).tail
      ⟨start cfgDemo (objective false fun x => x 0 ^ 2) (St.init 1) fun _ => 0, [(start cfgDemo (objective false fun x => x 0 ^ 2) (St.init 1) fun _ => 0).sOld],
        [(start cfgDemo (objective false fun x => x 0 ^ 2) (St.init 1) fun _ => 0).fOld]⟩ ⟨a2, rfl⟩).1
    exact this.trans (by rw [hr])
  · obtain ⟨i1, i2⟩ : Inv cfgDemo (objective false fun x => x 0 ^ 2) r.st ∧ Old cfgDemo (objective false fun x => x 0 ^ 2) r.st := ⟨hri.inv, hri.old⟩
    obtain ⟨b1, b2, b3, b4, b5⟩ := blackbox_spec i1 (fun _ => (1/2 : ℝ))
    have p1 : Prim cfgDemo envSpan (objective false fun x => x 0 ^ 2) 1 r.st
        (blackbox cfgDemo (objective false fun x => x 0 ^ 2) r.st (fun _ => (1/2 : ℝ))).1 :=
      .eval _ (.refl _) (.inl ⟨_, _, _, hbuild, rfl⟩)
    have hev4 : (blackbox cfgDemo (objective false fun x => x 0 ^ 2) r.st (fun _ => (1/2 : ℝ))).1.evals ≤ 4 := by
      have := (p1.inv i1 i2).2.2.2.1
      omega
    obtain ⟨⟨k, hk, hp2⟩, hri2, -, hex⟩ := replaceSet_spec (env := envSpan) (hri.prim p1) (x := fun _ => 1/2) b4 b3
    unfold iter
    rw [if_neg (by
      push Not
      rw [hrho]
      exact ⟨lt_of_le_of_lt hev (by norm_num [cfgDemo]), by norm_num [cfgDemo]⟩), hbuild]
    simp only
    rw [hdist, if_neg (by rw [hrho]; norm_num [cfgDemo]), if_neg (by
      push Not
      rw [b2.rho, hrho]
      exact ⟨lt_of_le_of_lt hev4 (by norm_num [cfgDemo]), by norm_num [cfgDemo]⟩)]
    simp only at hp2 hex hri2 ⊢
    generalize hr2 : replaceSet cfgDemo envSpan (objective false fun x => x 0 ^ 2)
      { r with st := (blackbox cfgDemo (objective false fun x => x 0 ^ 2) r.st (fun _ => (1/2 : ℝ))).1 } (fun _ => 1/2)
      (blackbox cfgDemo (objective false fun x => x 0 ^ 2) r.st (fun _ => (1/2 : ℝ))).2 = r2 at *
    have hb2 := (p1.trans hp2).box envSpan_ok cfgDemo_signs i1 i2 hb1
    have hrho2 : r2.st.rho = 1 := by rw [hex.rho, b2.rho, hrho]
    have hdel2 : r2.st.del = 1 := by rw [hex.del, b2.del, hrdel]
    have hfo2 : r2.st.fOld = 0 := by rw [hex.fOld, b2.fOld, hfo]
    have hc2 : r2.st.count = 0 := by rw [hex.count, b2.count, hco]
    have hval : (blackbox cfgDemo (objective false fun x => x 0 ^ 2) r.st (fun _ => (1/2 : ℝ))).2 = 1/4 := by
      rw [b3]
      simp only [val, hrm, objective]
      norm_num
    have hb3 := (Prim.iterate (.refl r2.st) : Prim cfgDemo envSpan (objective false fun x => x 0 ^ 2) 0 r2.st _).box envSpan_ok
      cfgDemo_signs hri2.inv hri2.old hb2
    obtain ⟨q1, -⟩ := settle_reject cfgDemo envSpan (objective false fun x => x 0 ^ 2) r2
      (blackbox cfgDemo (objective false fun x => x 0 ^ 2) r.st (fun _ => (1/2 : ℝ))).2 (0 - (0 - 1)) (1/2)
      (by rw [hrho2, hdel2]; norm_num [cfgDemo]) (by
        rw [hfo2, hval]
        unfold ratioOf
        rw [if_neg (by norm_num)]
        norm_num [cfgDemo]) (by norm_num [cfgDemo]) (by rw [hc2]; norm_num) (by
        intro x hx
        rw [normInf_one, hrho2]
        have c1 := hb2.pts x (hri2.set.mem x hx)
        have c2 := hb3.sOld
        simp only [Box, cfgDemo] at c1 c2
        simp only [Bool.false_eq_true, if_false] at c1 c2
        have c3 := c1 0
        have c4 := c2 0
        simp only [cfgDemo]
        rw [abs_le]
        constructor <;> linarith) (by rw [hrho2]; norm_num [cfgDemo])
    rw [q1, hrho2]
    norm_num [cfgDemo]
  · have hval : ∀ x, val cfgDemo (objective false fun x => 1/10^20 * x 0 ^ 2 + 0) x = aff (1/10^20) 0 (val cfgDemo (objective false fun x => x 0 ^ 2) x) := by
      intro x
      rw [hob]
      rfl
    have hri' : RunInv cfgDemo (objective false fun x => 1/10^20 * x 0 ^ 2 + 0) (r.units (1/10^20) 0) := by
      refine ⟨⟨?_, hri.inv.nodup, hri.inv.evals, hri.inv.calls⟩, ⟨hri.old.mem, ?_⟩, ⟨?_, hri.set.mem⟩, hri.len⟩
      · show r.st.f.map _ = _
        rw [hri.inv.vals, List.map_map]
        exact List.map_congr_left fun x _ => (hval x).symm
      · show aff _ _ r.st.fOld = _
        rw [hri.old.value, hval]
        rfl
      · show r.f.map _ = _
        rw [hri.set.vals, List.map_map]
        exact List.map_congr_left fun x _ => (hval x).symm
    have hb' : envSpan.build (r.units (1/10^20) 0).st (r.units (1/10^20) 0).S (r.units (1/10^20) 0).f =
        some (Step.units (1/10^20) 0 ⟨0, fun _ => 1/2, 0 - 1⟩) := by
      have := (envSpan_units hg 0).build r.st r.S r.f (by rw [hri.set.vals]; simp)
      rw [hbuild] at this
      exact this
    have e1 : (r.units (1/10^20) 0).st.rho = 1 := hrho
    have e2 : (r.units (1/10^20) 0).st.del = 1 := hrdel
    have e3 : (r.units (1/10^20) 0).st.evals ≤ 3 := hev
    have e4 : (normInf fun i => (Step.units (1/10^20) 0 (⟨0, fun _ => 1/2, 0 - 1⟩ : Step 1)).sNew i - (r.units (1/10^20) 0).st.sOld i) = 1/2 := hdist
    have := (iter_flat cfgDemo envSpan (objective false fun x => 1/10^20 * x 0 ^ 2 + 0) _ hri' (by
      push Not
      rw [e1]
      exact ⟨lt_of_le_of_lt e3 (by norm_num [cfgDemo]), by norm_num [cfgDemo]⟩) _ hb' (by
      rw [e1, e4]; norm_num [cfgDemo]) (by
      have : cfgDemo.maxEvals = 10000 := rfl
      omega) (by
      simp only [Step.units, aff]
      norm_num [abs_of_pos]) (by norm_num [cfgDemo])).1
    rw [this, e2, e4]
    norm_num [cfgDemo]

/-- A model that promises nothing. -/
noncomputable def envFlat : Env 1 :=
  { envDemo with build := fun s _ _ => some ⟨s.fOld, fun i => min (max (s.lo i) (1/2)) (s.hi i), s.fOld⟩ }

theorem envFlat_units (g e : ℝ) : EnvUnits envFlat g e := ⟨fun _ _ _ _ => rfl, fun _ _ _ => rfl, fun _ => rfl⟩

example : (optimise cfgDemo envFlat true (fun x => 9/5 * -x 0 ^ 2 + 32) (St.init 1) fun _ => 1/3).2.fn =
    9/5 * (optimise cfgDemo envFlat true (fun x => -x 0 ^ 2) (St.init 1) fun _ => 1/3).2.fn + 32 :=
  (c199_units_partial cfgDemo envFlat true (fun x => -x 0 ^ 2) (9/5) 32 (by norm_num) (envFlat_units _ _) _ (by
    intro r m _ hm
    simp only [envFlat, Option.some.injEq] at hm
    rw [← hm]
    simp [SameTest])).2.2.1

example : (optimise cfgDemo envSpan false (fun x => 1 * x 0 ^ 2 + 273) (St.init 1) fun _ => 1/3).1.calls =
    (optimise cfgDemo envSpan false (fun x => x 0 ^ 2) (St.init 1) fun _ => 1/3).1.calls :=
  (c199_units_partial cfgDemo envSpan false (fun x => x 0 ^ 2) 1 273 one_pos (envSpan_units one_pos _) _ (by
    intro r m _ _
    simp [SameTest])).1

/-! ## The fitted models -/

/-- A minimiser that does not mind the units of the function. -/
def TncUnits (tnc : Tnc n) (g : ℝ) : Prop := ∀ (f : Pt n → ℝ) (df : Pt n → Pt n) s lo hi e,
  tnc (fun x => aff g e (f x)) (fun x i => g * df x i) s lo hi = ((tnc f df s lo hi).1, aff g e (tnc f df s lo hi).2)

theorem isQuadratic_aff {q : Pt n → ℝ} (h : IsQuadratic q) (g e : ℝ) : IsQuadratic fun x => aff g e (q x) := by
  obtain ⟨c, b, A, h⟩ := h
  refine ⟨g * c + e, fun i => g * b i, fun i j => g * A i j, fun x => ?_⟩
  beta_reduce
  rw [h]
  unfold aff
  simp only [mul_add, Finset.mul_sum, mul_assoc]
  ring

/-- **C199, models.** The condition above on the models is what the fitted models fulfil: for `(n + 1)(n + 2)/2` points that determine a quadratic and
local bounds with interior, values in other units give the model in other units and the same step. -/
theorem c199_model {lstsq : Lstsq} (hl : LstsqOK lstsq) {tnc : Tnc n} {g : ℝ} (ht : TncUnits tnc g) (hn : 0 < n) (st : St n)
    (hb : ∀ i, st.lo i < st.hi i) (S : List (Pt n)) (hS : Determines S) (hlen : S.length = (n + 1) * (n + 2) / 2) (f : List ℝ)
    (hf : f.length = S.length) (e : ℝ) :
    ∃ m, buildStepTR lstsq tnc st S f = some m ∧ buildStepTR lstsq tnc (st.units g e) S (f.map (aff g e)) = some (m.units g e) := by
  obtain ⟨F, h1, h2, h3, h4⟩ := c148_interpolates hl hn st hb S hS hlen f hf
  obtain ⟨G, g1, g2, g3, g4⟩ := c148_interpolates hl hn (st.units g e) hb S hS hlen (f.map (aff g e)) (by simpa using hf)
  have hG : (fun x : Pt n => aff g e (valueAt F x)) = valueAt G := by
    refine g4 _ (isQuadratic_aff h2 g e) ?_
    rw [← h3, List.map_map]
    rfl
  obtain ⟨F', f1, f2⟩ := c146_model hl hn st S f
  obtain rfl : F = F' := Except.ok.inj (h1.symm.trans f1)
  obtain ⟨G', k1, k2⟩ := c146_model hl hn (st.units g e) S (f.map (aff g e))
  obtain rfl : G = G' := Except.ok.inj (g1.symm.trans k1)
  have hgrad : (gradAt G : Pt n → Pt n) = fun x i => g * gradAt F x i := by
    funext x
    refine isGradient_unique (k2 x) ?_
    rw [← hG]
    have := (HasFDerivAt.const_mul (f2 x) g).add_const e
    unfold IsGradient
    refine this.congr_fderiv ?_
    ext v
    simp [Finset.mul_sum, mul_assoc]
  refine ⟨stepTR tnc st F, by unfold buildStepTR; rw [h1], ?_⟩
  unfold buildStepTR
  rw [g1]
  simp only [stepTR, Step.units, ← hG, hgrad]
  have := ht (valueAt F) (gradAt F)
  simp only [this]
  rfl

theorem tncStay_units (g : ℝ) : TncUnits (tncStay : Tnc n) g := fun _ _ _ _ _ _ => rfl

example : ∃ m, buildStepTR lstsqDemo tncStay stDemo (generateSet cfgDemo envDemo stDemo (setSize 1)) [0, 1, 1] = some m ∧
    buildStepTR lstsqDemo tncStay (stDemo.units (9/5) 32) (generateSet cfgDemo envDemo stDemo (setSize 1)) ([0, 1, 1].map (aff (9/5) 32)) =
      some (m.units (9/5) 32) :=
  have hlen : (generateSet cfgDemo envDemo stDemo (setSize 1)).length = 3 := by simp [generateSet, setSize]
  c199_model lstsqDemo_ok (tncStay_units _) one_pos stDemo (fun i => by norm_num [stDemo]) _ determines_demo hlen [0, 1, 1] hlen.symm 32

end EQ.Opt
