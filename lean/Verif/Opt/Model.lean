import Verif.Basis.Model
import Mathlib.Analysis.Real.Sqrt
import Mathlib.Data.List.Sort
import Mathlib.Order.PiLex
import Mathlib.Data.Nat.Factorial.Basic
import Mathlib.Algebra.BigOperators.Fin

/-!
# Model of the trust-region method of `equadratures/optimisation.py`

A point is a function `Fin n → ℝ`; a sample set is a list of points together with the list of its
values. Arithmetic is exact (a division by a zero pivot in the LU loop gives `0` here and `inf` or
`nan` in numpy). Outside calls are collected in `Env`: the fit of the quadratic model together with
its minimisation by scipy's TNC (`_build_model`, `_compute_step`), the search for a new point
(`_find_new_point`), the random directions, `np.argsort`. They are arbitrary functions; where a
theorem needs more (that TNC respects its bounds) this is an explicit hypothesis.
-/

namespace EQ.Opt
open EQ.Basis

variable {n : ℕ}

/-- A point. -/
abbrev Pt (n : ℕ) := Fin n → ℝ

/-- `np.linalg.norm(x, ord=np.inf)`. -/
noncomputable def normInf (x : Pt n) : ℝ := (List.ofFn fun i => |x i|).foldr max 0

/-- `np.argmin`: the first position of a smallest entry. -/
noncomputable def argmin : List ℝ → ℕ
  | [] => 0
  | a :: l => match l with
    | [] => 0
    | b :: l' => if a ≤ (b :: l').getD (argmin (b :: l')) 0 then 0 else argmin (b :: l') + 1

/-- `np.argmax`. -/
noncomputable def argmax (l : List ℝ) : ℕ := argmin (l.map fun a => -a)

/-- `max(...)` of a list of non-negative numbers. -/
noncomputable def maxList (l : List ℝ) : ℝ := l.foldr max 0

/-- Settings of a run: the attribute `bounds` (optimisation.py:80-81), the keyword arguments
(optimisation.py:271-278), and the constants of `_start` (optimisation.py:815-816). -/
structure Cfg (n : ℕ) where
  bounds : Option (Pt n × Pt n)
  scale : Bool
  delInit : Option ℝ
  rhoMin : ℝ
  eta1 : ℝ
  eta2 : ℝ
  gamDec : ℝ
  gamInc : ℝ
  gamIncBar : ℝ
  alpha1 : ℝ
  alpha2 : ℝ
  omegaS : ℝ
  maxEvals : ℕ
  random : Bool
  itermax : ℕ
  eps1 : ℝ
  eps2 : ℝ
  basis : ℕ → Fin n → ℕ

/-- The attributes that change in a run. `calls` is not an attribute: it lists the arguments with which
the user's function has been called. -/
structure St (n : ℕ) where
  S : List (Pt n)
  f : List ℝ
  evals : ℕ
  sOld : Pt n
  fOld : ℝ
  del : ℝ
  rho : ℝ
  count : ℕ
  ratio : ℝ
  lo : Pt n
  hi : Pt n
  calls : List (Pt n)

/-- What a fitted model and its minimisation give: the model at the incumbent, the minimiser, the
model there. -/
structure Step (n : ℕ) where
  atOld : ℝ
  sNew : Pt n
  mNew : ℝ

/-- The outside calls. `build` is `none` if fitting the model raises; `newPoint` is given the basis functions and the vector of
optimisation.py:714-740, and is `none` if it raises. `Opt.Surrogate` spells both out. -/
structure Env (n : ℕ) where
  build : St n → List (Pt n) → List ℝ → Option (Step n)
  newPoint : St n → (Pt n → ℕ → ℝ) → (ℕ → ℝ) → Option (Pt n)
  randDirs : St n → ℕ → ℕ → Pt n
  argsort : List ℝ → List ℕ

/-- optimisation.py:478-484 `_apply_scaling`. -/
noncomputable def applyScaling (cfg : Cfg n) (x : Pt n) : Pt n :=
  match cfg.bounds with
  | some (l, u) => if cfg.scale then fun i => (x i - l i) / (u i - l i) else x
  | none => x

/-- optimisation.py:486-492 `_remove_scaling`. -/
noncomputable def removeScaling (cfg : Cfg n) (x : Pt n) : Pt n :=
  match cfg.bounds with
  | some (l, u) => if cfg.scale then fun i => l i + x i * (u i - l i) else x
  | none => x

/-- optimisation.py:367-378 `_update_bounds`. -/
noncomputable def updateBounds (cfg : Cfg n) (s : St n) : St n :=
  match cfg.bounds with
  | some (l, u) =>
    if cfg.scale then
      { s with lo := fun i => max 0 (s.sOld i - s.del), hi := fun i => min 1 (s.sOld i + s.del) }
    else { s with lo := fun i => max (l i) (s.sOld i - s.del), hi := fun i => min (u i) (s.sOld i + s.del) }
  | none => { s with lo := fun i => s.sOld i - s.del, hi := fun i => s.sOld i + s.del }

/-- optimisation.py:303-305 `_set_del_k`. -/
noncomputable def setDel (cfg : Cfg n) (v : ℝ) (s : St n) : St n := updateBounds cfg { s with del := v }

/-- optimisation.py:297-301 `_set_iterate`. -/
noncomputable def setIterate (cfg : Cfg n) (s : St n) : St n :=
  updateBounds cfg { s with
    sOld := s.S.getD (argmin s.f) s.sOld
    fOld := s.f.getD (argmin s.f) s.fOld }

/-- optimisation.py:348-365 `_blackbox_evaluation`. -/
noncomputable def blackbox (cfg : Cfg n) (obj : Pt n → ℝ) (s : St n) (x : Pt n) : St n × ℝ :=
  if s.S.length > 0 ∧ (s.S ++ [x]).dedup.length = s.S.length then
    (s, s.f.getD (argmin (s.S.map fun y => normInf fun i => y i - x i)) 0)
  else
    let v := obj (removeScaling cfg x)
    ({ s with S := s.S ++ [x], f := s.f ++ [v], evals := s.evals + 1,
              calls := s.calls ++ [removeScaling cfg x] }, v)

/-! ## Sample points -/

/-- optimisation.py:468-476 `_get_scale`. -/
noncomputable def getScale (dirn : Pt n) (delta : ℝ) (lower upper : Pt n) : ℝ :=
  (List.finRange n).foldl (fun sc j =>
    if dirn j < 0 then min sc (lower j / dirn j)
    else if dirn j > 0 then min sc (upper j / dirn j)
    else sc) delta

/-- optimisation.py:403-405: the step of direction `c` in the first round. -/
noncomputable def step1 (del : ℝ) (upper : Pt n) (c : Fin n) : ℝ :=
  if upper c < 1/10^8 * del then -del else del

/-- optimisation.py:406-413: the step of direction `c` in the second round. -/
noncomputable def step2 (del : ℝ) (lower upper : Pt n) (c : Fin n) : ℝ :=
  let st := -del
  let st := if lower c > -(1/10^8 * del) then min (2 * del) (upper c) else st
  if upper c < 1/10^8 * del then max (-2 * del) (lower c) else st

/-- optimisation.py:415-419: the two coordinates (counted from 1) of direction `i` of the third round. -/
def pairOf (n i : ℕ) : ℕ × ℕ :=
  let itemp := (i - n - 1) / n
  let q := i - itemp * n - n
  let p := q + itemp
  if p > n then (q, p - n) else (p, q)

/-- optimisation.py:394-422 `_coordinate_directions`: row `i` of the result (for `i ≥ 1`). -/
noncomputable def coordDir (del : ℝ) (lower upper : Pt n) (i : ℕ) : Pt n := fun c =>
  if i < n + 1 then
    if c.val = i - 1 then step1 del upper c else 0
  else if i < 2 * n + 1 then
    if c.val = i - n - 1 then step2 del lower upper c else 0
  else
    if c.val + 1 = (pairOf n i).2 ∨ c.val + 1 = (pairOf n i).1 then step1 del upper c else 0

/-- optimisation.py:380-392 `_generate_set`. -/
noncomputable def generateSet (cfg : Cfg n) (env : Env n) (s : St n) (num : ℕ) : List (Pt n) :=
  s.sOld :: (List.range (num - 1)).map fun k : ℕ => fun c =>
    let lower := s.lo c - s.sOld c
    let upper := s.hi c - s.sOld c
    let dir := if cfg.random then env.randDirs s num (k + 1)
      else coordDir s.del (fun c => s.lo c - s.sOld c) (fun c => s.hi c - s.sOld c) (k + 1)
    s.sOld c + min (max lower (dir c)) upper

/-- `np.unique(np.vstack((S, s)), axis=0).shape[0] == S.shape[0] + 1`. -/
noncomputable def fresh (S : List (Pt n)) (x : Pt n) : Bool := (S ++ [x]).dedup.length = S.length + 1

/-- `np.dot(v, phi)` for vectors of length `q`. -/
noncomputable def dot (q : ℕ) (v φ : ℕ → ℝ) : ℝ := ((List.range q).map fun j => v j * φ j).sum

/-- optimisation.py:742-750 `_find_new_point_alternative`. -/
noncomputable def altPoint (cfg : Cfg n) (env : Env n) (s : St n) (q : ℕ) (φ : Pt n → ℕ → ℝ) (v : ℕ → ℝ)
    (S : List (Pt n)) : Pt n :=
  let tmp := generateSet cfg env s ((n + 1) * (n + 2) / 2)
  let cands := ((env.argsort (tmp.map fun x => |dot q v (φ x)|)).reverse).filterMap fun i => tmp[i]?
  match cands.find? (fresh S) with
  | some x => x
  | none => cands.headD s.sOld

/-! ## The LU loop -/

/-- The optional argument `method` of `_LU_pivoting`. -/
inductive LUMethod | replace | improve | new
  deriving DecidableEq

/-- The variables of the loop of `_LU_pivoting`. -/
structure LU (n : ℕ) where
  st : St n
  S : List (Pt n)
  f : List ℝ
  hatS : List (Pt n)
  hatF : List ℝ
  U : List (ℕ → ℝ)

/-- Entry of `U`. -/
def LU.u (a : LU n) (j i : ℕ) : ℝ := a.U.getD j (fun _ => 0) i

/-- optimisation.py:586-589: the vector `v` of step `k`. -/
noncomputable def luV (U : List (ℕ → ℝ)) (k : ℕ) : ℕ → ℝ := fun j =>
  if j < k then -(U.getD j (fun _ => 0) k) / U.getD j (fun _ => 0) j else if j = k then 1 else 0

/-- optimisation.py:628-633: row `k` of `U`. -/
noncomputable def luRow (q : ℕ) (U : List (ℕ → ℝ)) (k : ℕ) (φ : ℕ → ℝ) : ℕ → ℝ := fun i =>
  if i < k then 0
  else if i = k then dot q (luV U k) φ
  else φ i - ((List.range k).map fun j =>
    φ j * U.getD j (fun _ => 0) i / U.getD j (fun _ => 0) j).sum

/-- optimisation.py:592-602: is the best of the points at hand used? -/
noncomputable def luFlag (method : LUMethod) (psi2 : ℝ) (q k : ℕ) (hatF : List ℝ) (best : ℝ) : Bool :=
  if hatF.length > 0 then
    if best < 1/10^4 then false
    else if method = .improve ∧ (k = q - 1 ∧ best < psi2) then false
    else if method = .new ∧ best < psi2 then false
    else true
  else false

/-- optimisation.py:604-609 and 618-623: the point at hand with number `index` becomes point `k`. -/
noncomputable def luPick (q : ℕ) (φ : Pt n → ℕ → ℝ) (a : LU n) (k index : ℕ) : LU n :=
  let x := a.hatS.getD index a.st.sOld
  { a with
    S := a.S ++ [x]
    f := a.f ++ [a.hatF.getD index 0]
    hatS := a.hatS.eraseIdx index
    hatF := a.hatF.eraseIdx index
    U := a.U ++ [luRow q a.U k (φ x)] }

/-- optimisation.py:612-617: the new point tried in a step of `_LU_pivoting`. -/
noncomputable def choosePoint (cfg : Cfg n) (env : Env n) (st : St n) (q : ℕ) (φ : Pt n → ℕ → ℝ) (v : ℕ → ℝ)
    (S : List (Pt n)) : Pt n :=
  match env.newPoint st φ v with
  | some x => if fresh S x then x else altPoint cfg env st q φ v S
  | none => altPoint cfg env st q φ v S

/-- optimisation.py:584-633: step `k` of the loop of `_LU_pivoting`. -/
noncomputable def luStep (cfg : Cfg n) (env : Env n) (obj : Pt n → ℝ) (method : LUMethod) (psi2 : ℝ)
    (q : ℕ) (φ : Pt n → ℕ → ℝ) (a : LU n) (k : ℕ) : LU n :=
  let v := luV a.U k
  let M := a.hatS.map fun x => |dot q v (φ x)|
  let index := argmax M
  let best := M.getD index 0
  if luFlag method psi2 q k a.hatF best then luPick q φ a k index
  else
    let x := choosePoint cfg env a.st q φ v a.S
    if a.hatF.length > 0 ∧ best ≥ |dot q v (φ x)| then luPick q φ a k index
    else
      let r := blackbox cfg obj a.st x
      { a with st := r.1, S := a.S ++ [x], f := a.f ++ [r.2], U := a.U ++ [luRow q a.U k (φ x)] }

/-- optimisation.py:569-634 `_LU_pivoting`, with the arrays `S`, `f` as lists of the rows filled so far
(the first is the incumbent). -/
noncomputable def luPivot (cfg : Cfg n) (env : Env n) (obj : Pt n → ℝ) (method : LUMethod) (psi2 : ℝ)
    (q : ℕ) (φ : Pt n → ℕ → ℝ) (st : St n) (hatS : List (Pt n)) (hatF : List ℝ) : LU n :=
  (List.range' 1 (q - 1)).foldl (luStep cfg env obj method psi2 q φ)
    ⟨st, [st.sOld], [st.fOld], hatS, hatF, [φ st.sOld]⟩

/-- optimisation.py:636-652 `phi_function` for the trust-region method. -/
noncomputable def phiTR (cfg : Cfg n) (st : St n) (hatS : List (Pt n)) (x : Pt n) (k : ℕ) : ℝ :=
  let D := if hatS.length > 0 then maxList (hatS.map fun y => normInf fun i => y i - st.sOld i) else st.del
  ∏ i, ((x i - st.sOld i) / D) ^ cfg.basis k i / (cfg.basis k i).factorial

/-- The largest distance of a sample set from the incumbent. -/
noncomputable def spread (st : St n) (S : List (Pt n)) : ℝ :=
  maxList (S.map fun y => normInf fun i => y i - st.sOld i)

/-- optimisation.py:534: `dist`. -/
noncomputable def limit (cfg : Cfg n) (st : St n) : ℝ := max (cfg.eps1 * st.del) (cfg.eps2 * st.rho)

/-- optimisation.py:760-764 `_remove_furthest_point`. -/
noncomputable def removeFurthest (st : St n) (r : List (Pt n) × List ℝ) : List (Pt n) × List ℝ :=
  let i := argmax (r.1.map fun y => normInf fun i => y i - st.sOld i)
  (r.1.eraseIdx i, r.2.eraseIdx i)

/-- optimisation.py:753-757 `_remove_point_from_set`. -/
noncomputable def removePoint (st : St n) (r : List (Pt n) × List ℝ) : List (Pt n) × List ℝ :=
  let keep := (r.1.zip r.2).filter fun a => normInf (fun i => a.1 i - st.sOld i) ≠ 0
  (keep.map Prod.fst, keep.map Prod.snd)

/-- `np.unique(S, axis=0, return_index=True)` and `f[indices]`: the first of equal rows is kept, the
rows are sorted lexicographically. -/
noncomputable def uniqueRows (r : List (Pt n) × List ℝ) : List (Pt n) × List ℝ :=
  let first := (List.range r.1.length).filter fun i =>
    (List.range i).all fun j => r.1.getD j default ≠ r.1.getD i default
  let rows := first.map fun i => (r.1.getD i default, r.2.getD i 0)
  let sorted := rows.mergeSort fun a b => decide (toLex a.1 ≤ toLex b.1)
  (sorted.map Prod.fst, sorted.map Prod.snd)

/-- A sample set and the object. -/
structure Run (n : ℕ) where
  st : St n
  S : List (Pt n)
  f : List ℝ

/-- The number of points of the sample set of the trust-region method (optimisation.py:821-822). -/
def setSize (n : ℕ) : ℕ := (n + 1) * (n + 2) / 2

/-- optimisation.py:535-548 `_sample_set('replace', ...)`, for the trust-region method. -/
noncomputable def replaceSet (cfg : Cfg n) (env : Env n) (obj : Pt n → ℝ) (r : Run n) (sNew : Pt n)
    (fNew : ℝ) : Run n :=
  let hat := (r.S ++ [sNew], r.f ++ [fNew])
  let hat :=
    if hat.1.dedup.length ≠ hat.1.length then uniqueRows hat
    else if hat.2.length > setSize n ∧ spread r.st hat.1 > limit cfg r.st then removeFurthest r.st hat
    else hat
  let hat := removePoint r.st hat
  let a := luPivot cfg env obj .replace (1/4) (setSize n) (phiTR cfg r.st hat.1) r.st hat.1 hat.2
  ⟨a.st, a.S, a.f⟩

/-- optimisation.py:549-559 `_sample_set('improve', ...)`, for the trust-region method. -/
noncomputable def improveSet (cfg : Cfg n) (env : Env n) (obj : Pt n → ℝ) (r : Run n) : Run n :=
  let hat := if spread r.st r.S > limit cfg r.st then removeFurthest r.st (r.S, r.f) else (r.S, r.f)
  let hat := removePoint r.st hat
  let a := luPivot cfg env obj .improve (1/4) (setSize n) (phiTR cfg r.st hat.1) r.st hat.1 hat.2
  ⟨a.st, a.S, a.f⟩

/-! ## The run -/

/-- optimisation.py:500-505: the next resolution. -/
noncomputable def reduceRho (cfg : Cfg n) (rho : ℝ) : ℝ :=
  if rho ≥ 250 * cfg.rhoMin then cfg.alpha1 * rho
  else if 16 * cfg.rhoMin < rho ∧ rho < 250 * cfg.rhoMin then √(rho * cfg.rhoMin)
  else cfg.rhoMin

/-- optimisation.py:494-506 `_update_geometry_trust_region`. -/
noncomputable def updateGeometry (cfg : Cfg n) (env : Env n) (obj : Pt n → ℝ) (r : Run n) : Run n :=
  if spread r.st r.S > limit cfg r.st then improveSet cfg env obj r
  else if r.st.del = r.st.rho then
    let st := setDel cfg (cfg.alpha2 * r.st.rho) r.st
    if st.count ≥ 3 ∧ st.ratio < 0 then { r with st := { st with rho := reduceRho cfg st.rho } }
    else { r with st := st }
  else r

/-- optimisation.py:834-842: the initial radius. -/
noncomputable def initRadius (cfg : Cfg n) (x : Pt n) : ℝ :=
  match cfg.delInit with
  | some v => v
  | none => match cfg.bounds with
    | none => max (1/10 * normInf x) 1
    | some (l, u) => if cfg.scale then 1/10 else min (1/10 * normInf fun i => u i - l i) 1

/-- optimisation.py:811-844 `_start`. -/
noncomputable def start (cfg : Cfg n) (obj : Pt n → ℝ) (s : St n) (x0 : Pt n) : St n :=
  let s := { s with sOld := applyScaling cfg x0 }
  let r := blackbox cfg obj s s.sOld
  let s := { r.1 with fOld := r.2 }
  let s := setDel cfg (initRadius cfg s.sOld) s
  { s with count := 0, rho := s.del }

/-- optimisation.py:846-848 `_finish`. -/
noncomputable def finish (cfg : Cfg n) (s : St n) : St n :=
  setIterate cfg { s with S := s.S.map (removeScaling cfg) }

/-- optimisation.py:862-866: the evaluation of the initial sample set. The flag says that the budget
is used up. -/
noncomputable def evalInitial (cfg : Cfg n) (obj : Pt n → ℝ) : List (Pt n) → Run n → Run n × Bool
  | [], r => (r, false)
  | x :: xs, r =>
    let b := blackbox cfg obj r.st x
    let r' : Run n := ⟨b.1, r.S ++ [x], r.f ++ [b.2]⟩
    if b.1.evals ≥ cfg.maxEvals then (r', true) else evalInitial cfg obj xs r'

/-- optimisation.py:890-895: the ratio of actual to predicted reduction (`100 ε = 100 · 2⁻⁵²`). -/
noncomputable def ratioOf (delF delM : ℝ) : ℝ := if |delM| < 100 / 2^52 then 1 else delF / delM

/-- optimisation.py:889-906: the end of a pass: the ratio, the new incumbent, the new radius. -/
noncomputable def settle (cfg : Cfg n) (env : Env n) (obj : Pt n → ℝ) (r : Run n) (fNew delM stepDist : ℝ) :
    Run n :=
  let st := setIterate cfg { r.st with ratio := ratioOf (r.st.fOld - fNew) delM }
  if st.ratio ≥ cfg.eta2 then
    { r with st := setDel cfg (max (cfg.gamInc * st.del) (cfg.gamIncBar * stepDist)) { st with count := 0 } }
  else if st.ratio ≥ cfg.eta1 then
    { r with st := setDel cfg (max (max (cfg.gamDec * st.del) stepDist) st.rho) { st with count := 0 } }
  else
    updateGeometry cfg env obj { r with
      st := setDel cfg (max (min (cfg.gamDec * st.del) stepDist) st.rho) { st with count := st.count + 1 } }

/-- optimisation.py:867-906: one pass of the main loop. The flag says that the loop is left. -/
noncomputable def iter (cfg : Cfg n) (env : Env n) (obj : Pt n → ℝ) (r : Run n) : Run n × Bool :=
  if r.st.evals ≥ cfg.maxEvals ∨ r.st.rho ≤ cfg.rhoMin then (r, true)
  else
    match env.build r.st r.S r.f with
    | none => (improveSet cfg env obj r, false)
    | some m =>
      let stepDist := normInf fun i => m.sNew i - r.st.sOld i
      if stepDist < cfg.omegaS * r.st.rho then
        let st := { r.st with ratio := -1/10, count := 3 }
        let st := setDel cfg (max (cfg.gamDec * st.del) st.rho) st
        (updateGeometry cfg env obj { r with st := st }, false)
      else
        let b := blackbox cfg obj r.st m.sNew
        if b.1.evals ≥ cfg.maxEvals ∨ b.1.rho ≤ cfg.rhoMin then ({ r with st := b.1 }, true)
        else
          let r2 := replaceSet cfg env obj { r with st := b.1 } m.sNew b.2
          (settle cfg env obj r2 b.2 (m.atOld - m.mNew) stepDist, false)

/-- optimisation.py:867-906: the main loop with at most `fuel` passes (`itermax = 10000`). -/
noncomputable def loop (cfg : Cfg n) (env : Env n) (obj : Pt n → ℝ) : ℕ → Run n → Run n
  | 0, r => r
  | fuel + 1, r =>
    match iter cfg env obj r with
    | (r', true) => r'
    | (r', false) => loop cfg env obj fuel r'

/-- optimisation.py:850-908 `_trust_region`. -/
noncomputable def trustRegion (cfg : Cfg n) (env : Env n) (obj : Pt n → ℝ) (s : St n) (x0 : Pt n) : St n :=
  let s := start cfg obj s x0
  match evalInitial cfg obj (generateSet cfg env s (setSize n)).tail ⟨s, [s.sOld], [s.fOld]⟩ with
  | (r, true) => finish cfg r.st
  | (r, false) => finish cfg (loop cfg env obj cfg.itermax r).st

/-- The object before the first run (optimisation.py:20-31). -/
def St.init (n : ℕ) : St n :=
  ⟨[], [], 0, fun _ => 0, 0, 0, 0, 0, 0, fun _ => 0, fun _ => 0, []⟩

/-- The result of `optimise`. -/
structure Sol (n : ℕ) where
  x : Pt n
  fn : ℝ
  nfev : ℕ

/-- optimisation.py:49-51, 61 (`add_objective` with a custom function): the function minimised. -/
def objective (maximise : Bool) (f : Pt n → ℝ) (x : Pt n) : ℝ := (if maximise then -1 else 1) * f x

/-- optimisation.py:244-295 `optimise`, for the trust-region method: the object afterwards and the
result. -/
noncomputable def optimise (cfg : Cfg n) (env : Env n) (maximise : Bool) (f : Pt n → ℝ) (s : St n)
    (x0 : Pt n) : St n × Sol n :=
  let s := trustRegion cfg env (objective maximise f) s x0
  (s, ⟨s.sOld, if maximise then s.fOld * -1 else s.fOld, s.evals⟩)

end EQ.Opt
