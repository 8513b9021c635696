import Verif.Opt.Model

/-!
# Model of the `omorf` method of `equadratures/optimisation.py`

The method keeps two sample sets: `n + 1` points for a linear model of the whole space and
`(d + 1)(d + 2) / 2` points for a quadratic model of `d` directions. The directions are a list of points (the
columns of the attribute `U`). As for the trust-region method (`Verif.Opt.Model`) arithmetic is exact and outside
calls are arbitrary functions: the linear fit with its active subspace, the squared correlations, variable projection,
the fit of the quadratic model with its minimisation, the two searches for new points.
-/

namespace EQ.Opt
open EQ.Basis

variable {n : ℕ}

/-- The columns of the attribute `U`. -/
abbrev Dirs (n : ℕ) := List (Pt n)

/-- The argument `subspace_method` (optimisation.py:341-346): the two names the code compares with, or any other. -/
inductive SubMethod | active | varproj | other
  deriving DecidableEq

/-- The outside calls of the method. `active` are the columns of the matrix of eigenvectors of the linear fit
(optimisation.py:317-322), `r2` is the squared correlation of a quadratic fit along the given directions with the values
(optimisation.py:328-336), `varproj` is `Subspaces(method='variable-projection', ...).get_subspace()`
(optimisation.py:342-344). -/
structure OEnv (n : ℕ) where
  active : St n → List (Pt n) → List ℝ → Except Err (Dirs n)
  r2 : List (Pt n) → List ℝ → Dirs n → Except Err ℝ
  varproj : List (Pt n) → List ℝ → Dirs n → Except Err (Dirs n)
  build : Dirs n → St n → List (Pt n) → List ℝ → Option (Step n)
  newFull : St n → (Pt n → ℕ → ℝ) → (ℕ → ℝ) → Option (Pt n)
  newRed : Dirs n → St n → (Pt n → ℕ → ℝ) → (ℕ → ℝ) → Option (Pt n)
  randDirs : St n → ℕ → ℕ → Pt n
  argsort : List ℝ → List ℕ

/-- The outside calls seen by a sample set of the whole space. -/
def OEnv.full (e : OEnv n) : Env n := ⟨fun _ _ _ => none, e.newFull, e.randDirs, e.argsort⟩

/-- The outside calls seen by a sample set of the directions `U`. -/
def OEnv.red (e : OEnv n) (U : Dirs n) : Env n := ⟨e.build U, e.newRed U, e.randDirs, e.argsort⟩

/-! ## The directions -/

/-- optimisation.py:325-340: the loop that adds directions one by one. `np.argmax([])` raises. -/
noncomputable def greedy (e : OEnv n) (S : List (Pt n)) (f : List ℝ) : ℕ → Dirs n → Dirs n → Except Err (Dirs n)
  | 0, U0, _ => .ok U0
  | i + 1, U0, U1 =>
    match U1.mapM fun w => e.r2 S f (U0 ++ [w]) with
    | .error x => .error x
    | .ok R =>
      if R = [] then .error .valueError
      else greedy e S f i (U0 ++ [U1.getD (argmax R) 0]) (U1.eraseIdx (argmax R))

/-- optimisation.py:316-346 `_calculate_subspace`: the attribute `U` afterwards (`none`: it does not exist). -/
noncomputable def calculateSubspace (e : OEnv n) (d : ℕ) (sm : SubMethod) (st : St n) (U : Option (Dirs n))
    (S : List (Pt n)) (f : List ℝ) : Except Err (Option (Dirs n)) :=
  match e.active st S f with
  | .error x => .error x
  | .ok [] => .error .indexError
  | .ok (w :: ws) =>
    match greedy e S f (d - 1) [w] ws with
    | .error x => .error x
    | .ok U0 =>
      match sm with
      | .varproj => match e.varproj S f U0 with
        | .error x => .error x
        | .ok W => .ok (some (W.take d))
      | .active => .ok (some U0)
      | .other => .ok U

/-! ## Sample sets -/

/-- The number of points of the reduced sample set (optimisation.py:828). -/
def redSize (d : ℕ) : ℕ := (d + 1) * (d + 2) / 2

/-- optimisation.py:830-831: row `k` of the multi-indices, columns in reverse order. -/
def redBasis (d k : ℕ) : List ℕ :=
  match totalOrderBasis (List.replicate d 2) with
  | .ok L => (L.getD k []).reverse
  | .error _ => []

/-- optimisation.py:666-682 `phi_function` of the whole space for `omorf`. -/
noncomputable def phiFull (st : St n) (hatS : List (Pt n)) (x : Pt n) (k : ℕ) : ℝ :=
  let D := if hatS.length > 0 then maxList (hatS.map fun y => normInf fun i => y i - st.sOld i) else st.del
  if k = 0 then 1 else if h : k - 1 < n then (x ⟨k - 1, h⟩ - st.sOld ⟨k - 1, h⟩) / D else 0

/-- `np.dot(s - self.s_old, self.U)`. -/
noncomputable def project (st : St n) (U : Dirs n) (x : Pt n) : List ℝ := U.map fun w => ∑ i, (x i - st.sOld i) * w i

/-- optimisation.py:684-700 `phi_function` of the directions `U`. -/
noncomputable def phiRed (d : ℕ) (U : Dirs n) (st : St n) (hatS : List (Pt n)) (x : Pt n) (k : ℕ) : ℝ :=
  let D := if hatS.length > 0 then maxList (hatS.map fun y => √((project st U y).map fun t => t ^ 2).sum) else st.del
  (((project st U x).zip (redBasis d k)).map fun t => (t.1 / D) ^ t.2 / (t.2.factorial : ℝ)).prod

/-- optimisation.py:535-548 `_sample_set('replace', ...)` for a set of `q` points with basis functions `φ`. -/
noncomputable def oReplace (cfg : Cfg n) (env : Env n) (obj : Pt n → ℝ) (psi2 : ℝ) (q : ℕ)
    (φ : St n → List (Pt n) → Pt n → ℕ → ℝ) (r : Run n) (sNew : Pt n) (fNew : ℝ) : Run n :=
  let hat := (r.S ++ [sNew], r.f ++ [fNew])
  let hat :=
    if hat.1.dedup.length ≠ hat.1.length then uniqueRows hat
    else if hat.2.length > q ∧ spread r.st hat.1 > limit cfg r.st then removeFurthest r.st hat
    else hat
  let hat := removePoint r.st hat
  let a := luPivot cfg env obj .replace psi2 q (φ r.st hat.1) r.st hat.1 hat.2
  ⟨a.st, a.S, a.f⟩

/-- optimisation.py:549-559 `_sample_set('improve', ...)`. -/
noncomputable def oImprove (cfg : Cfg n) (env : Env n) (obj : Pt n → ℝ) (psi2 : ℝ) (q : ℕ)
    (φ : St n → List (Pt n) → Pt n → ℕ → ℝ) (r : Run n) : Run n :=
  let hat := if spread r.st r.S > limit cfg r.st then removeFurthest r.st (r.S, r.f) else (r.S, r.f)
  let hat := removePoint r.st hat
  let a := luPivot cfg env obj .improve psi2 q (φ r.st hat.1) r.st hat.1 hat.2
  ⟨a.st, a.S, a.f⟩

/-- optimisation.py:560-567 `_sample_set('new', full_space=False)`. -/
noncomputable def oNew (cfg : Cfg n) (env : Env n) (obj : Pt n → ℝ) (psi2 : ℝ) (q : ℕ)
    (φ : St n → List (Pt n) → Pt n → ℕ → ℝ) (st : St n) : Run n :=
  let a := luPivot cfg env obj .new psi2 q (φ st []) st [] []
  ⟨a.st, a.S, a.f⟩

/-! ## The run -/

/-- The state between two passes: the object, the two sample sets and the attribute `U`. -/
structure ORun (n : ℕ) where
  st : St n
  SF : List (Pt n)
  fF : List ℝ
  SR : List (Pt n)
  fR : List ℝ
  U : Dirs n

/-- optimisation.py:508-527 `_update_geometry_omorf`. An exception in `_calculate_subspace` is swallowed. -/
noncomputable def oGeometry (cfg : Cfg n) (e : OEnv n) (d : ℕ) (sm : SubMethod) (obj : Pt n → ℝ) (r : ORun n) : ORun n :=
  if spread r.st r.SF > limit cfg r.st then
    let a := oImprove cfg e.full obj 1 (n + 1) phiFull ⟨r.st, r.SF, r.fF⟩
    let U := match calculateSubspace e d sm a.st (some r.U) a.S a.f with
      | .ok (some U) => U
      | _ => r.U
    { r with st := a.st, SF := a.S, fF := a.f, U := U }
  else if spread r.st r.SR > limit cfg r.st then
    let a := oImprove cfg (e.red r.U) obj (1/4) (redSize d) (phiRed d r.U) ⟨r.st, r.SR, r.fR⟩
    { r with st := a.st, SR := a.S, fR := a.f }
  else if r.st.del = r.st.rho then
    let st := setDel cfg (cfg.alpha2 * r.st.rho) r.st
    if st.count ≥ 3 ∧ st.ratio < 0 then { r with st := { st with rho := reduceRho cfg st.rho } }
    else { r with st := st }
  else r

/-- optimisation.py:961-970: the end of a pass, the new radius. -/
noncomputable def oRadius (cfg : Cfg n) (e : OEnv n) (d : ℕ) (sm : SubMethod) (obj : Pt n → ℝ) (r : ORun n)
    (stepDist : ℝ) : ORun n :=
  if r.st.ratio ≥ cfg.eta2 then
    { r with st := setDel cfg (max (cfg.gamInc * r.st.del) (cfg.gamIncBar * stepDist)) { r.st with count := 0 } }
  else if r.st.ratio ≥ cfg.eta1 then
    { r with st := setDel cfg (max (max (cfg.gamDec * r.st.del) stepDist) r.st.rho) { r.st with count := 0 } }
  else
    oGeometry cfg e d sm obj { r with
      st := setDel cfg (max (min (cfg.gamDec * r.st.del) stepDist) r.st.rho) { r.st with count := r.st.count + 1 } }

/-- optimisation.py:929-970: one pass of the main loop. The flag says that the loop is left. -/
noncomputable def oIter (cfg : Cfg n) (e : OEnv n) (d : ℕ) (sm : SubMethod) (obj : Pt n → ℝ) (r : ORun n) :
    ORun n × Bool :=
  if r.st.evals ≥ cfg.maxEvals ∨ r.st.rho ≤ cfg.rhoMin then (r, true)
  else
    match e.build r.U r.st r.SR r.fR with
    | none =>
      let a := oImprove cfg (e.red r.U) obj (1/4) (redSize d) (phiRed d r.U) ⟨r.st, r.SR, r.fR⟩
      ({ r with st := a.st, SR := a.S, fR := a.f }, false)
    | some m =>
      let stepDist := normInf fun i => m.sNew i - r.st.sOld i
      if stepDist < cfg.omegaS * r.st.rho then
        let st := { r.st with ratio := -1/10, count := 3 }
        let st := setDel cfg (max (1/2 * st.del) st.rho) st
        (oGeometry cfg e d sm obj { r with st := st }, false)
      else
        let b := blackbox cfg obj r.st m.sNew
        if b.1.evals ≥ cfg.maxEvals ∨ b.1.rho ≤ cfg.rhoMin then ({ r with st := b.1 }, true)
        else
          let st := setIterate cfg { b.1 with ratio := ratioOf (b.1.fOld - b.2) (m.atOld - m.mNew) }
          let a := oReplace cfg (e.red r.U) obj (1/4) (redSize d) (phiRed d r.U) ⟨st, r.SR, r.fR⟩ m.sNew b.2
          let c := oReplace cfg e.full obj 1 (n + 1) phiFull ⟨a.st, r.SF, r.fF⟩ m.sNew b.2
          (oRadius cfg e d sm obj ⟨c.st, c.S, c.f, a.S, a.f, r.U⟩ stepDist, false)

/-- optimisation.py:929-970: the main loop with at most `fuel` passes. -/
noncomputable def oLoop (cfg : Cfg n) (e : OEnv n) (d : ℕ) (sm : SubMethod) (obj : Pt n → ℝ) : ℕ → ORun n → ORun n
  | 0, r => r
  | fuel + 1, r =>
    match oIter cfg e d sm obj r with
    | (r', true) => r'
    | (r', false) => oLoop cfg e d sm obj fuel r'

/-- optimisation.py:928: the state before the first pass. -/
noncomputable def oBegin (cfg : Cfg n) (e : OEnv n) (d : ℕ) (obj : Pt n → ℝ) (r : Run n) (U : Dirs n) : ORun n :=
  let a := oNew cfg (e.red U) obj (1/4) (redSize d) (phiRed d U) r.st
  ⟨a.st, r.S, r.f, a.S, a.f, U⟩

/-- optimisation.py:910-971 `_omorf`. `U` is the attribute left by an earlier run, if any. With `d = 0` the basis cannot be
built (optimisation.py:830); without the attribute `U` the reduced sample set cannot be built (optimisation.py:687). -/
noncomputable def omorf (cfg : Cfg n) (e : OEnv n) (d : ℕ) (sm : SubMethod) (obj : Pt n → ℝ) (s : St n)
    (U : Option (Dirs n)) (x0 : Pt n) : Except Err (St n) :=
  if d = 0 then .error .valueError
  else
    let s := start cfg obj s x0
    match evalInitial cfg obj (generateSet cfg e.full s (n + 1)).tail ⟨s, [s.sOld], [s.fOld]⟩ with
    | (r, true) => .ok (finish cfg r.st)
    | (r, false) =>
      match calculateSubspace e d sm r.st U r.S r.f with
      | .error x => .error x
      | .ok none => .error .attributeError
      | .ok (some U) => .ok (finish cfg (oLoop cfg e d sm obj cfg.itermax (oBegin cfg e d obj r U)).st)

/-- optimisation.py:280-288 and 293-295 `optimise` for the `omorf` method. -/
noncomputable def optimiseOmorf (cfg : Cfg n) (e : OEnv n) (d : ℕ) (sm : SubMethod) (maximise : Bool) (f : Pt n → ℝ)
    (s : St n) (U : Option (Dirs n)) (x0 : Pt n) : Except Err (St n × Sol n) :=
  match omorf cfg e d sm (objective maximise f) s U x0 with
  | .error x => .error x
  | .ok s => .ok (s, ⟨s.sOld, if maximise then s.fOld * -1 else s.fOld, s.evals⟩)

end EQ.Opt
