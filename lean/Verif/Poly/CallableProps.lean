import Verif.Poly.EquivFit

/-!
# The callables of a fit, after any history of `set_model` (C177)
-/

namespace EQ.Poly
open EQ.Param EQ.Basis EQ.Sampling EQ.Sampling.Spec EQ.Poly.Spec EQ.Stats

/-! ## Model -/

/-- What `Poly.set_model` reads and writes (poly.py:389-507) for least squares: parameters, index set, mesh, weights and coefficients. Simplified: no
correlations, no gradient data, no sparse grid. -/
structure Session where
  params : List MParam
  basis : State
  pts : List (List ℝ)
  wts : List ℝ
  coeffs : List ℝ

/-- The polynomial the object stands for at the moment (poly.py:561-578, 658-701). -/
def Session.expansion (s : Session) : Expansion := ⟨s.params, s.basis.elements, none⟩

/-- One call of `set_model` with as many outputs as mesh points that returns normally (poly.py:389-411, 446-460, 489-507). With NaN outputs (`none`) the
index set and the mesh are those of `nanRefit` and the weights those of a user-defined mesh, `weights` (sampling_template.py:14-49, any function here). -/
inductive Session.Step (argsort : List ℕ → List ℕ) (weights : State → List (List ℝ) → List ℝ) : Session → List (Option ℝ) → Session → Prop where
  | mk (s : Session) (ys : List (Option ℝ)) (b : State) (pts : List (List ℝ)) (zs : List (Option ℝ)) (w c : List ℝ) (hl : ys.length = s.pts.length)
      (h : nanRefit argsort s.params.length false s.basis s.pts ys = .ok (b, pts, zs)) (hw : w = if none ∈ ys then weights b pts else s.wts)
      (hc : LsqFit ⟨s.params, b.elements, none⟩ pts w (zs.map fun y => y.getD 0) c) : Step argsort weights s ys ⟨s.params, b, pts, w, c⟩

/-- The history of an object: the outputs of all calls of `set_model` since (poly.py:389-434). -/
inductive Session.Run (argsort : List ℕ → List ℕ) (weights : State → List (List ℝ) → List ℝ) : Session → List (List (Option ℝ)) → Session → Prop where
  | nil (s : Session) : Run argsort weights s [] s
  | snoc (s t u : Session) (h : List (List (Option ℝ))) (ys : List (Option ℝ)) : Run argsort weights s h t → Session.Step argsort weights t ys u →
      Run argsort weights s (h ++ [ys]) u

/-- poly.py:627-637 `get_polyfit_function()`: the callable keeps the object and the number `n` of coefficients at the time it was made;
`self.coefficients.reshape(n, 1)` raises `ValueError` if the number is another one when it is called. -/
noncomputable def callFit (n : ℕ) (s : Session) (x : List (List ℝ)) : Except Err (List ℝ) :=
  match s.expansion.getPoly none x with
  | .error e => .error e
  | .ok M => if s.coeffs.length ≠ n then .error .valueError else dotT M x.length s.coeffs

/-- poly.py:638-647 `get_polyfit_grad_function()`: the callable keeps the object only. -/
noncomputable def callGrad (s : Session) (x : List (List ℝ)) : Except Err (List (List ℝ)) := s.expansion.polyfitGrad none s.coeffs x

/-- poly.py:648-657 `get_polyfit_hess_function()`: the callable keeps the object only. -/
noncomputable def callHess (s : Session) (x : List (List ℝ)) : Except Err (List (List (List ℝ))) := s.expansion.polyfitHess s.coeffs x

/-! ## Specification -/

/-- A fitted object in two or more dimensions. -/
structure Session.Fitted (s : Session) : Prop where
  dims : 2 ≤ s.params.length
  ne : s.basis.elements ≠ []
  rows : ∀ r ∈ s.basis.elements, r.length = s.params.length
  card : s.basis.elements.length ≤ s.basis.cardinality
  size : ∀ x ∈ s.pts, x.length = s.params.length
  coeffs : s.coeffs.length = s.basis.elements.length

/-! ## Lemmas -/

theorem Session.Fitted.regular {s : Session} (h : s.Fitted) : Regular s.expansion :=
  ⟨h.ne, h.rows, fun h1 => absurd h1 (by have := h.dims; simp only [Session.expansion, Expansion.dims]; omega), by simp [SquareOpt, Session.expansion]⟩

theorem nanIndices_none {ys : List (Option ℝ)} (h : none ∉ ys) : nanIndices ys = [] := by
  unfold nanIndices
  rw [List.filter_eq_nil_iff]
  intro i hi hn
  have hi' : i < ys.length := by simpa using hi
  rw [getD_of_lt ys none i hi'] at hn
  exact h (by rw [← Option.isNone_iff_eq_none.1 hn]; exact List.getElem_mem hi')

theorem Session.Step.fitted {argsort : List ℕ → List ℕ} (ha : Basis.ArgsortContract argsort) {weights : State → List (List ℝ) → List ℝ} {s t : Session}
    {ys : List (Option ℝ)} (hs : s.Fitted) (h : Session.Step argsort weights s ys t) :
    t.Fitted ∧ t.params = s.params ∧ (none ∉ ys → t.basis = s.basis) := by
  cases h with
  | mk b pts zs w c hl h hw hc =>
    have key : b.elements ≠ [] ∧ b.elements.length ≤ b.cardinality ∧ (∀ r ∈ b.elements, r ∈ s.basis.elements) ∧ (∀ x ∈ pts, x ∈ s.pts) ∧
        (none ∉ ys → b = s.basis) := by
      by_cases hn : none ∈ ys
      · by_cases hf : s.basis.cardinality ≤ (ys.filter Option.isSome).length ∨ s.params.length < (ys.filter Option.isSome).length
        · obtain ⟨b', e, -, h1, h2, -, h3, -⟩ := c34_nan_partial argsort ha s.params.length s.basis hs.card hs.ne s.pts ys hl.symm hn hf
          rw [h] at e
          simp only [Except.ok.injEq, Prod.mk.injEq] at e
          obtain ⟨rfl, rfl, -⟩ := e
          refine ⟨h1, h2, h3, fun x hx => ?_, fun h => absurd hn h⟩
          obtain ⟨p, hp, rfl⟩ := List.mem_map.1 hx
          exact (List.of_mem_zip (List.mem_filter.1 hp).1).1
        · push Not at hf
          rw [c34_few_values_violated argsort _ _ _ _ _ hn hf.1 hf.2] at h
          simp at h
      · unfold nanRefit at h
        simp only [nanIndices_none hn, if_pos, Except.ok.injEq, Prod.mk.injEq] at h
        obtain ⟨rfl, rfl, -⟩ := h
        exact ⟨hs.ne, hs.card, fun _ h => h, fun _ h => h, fun _ => rfl⟩
    obtain ⟨k1, k2, k3, k4, k5⟩ := key
    have hB : Regular ⟨s.params, b.elements, none⟩ :=
      ⟨k1, fun r hr => hs.rows r (k3 r hr), fun h1 => absurd h1 (by have := hs.dims; simp only [Expansion.dims]; omega), by simp [SquareOpt]⟩
    refine ⟨⟨hs.dims, k1, fun r hr => hs.rows r (k3 r hr), k2, fun x hx => hs.size x (k4 x hx), ?_⟩, rfl, k5⟩
    obtain ⟨M, hM, hc, -⟩ := hc
    obtain ⟨M', hM', hl', -⟩ := getPoly_dot _ hB pts fun x hx => hs.size x (k4 x hx)
    rw [hM] at hM'
    obtain rfl := Except.ok.inj hM'
    exact hc.trans hl'

theorem Session.Run.fitted {argsort : List ℕ → List ℕ} (ha : Basis.ArgsortContract argsort) {weights : State → List (List ℝ) → List ℝ} {s t : Session}
    {h : List (List (Option ℝ))} (hs : s.Fitted) (r : Session.Run argsort weights s h t) :
    t.Fitted ∧ t.params = s.params ∧ ((∀ ys ∈ h, none ∉ ys) → t.basis = s.basis) := by
  induction r with
  | nil => exact ⟨hs, rfl, fun _ => rfl⟩
  | snoc t u h ys r st ih =>
    obtain ⟨h1, h2, h3⟩ := ih
    obtain ⟨g1, g2, g3⟩ := st.fitted ha h1
    exact ⟨g1, g2.trans h2, fun hn => (g3 (hn ys (by simp))).trans (h3 fun y hy => hn y (by simp [hy]))⟩

theorem callFit_of {s : Session} (hs : s.Fitted) (n : ℕ) (x : List (List ℝ)) (hx : ∀ p ∈ x, p.length = s.params.length) :
    s.expansion.polyfit s.coeffs x = .ok (x.map (Spec.expansion s.params s.basis.elements s.coeffs)) ∧
    callFit n s x = if s.coeffs.length = n then s.expansion.polyfit s.coeffs x else .error .valueError := by
  obtain ⟨M, hM, -, hd⟩ := getPoly_dot s.expansion hs.regular x hx
  have e : s.expansion.polyfit s.coeffs x = dotT M x.length s.coeffs := by
    unfold Expansion.polyfit
    rw [hM]
  constructor
  · rw [e, hd s.coeffs hs.coeffs, eff_none s.expansion rfl]
    rfl
  · unfold callFit
    rw [hM, e]
    by_cases h : s.coeffs.length = n <;> simp [h]

/-! ## Properties -/

/-- **C177 (part).** Take the callables of a fitted object, then let `set_model` be called any number of times. The object now stands for the polynomial `f`
of the last fit, which `get_polyfit` evaluates. The callables made before for gradients and Hessians return, at all points, the exact first and second
derivatives of `f`; the callable for values returns the values of `f` if none of the outputs was NaN, or if the number of coefficients is the same as when the
callable was made. Missing: the callable for values after the number of coefficients changed; see the violation. -/
theorem c177_callables_partial (argsort : List ℕ → List ℕ) (ha : Basis.ArgsortContract argsort) (weights : State → List (List ℝ) → List ℝ) (s t : Session)
    (hs : s.Fitted) (h : List (List (Option ℝ))) (r : Session.Run argsort weights s h t) :
    ∃ (f : List ℝ → ℝ) (g : ℕ → List ℝ → ℝ) (k : ℕ → ℕ → List ℝ → ℝ),
      (∀ x, f x = Spec.expansion s.params t.basis.elements t.coeffs x) ∧
      (∀ x : List (List ℝ), (∀ p ∈ x, p.length = s.params.length) → t.expansion.polyfit t.coeffs x = .ok (x.map f) ∧
        ((∀ ys ∈ h, none ∉ ys) ∨ t.basis.elements.length = s.basis.elements.length → callFit s.coeffs.length t x = .ok (x.map f)) ∧
        callGrad t x = .ok ((List.range s.params.length).map fun v => x.map (g v)) ∧
        callHess t x = .ok ((List.range s.params.length).map fun w => (List.range s.params.length).map fun v => x.map (k w v))) ∧
      (∀ p : List ℝ, p.length = s.params.length → ∀ v < s.params.length, HasDerivAt (fun a => f (p.set v a)) (g v p) (p.getD v 0)) ∧
      (∀ p : List ℝ, p.length = s.params.length → ∀ w < s.params.length, ∀ v < s.params.length,
        HasDerivAt (fun a => g v (p.set w a)) (k w v p) (p.getD w 0)) := by
  obtain ⟨ht, hp, hb⟩ := r.fitted ha hs
  obtain ⟨f, g, k, e1, e2, e3, e4, e5, -⟩ := c29_derivatives t.expansion ht.regular t.coeffs ht.coeffs
  have hd : t.expansion.dims = s.params.length := by rw [← hp]; rfl
  simp only [hd] at e1 e2 e3 e4 e5
  have hf : ∀ p : List ℝ, p.length = s.params.length → f p = Spec.expansion s.params t.basis.elements t.coeffs p := by
    intro p hl
    have h1 := e1 [p] (by simpa using hl)
    rw [(callFit_of ht 0 [p] (by rw [hp]; simpa using hl)).1, hp] at h1
    simpa using h1.symm
  refine ⟨Spec.expansion s.params t.basis.elements t.coeffs, g, k, fun _ => rfl, fun x hx => ?_, fun p hl v hv => ?_, e5⟩
  · obtain ⟨q1, q2⟩ := callFit_of ht s.coeffs.length x (by rw [hp]; exact hx)
    rw [hp] at q1
    refine ⟨q1, fun hn => ?_, e2 x, e3 x⟩
    have hl : t.coeffs.length = s.coeffs.length := by
      rw [ht.coeffs, hs.coeffs]
      rcases hn with hn | hn
      · rw [hb hn]
      · exact hn
    rw [q2, if_pos hl, q1]
  · have := e4 p hl v hv
    have e : (fun a => f (p.set v a)) = fun a => Spec.expansion s.params t.basis.elements t.coeffs (p.set v a) := by
      funext a
      exact hf _ (by simpa using hl)
    rwa [e] at this

/-- **C177 fails** if the number of coefficients changed: whatever the history, the callable for values then raises `ValueError` at all points, although
`get_polyfit` of the same object returns the values of the polynomial. -/
theorem c177_resized_violated (argsort : List ℕ → List ℕ) (ha : Basis.ArgsortContract argsort) (weights : State → List (List ℝ) → List ℝ) (s t : Session)
    (hs : s.Fitted) (h : List (List (Option ℝ))) (r : Session.Run argsort weights s h t) (hn : t.basis.elements.length ≠ s.basis.elements.length)
    (x : List (List ℝ)) (hx : ∀ p ∈ x, p.length = s.params.length) :
    callFit s.coeffs.length t x = .error .valueError ∧
    t.expansion.polyfit t.coeffs x = .ok (x.map (Spec.expansion s.params t.basis.elements t.coeffs)) := by
  obtain ⟨ht, hp, -⟩ := r.fitted ha hs
  obtain ⟨e1, e2⟩ := callFit_of ht s.coeffs.length x (by rw [hp]; exact hx)
  rw [if_neg (by rw [ht.coeffs, hs.coeffs]; exact hn)] at e2
  exact ⟨e2, by rw [e1, hp]⟩

/-- Such histories exist: if a call of `set_model` has NaN outputs and the values left are fewer than the coefficients but more than the dimensions, the call
returns normally, with fewer coefficients, and the callable made before raises from then on. -/
theorem c177_one_nan_violated (argsort : List ℕ → List ℕ) (ha : Basis.ArgsortContract argsort) (weights : State → List (List ℝ) → List ℝ) (s : Session)
    (hs : s.Fitted) (hc : s.basis.cardinality = s.basis.elements.length) (ys : List (Option ℝ)) (hl : ys.length = s.pts.length)
    (hn : none ∈ ys) (hd : s.params.length < (ys.filter Option.isSome).length) (hf : (ys.filter Option.isSome).length < s.basis.elements.length) :
    ∃ t, Session.Run argsort weights s [ys] t ∧ ∀ x : List (List ℝ), (∀ p ∈ x, p.length = s.params.length) →
      callFit s.coeffs.length t x = .error .valueError ∧ ∃ v, t.expansion.polyfit t.coeffs x = .ok v := by
  obtain ⟨b, e, h0, h1, h2, h2', h3, -⟩ := c34_nan_partial argsort ha s.params.length s.basis hs.card hs.ne s.pts ys hl.symm hn (.inr hd)
  set pts := ((s.pts.zip ys).filter fun p => p.2.isSome).map Prod.fst with hpts
  have hB : Regular ⟨s.params, b.elements, none⟩ :=
    ⟨h1, fun r hr => hs.rows r (h3 r hr), fun h1 => absurd h1 (by have := hs.dims; simp only [Expansion.dims]; omega), by simp [SquareOpt]⟩
  have hsz : ∀ x ∈ pts, x.length = s.params.length := by
    intro x hx
    obtain ⟨p, hp, rfl⟩ := List.mem_map.1 hx
    exact hs.size _ (List.of_mem_zip (List.mem_filter.1 hp).1).1
  obtain ⟨M, hM, -⟩ := getPoly_dot _ hB pts hsz
  have st := Session.Step.mk (argsort := argsort) (weights := weights) s ys b pts _ (weights b pts) _ hl e (by rw [if_pos hn])
    ⟨M, hM, (exists_lstsq _ _ _).choose_spec⟩
  refine ⟨_, .snoc _ _ _ [] ys (.nil s) st, fun x hx => ?_⟩
  have hlen : (((s.pts.zip ys).filter fun p => p.2.isSome).map Prod.snd).length ≤ (ys.filter Option.isSome).length := by
    have : ((s.pts.zip ys).filter fun p => p.2.isSome).map Prod.snd = ((s.pts.zip ys).map Prod.snd).filter Option.isSome := by
      rw [List.filter_map]; rfl
    rw [this, List.map_snd_zip (by omega)]
  obtain ⟨e1, e2⟩ := c177_resized_violated argsort ha weights s _ hs [ys] (.snoc _ _ _ [] ys (.nil s) st) (by simp only; omega) x hx
  exact ⟨e1, _, e2⟩

/-- A fitted object as in the theorems: two inputs, four coefficients, four points; with one NaN three values are left. -/
example : ∃ s : Session, s.Fitted ∧ s.basis.cardinality = s.basis.elements.length ∧ none ∈ ([some 1, none, some 2, some 3] : List (Option ℝ)) ∧
    s.params.length < (([some 1, none, some 2, some 3] : List (Option ℝ)).filter Option.isSome).length ∧
    (([some 1, none, some 2, some 3] : List (Option ℝ)).filter Option.isSome).length < s.basis.elements.length ∧ 4 = s.pts.length := by
  refine ⟨⟨[exists_uniform.choose, exists_uniform.choose], State.ofElements [[0, 0], [1, 0], [0, 1], [1, 1]], [[0, 0], [0, 1], [1, 0], [1, 1]],
    [1, 1, 1, 1], [1, 2, 3, 4]⟩, ⟨by simp, by simp [State.ofElements], by simp [State.ofElements], by simp [State.ofElements], by simp,
    by simp [State.ofElements]⟩, by simp [State.ofElements], by simp, by simp, by simp [State.ofElements], by simp⟩

end EQ.Poly
