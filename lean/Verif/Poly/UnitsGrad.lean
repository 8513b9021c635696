import Verif.Poly.UnitsProps

/-!
# Derivatives and the units of the inputs: C193
-/

namespace EQ.Poly
open EQ.Basis EQ.Basis.Spec EQ.Param EQ.Sampling EQ.Sampling.Spec Polynomial

theorem move_set (ss : List (ℝ × ℝ)) (x : List ℝ) (hx : x.length = ss.length) (v : ℕ) (hv : v < ss.length) (t : ℝ) :
    move ss (x.set v t) = (move ss x).set v ((ss.getD v (0, 0)).1 * t + (ss.getD v (0, 0)).2) := by
  induction ss generalizing x v with
  | nil => simp at hv
  | cons s ss ih =>
    cases x with
    | nil => simp at hx
    | cons a x =>
      cases v with
      | zero => simp [move]
      | succ v =>
        have := ih x (by simpa using hx) v (by simpa using hv)
        simp only [move] at this ⊢
        simp only [List.set_cons_succ, List.zipWith_cons_cons, List.getD_cons_succ, this]

theorem move_at (ss : List (ℝ × ℝ)) (x : List ℝ) (hx : x.length = ss.length) (v : ℕ) (hv : v < ss.length) :
    (move ss x).getD v 0 = (ss.getD v (0, 0)).1 * x.getD v 0 + (ss.getD v (0, 0)).2 := by
  induction ss generalizing x v with
  | nil => simp at hv
  | cons s ss ih =>
    cases x with
    | nil => simp at hx
    | cons a x =>
      cases v with
      | zero => simp [move]
      | succ v =>
        have := ih x (by simpa using hx) v (by simpa using hv)
        simp only [move] at this ⊢
        simp only [List.zipWith_cons_cons, List.getD_cons_succ, this]

theorem move_length (ss : List (ℝ × ℝ)) (x : List ℝ) (hx : x.length = ss.length) : (move ss x).length = ss.length := by
  simp [move, hx]

/-- The chain rule for one input. -/
theorem chain_units {ss : List (ℝ × ℝ)} {f f' : List ℝ → ℝ} {k : ℝ} (h : ∀ x, x.length = ss.length → f x = k * f' (move ss x)) {x : List ℝ} (hx : x.length = ss.length) {v : ℕ}
    (hv : v < ss.length) {g g' : ℝ} (hf : HasDerivAt (fun t => f (x.set v t)) g (x.getD v 0))
    (hf' : HasDerivAt (fun t => f' ((move ss x).set v t)) g' ((move ss x).getD v 0)) : g = k * (ss.getD v (0, 0)).1 * g' := by
  rw [move_at ss x hx v hv] at hf'
  have hin : HasDerivAt (fun t : ℝ => (ss.getD v (0, 0)).1 * t + (ss.getD v (0, 0)).2) (ss.getD v (0, 0)).1 (x.getD v 0) := by
    simpa using ((hasDerivAt_id (x.getD v 0)).const_mul (ss.getD v (0, 0)).1).add_const (ss.getD v (0, 0)).2
  have hcomp := (HasDerivAt.comp (x.getD v 0) hf' hin).const_mul k
  have e : (fun t => f (x.set v t)) = fun t => k * ((fun t => f' ((move ss x).set v t)) ∘ fun t => (ss.getD v (0, 0)).1 * t + (ss.getD v (0, 0)).2) t := by
    funext t
    rw [h _ (by simpa using hx), move_set ss x hx v hv, Function.comp_apply]
  rw [e] at hf
  rw [hf.unique hcomp]
  ring

theorem entry_range (n : ℕ) (pts : List (List ℝ)) (g : ℕ → List ℝ → ℝ) (v j : ℕ) (hv : v < n) (hj : j < pts.length) :
    entry ((List.range n).map fun v => pts.map (g v)) v j = g v pts[j] := by
  unfold entry
  rw [getD_map_lt _ _ _ _ (by simpa using hv), List.getElem_range, getD_map_lt _ _ _ _ hj]

/-- **C193.** If the inputs are measured in other units (`x' = a x + b`, `a > 0`, for each input its own) and every parameter follows, then for given coefficients the
gradients and Hessians at corresponding points follow by the chain rule: a first derivative in the new units times the factor of its input is the old one, a second
derivative times the factors of its two inputs is the old one. -/
theorem c193_derivatives {ss Ps Qs} (h : Units ss Ps Qs) (hne : ss ≠ []) (els : List (List ℕ)) (R : Option (List (List ℝ)))
    (hB : Regular ⟨Ps, els, R⟩) (c : List ℝ) (hc : c.length = els.length) (pts : List (List ℝ)) (hp : ∀ x ∈ pts, x.length = ss.length) :
    ∃ G G' H H', (Expansion.mk Ps els R).polyfitGrad none c pts = .ok G ∧ (Expansion.mk Qs els R).polyfitGrad none c (pts.map (move ss)) = .ok G' ∧
      (Expansion.mk Ps els R).polyfitHess c pts = .ok H ∧ (Expansion.mk Qs els R).polyfitHess c (pts.map (move ss)) = .ok H' ∧
      (∀ v < ss.length, ∀ j < pts.length, entry G v j = (ss.getD v (0, 0)).1 * entry G' v j) ∧
      ∀ w < ss.length, ∀ v < ss.length, ∀ j < pts.length,
        entry (H.getD w []) v j = (ss.getD w (0, 0)).1 * (ss.getD v (0, 0)).1 * entry (H'.getD w []) v j := by
  obtain ⟨hl, hl'⟩ := units_length h
  have hB' : Regular ⟨Qs, els, R⟩ := by
    have hd : (Expansion.mk Qs els R).dims = (Expansion.mk Ps els R).dims := by simp [Expansion.dims, hl, hl']
    exact ⟨hB.ne, fun r hr => (hB.rows r hr).trans hd.symm, fun h1 => hB.one (hd ▸ h1), hB.square⟩
  have hd : (Expansion.mk Ps els R).dims = ss.length := by simp [Expansion.dims, hl]
  have hd' : (Expansion.mk Qs els R).dims = ss.length := by simp [Expansion.dims, hl']
  obtain ⟨f, g, k, e1, e2, e3, d1, d2, -⟩ := c29_derivatives _ hB c hc
  obtain ⟨f', g', k', e1', e2', e3', d1', d2', -⟩ := c29_derivatives _ hB' c hc
  rw [hd] at e1 e2 e3 d1 d2
  rw [hd'] at e1' e2' e3' d1' d2'
  have hf : ∀ x, x.length = ss.length → f x = 1 * f' (move ss x) := by
    intro x hx
    have := (c181_values h hne els R [x] (by simpa using hx)).2.1 c
    rw [e1 [x] (by simpa using hx), List.map_singleton, e1' [move ss x] (by simpa using move_length ss x hx)] at this
    simpa using this.symm
  have hg : ∀ v < ss.length, ∀ x, x.length = ss.length → g v x = (ss.getD v (0, 0)).1 * g' v (move ss x) := by
    intro v hv x hx
    have := chain_units hf hx hv (d1 x hx v hv) (d1' _ (move_length ss x hx) v hv)
    rwa [one_mul] at this
  have hk : ∀ w < ss.length, ∀ v < ss.length, ∀ x, x.length = ss.length → k w v x = (ss.getD w (0, 0)).1 * (ss.getD v (0, 0)).1 * k' w v (move ss x) := by
    intro w hw v hv x hx
    have := chain_units (hg v hv) hx hw (d2 x hx w hw v hv) (d2' _ (move_length ss x hx) w hw v hv)
    rw [this]
    ring
  refine ⟨_, _, _, _, e2 pts, e2' _, e3 pts, e3' _, fun v hv j hj => ?_, fun w hw v hv j hj => ?_⟩
  · rw [entry_range _ _ _ v j hv hj, entry_range _ _ _ v j hv (by simpa using hj), List.getElem_map]
    exact hg v hv _ (hp _ (List.getElem_mem hj))
  · rw [getD_map_lt _ _ _ _ (by simpa using hw), getD_map_lt _ _ _ _ (by simpa using hw), List.getElem_range, entry_range _ _ _ v j hv hj,
      entry_range _ _ _ v j hv (by simpa using hj), List.getElem_map]
    exact hk w hw v hv _ (hp _ (List.getElem_mem hj))

/-- The hypotheses are met: one input in degrees Celsius and in degrees Fahrenheit, another in metres and in centimetres, and linear functions of both. -/
example : ∃ P P' Q Q' : MParam, Units [(9 / 5, 32), (100, 0)] [P, P'] [Q, Q'] ∧ Regular ⟨[P, P'], [[0, 0], [1, 0], [0, 1]], none⟩ := by
  obtain ⟨P, P', Q, Q', h⟩ := units_demo
  exact ⟨P, P', Q, Q', h, by simp, by simp [Expansion.dims], by simp [Expansion.dims], by intro R hR; cases hR⟩

end EQ.Poly
