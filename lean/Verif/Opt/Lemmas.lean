import Verif.Opt.Model

/-!
# Lemmas on the trust-region model: what one run does to the stored evaluations
-/

namespace EQ.Opt
open EQ.Basis

variable {n : ℕ}

/-! ## `argmin`, norms, lists -/

theorem argmin_spec : ∀ (l : List ℝ), l ≠ [] → argmin l < l.length ∧ ∀ b ∈ l, l.getD (argmin l) 0 ≤ b := by
  intro l
  induction l with
  | nil => intro h; exact absurd rfl h
  | cons a l ih =>
    intro _
    cases l with
    | nil => simp [argmin]
    | cons b l =>
      obtain ⟨h1, h2⟩ := ih (by simp)
      unfold argmin
      simp only
      split_ifs with hc
      · refine ⟨by simp, fun c hc' => ?_⟩
        rcases List.mem_cons.1 hc' with rfl | hc'
        · simp
        · exact le_trans (by simpa using hc) (h2 c hc')
      · refine ⟨by simpa using h1, fun c hc' => ?_⟩
        rcases List.mem_cons.1 hc' with rfl | hc'
        · simpa using (not_le.1 hc).le
        · simpa using h2 c hc'

theorem argmax_lt (l : List ℝ) (h : l ≠ []) : argmax l < l.length := by
  have := (argmin_spec (l.map fun a => -a) (by simpa using h)).1
  simpa [argmax] using this

theorem foldr_max_nonneg (l : List ℝ) : 0 ≤ l.foldr max 0 := by
  induction l with
  | nil => simp
  | cons a l ih => simp [ih]

theorem le_foldr_max (l : List ℝ) : ∀ a ∈ l, a ≤ l.foldr max 0 := by
  induction l with
  | nil => simp
  | cons b l ih =>
    intro a ha
    rcases List.mem_cons.1 ha with rfl | ha
    · simp
    · exact (ih a ha).trans (by simp)

theorem normInf_nonneg (x : Pt n) : 0 ≤ normInf x := foldr_max_nonneg _

theorem abs_le_normInf (x : Pt n) (i : Fin n) : |x i| ≤ normInf x :=
  le_foldr_max _ _ (List.mem_ofFn.2 ⟨i, rfl⟩)

theorem normInf_eq_zero (x : Pt n) : normInf x = 0 ↔ ∀ i, x i = 0 := by
  constructor
  · intro h i
    have := abs_le_normInf x i
    rw [h] at this
    exact abs_nonpos_iff.1 this
  · intro h
    have : (List.ofFn fun i => |x i|) = List.replicate n 0 := by
      simp [h]
    unfold normInf
    rw [this]
    induction n with
    | zero => simp
    | succ n ih =>
      clear h this
      induction n + 1 with
      | zero => simp
      | succ m ihm => simp [List.replicate_succ, ihm]

theorem dedup_append_length {S : List (Pt n)} (hS : S.Nodup) (x : Pt n) :
    (S ++ [x]).dedup.length = if x ∈ S then S.length else S.length + 1 := by
  split_ifs with h
  · rw [← List.card_toFinset, List.toFinset_append]
    have : S.toFinset ∪ [x].toFinset = S.toFinset := by
      apply Finset.union_eq_left.2
      intro y hy
      simp only [List.toFinset_cons, List.toFinset_nil, insert_empty_eq, Finset.mem_singleton] at hy
      rw [hy]
      exact List.mem_toFinset.2 h
    rw [this, List.card_toFinset, hS.dedup]
  · have : (S ++ [x]).Nodup := by
      rw [List.nodup_append]
      exact ⟨hS, List.nodup_singleton _, by rintro a ha b hb; simp at hb; rw [hb]; exact fun e => h (e ▸ ha)⟩
    rw [this.dedup]
    simp

theorem getD_mem {α : Type} (l : List α) (i : ℕ) (d : α) (h : i < l.length) : l.getD i d ∈ l := by
  rw [List.getD_eq_getElem?_getD, List.getElem?_eq_getElem h]
  exact List.getElem_mem h

theorem getD_map' {α β : Type} (g : α → β) (l : List α) (i : ℕ) (d : α) (e : β) (h : i < l.length) :
    (l.map g).getD i e = g (l.getD i d) := by
  rw [List.getD_eq_getElem?_getD, List.getD_eq_getElem?_getD, List.getElem?_eq_getElem (by simpa using h),
    List.getElem?_eq_getElem h]
  simp

theorem map_eraseIdx' {α β : Type} (g : α → β) (l : List α) (i : ℕ) :
    (l.map g).eraseIdx i = (l.eraseIdx i).map g := by
  induction l generalizing i with
  | nil => simp
  | cons a l ih =>
    cases i with
    | zero => simp
    | succ i => simp [ih]

/-! ## The stored evaluations -/

/-- The objective at a stored (possibly scaled) point. -/
noncomputable def val (cfg : Cfg n) (obj : Pt n → ℝ) (x : Pt n) : ℝ := obj (removeScaling cfg x)

/-- The stored points and values: paired, without repetitions, counted, and exactly the calls made. -/
structure Inv (cfg : Cfg n) (obj : Pt n → ℝ) (s : St n) : Prop where
  vals : s.f = s.S.map (val cfg obj)
  nodup : s.S.Nodup
  evals : s.evals = s.S.length
  calls : s.calls = s.S.map (removeScaling cfg)

/-- The incumbent is a stored point with its value. -/
structure Old (cfg : Cfg n) (obj : Pt n → ℝ) (s : St n) : Prop where
  mem : s.sOld ∈ s.S
  value : s.fOld = val cfg obj s.sOld

/-- `s'` is `s` with evaluations appended. -/
structure Ext (s s' : St n) : Prop where
  pre : s.S <+: s'.S
  sOld : s'.sOld = s.sOld
  fOld : s'.fOld = s.fOld
  del : s'.del = s.del
  rho : s'.rho = s.rho
  count : s'.count = s.count
  ratio : s'.ratio = s.ratio
  lo : s'.lo = s.lo
  hi : s'.hi = s.hi

theorem Ext.refl (s : St n) : Ext s s := ⟨List.prefix_refl _, rfl, rfl, rfl, rfl, rfl, rfl, rfl, rfl⟩

theorem Ext.trans {a b c : St n} (h : Ext a b) (h' : Ext b c) : Ext a c :=
  ⟨h.pre.trans h'.pre, h'.sOld.trans h.sOld, h'.fOld.trans h.fOld, h'.del.trans h.del, h'.rho.trans h.rho,
    h'.count.trans h.count, h'.ratio.trans h.ratio, h'.lo.trans h.lo, h'.hi.trans h.hi⟩

theorem Old.ext {cfg : Cfg n} {obj : Pt n → ℝ} {s s' : St n} (h : Old cfg obj s) (e : Ext s s') :
    Old cfg obj s' := ⟨by rw [e.sOld]; exact e.pre.subset h.mem, by rw [e.fOld, e.sOld]; exact h.value⟩

/-- One evaluation: a stored point is not evaluated again, another is evaluated and stored. -/
theorem blackbox_spec {cfg : Cfg n} {obj : Pt n → ℝ} {s : St n} (h : Inv cfg obj s) (x : Pt n) :
    Inv cfg obj (blackbox cfg obj s x).1 ∧ Ext s (blackbox cfg obj s x).1 ∧
    (blackbox cfg obj s x).2 = val cfg obj x ∧ x ∈ (blackbox cfg obj s x).1.S ∧
    (blackbox cfg obj s x).1.S = (if x ∈ s.S then s.S else s.S ++ [x]) := by
  unfold blackbox
  rw [dedup_append_length h.nodup]
  by_cases hx : x ∈ s.S
  · have hlen : s.S.length > 0 := List.length_pos_of_mem hx
    rw [if_pos ⟨hlen, by rw [if_pos hx]⟩]
    refine ⟨h, Ext.refl s, ?_, hx, by rw [if_pos hx]⟩
    set D := s.S.map fun y => normInf fun i => y i - x i with hD
    have hne : D ≠ [] := by
      rw [hD]; intro h0
      rw [List.map_eq_nil_iff] at h0
      rw [h0] at hlen
      exact absurd hlen (by simp)
    obtain ⟨h1, h2⟩ := argmin_spec D hne
    have hlt : argmin D < s.S.length := by simpa [hD] using h1
    have h0 : (0 : ℝ) ∈ D := List.mem_map.2 ⟨x, hx, by rw [normInf_eq_zero]; simp⟩
    have hle := h2 0 h0
    rw [hD, getD_map' _ s.S _ x 0 hlt] at hle
    try rw [← hD] at hle
    have hz := le_antisymm hle (normInf_nonneg _)
    rw [normInf_eq_zero] at hz
    have hxe : s.S.getD (argmin D) x = x := by
      funext i
      have := hz i
      linarith
    show s.f.getD (argmin D) 0 = _
    rw [h.vals, getD_map' _ s.S _ x 0 hlt, hxe]
  · rw [if_neg (by rintro ⟨-, h2⟩; rw [if_neg hx] at h2; omega)]
    simp only
    refine ⟨⟨?_, ?_, ?_, ?_⟩, ⟨List.prefix_append _ _, rfl, rfl, rfl, rfl, rfl, rfl, rfl, rfl⟩, rfl, by simp,
      by rw [if_neg hx]⟩
    · simp [h.vals, val]
    · simp only
      rw [List.nodup_append]
      exact ⟨h.nodup, List.nodup_singleton _, by
        rintro a ha b hb; simp at hb; rw [hb]; exact fun e => hx (e ▸ ha)⟩
    · simp [h.evals]
    · simp [h.calls]

/-- Where a point to evaluate comes from: from the minimisation of the model, from the search for a new
point, or from a generated sample set (possibly some evaluations earlier). -/
def Justified (cfg : Cfg n) (env : Env n) (s : St n) (x : Pt n) : Prop :=
  (∃ S f m, env.build s S f = some m ∧ x = m.sNew) ∨ (∃ φ v, env.newPoint s φ v = some x) ∨
    ∃ num s0, Ext s0 s ∧ x ∈ generateSet cfg env s0 num

/-- A number of evaluations. -/
inductive Evals (cfg : Cfg n) (env : Env n) (obj : Pt n → ℝ) : ℕ → St n → St n → Prop
  | refl (s) : Evals cfg env obj 0 s s
  | step {k s s'} (x) : Evals cfg env obj k s s' → Justified cfg env s' x →
      Evals cfg env obj (k + 1) s (blackbox cfg obj s' x).1

theorem Evals.inv {cfg : Cfg n} {env : Env n} {obj : Pt n → ℝ} {k : ℕ} {s s' : St n}
    (e : Evals cfg env obj k s s') (h : Inv cfg obj s) : Inv cfg obj s' ∧ Ext s s' := by
  induction e with
  | refl s => exact ⟨h, Ext.refl s⟩
  | step x _ hP ih =>
    obtain ⟨h1, h2⟩ := ih h
    obtain ⟨a, b, -, -, -⟩ := blackbox_spec h1 x
    exact ⟨a, h2.trans b⟩

/-! ## Sample sets -/

/-- The points between the local bounds. -/
def Within (s : St n) (x : Pt n) : Prop := ∀ i, s.lo i ≤ x i ∧ x i ≤ s.hi i

theorem generateSet_within {cfg : Cfg n} {env : Env n} {s : St n} (h : Within s s.sOld) (num : ℕ) :
    ∀ x ∈ generateSet cfg env s num, Within s x := by
  intro x hx
  rcases List.mem_cons.1 hx with rfl | hx
  · exact h
  · obtain ⟨k, -, rfl⟩ := List.mem_map.1 hx
    intro i
    obtain ⟨h1, h2⟩ := h i
    simp only
    constructor
    · have : s.lo i - s.sOld i ≤ min (max (s.lo i - s.sOld i)
          ((if cfg.random = true then env.randDirs s num (k + 1) else coordDir s.del (fun c => s.lo c - s.sOld c)
            (fun c => s.hi c - s.sOld c) (k + 1)) i)) (s.hi i - s.sOld i) :=
        le_min (le_max_left _ _) (by linarith)
      linarith
    · have := min_le_right (max (s.lo i - s.sOld i)
          ((if cfg.random = true then env.randDirs s num (k + 1) else coordDir s.del (fun c => s.lo c - s.sOld c)
            (fun c => s.hi c - s.sOld c) (k + 1)) i)) (s.hi i - s.sOld i)
      linarith

theorem altPoint_mem (cfg : Cfg n) (env : Env n) (s : St n) (q : ℕ) (φ : Pt n → ℕ → ℝ) (v : ℕ → ℝ)
    (S : List (Pt n)) : altPoint cfg env s q φ v S ∈ generateSet cfg env s ((n + 1) * (n + 2) / 2) := by
  unfold altPoint
  simp only
  set tmp := generateSet cfg env s ((n + 1) * (n + 2) / 2) with htmp
  set cands := ((env.argsort (tmp.map fun x => |dot q v (φ x)|)).reverse).filterMap fun i => tmp[i]? with hc
  have hmem : ∀ x ∈ cands, x ∈ tmp := by
    intro x hx
    obtain ⟨i, -, hi⟩ := List.mem_filterMap.1 hx
    exact List.mem_of_getElem? hi
  split
  · rename_i x hx
    exact hmem x (List.mem_of_find?_eq_some hx)
  · cases hcd : cands with
    | nil => simp [htmp, generateSet]
    | cons a l => simp only [List.headD_cons]; exact hmem a (by rw [hcd]; simp)

/-- The contract of the outside searches: they respect the bounds they are given. -/
structure EnvOK (env : Env n) : Prop where
  build : ∀ s S f m, Within s s.sOld → env.build s S f = some m → Within s m.sNew
  newPoint : ∀ s φ v x, Within s s.sOld → env.newPoint s φ v = some x → Within s x

/-- A sample set whose values are those of the objective and whose points have all been evaluated. -/
structure Paired (cfg : Cfg n) (obj : Pt n → ℝ) (s : St n) (S : List (Pt n)) (f : List ℝ) : Prop where
  vals : f = S.map (val cfg obj)
  mem : ∀ x ∈ S, x ∈ s.S

theorem Paired.ext {cfg : Cfg n} {obj : Pt n → ℝ} {s s' : St n} {S : List (Pt n)} {f : List ℝ}
    (h : Paired cfg obj s S f) (e : s.S <+: s'.S) : Paired cfg obj s' S f :=
  ⟨h.vals, fun x hx => e.subset (h.mem x hx)⟩

/-- The state of the LU loop after `m` steps. -/
structure LUInv (cfg : Cfg n) (env : Env n) (obj : Pt n → ℝ) (st : St n) (m : ℕ) (a : LU n) : Prop where
  evals : ∃ k ≤ m, Evals cfg env obj k st a.st
  set : Paired cfg obj a.st a.S a.f
  hat : Paired cfg obj a.st a.hatS a.hatF
  len : a.S.length = m + 1
  head : a.S.head? = some st.sOld

theorem luPick_inv {cfg : Cfg n} {env : Env n} {obj : Pt n → ℝ} {st : St n} {m : ℕ} {a : LU n}
    (h : LUInv cfg env obj st m a) (q : ℕ) (φ : Pt n → ℕ → ℝ) (k index : ℕ) (hi : index < a.hatS.length) :
    LUInv cfg env obj st (m + 1) (luPick q φ a k index) := by
  obtain ⟨⟨j, hj, he⟩, hs, hh, hl, hd⟩ := h
  refine ⟨⟨j, by omega, he⟩, ⟨?_, ?_⟩, ⟨?_, ?_⟩, ?_, ?_⟩
  · simp only [luPick, List.map_append, List.map_cons, List.map_nil, ← hs.vals]
    rw [hh.vals, getD_map' _ a.hatS index a.st.sOld 0 hi]
  · intro x hx
    simp only [luPick, List.mem_append, List.mem_singleton] at hx
    rcases hx with hx | rfl
    · exact hs.mem x hx
    · exact hh.mem _ (getD_mem _ _ _ hi)
  · simp only [luPick]
    rw [hh.vals, map_eraseIdx']
  · intro x hx
    exact hh.mem x (List.eraseIdx_subset hx)
  · simp [luPick, hl]
  · simp only [luPick]
    rw [List.head?_append, hd]
    rfl

theorem luStep_inv {cfg : Cfg n} {env : Env n} {obj : Pt n → ℝ} {st : St n} (hst : Inv cfg obj st)
    {m : ℕ} {a : LU n} (h : LUInv cfg env obj st m a) (method : LUMethod) (psi2 : ℝ) (q : ℕ)
    (φ : Pt n → ℕ → ℝ) (k : ℕ) :
    LUInv cfg env obj st (m + 1) (luStep cfg env obj method psi2 q φ a k) := by
  have hidx : a.hatF.length > 0 → argmax (a.hatS.map fun x => |dot q (luV a.U k) (φ x)|) < a.hatS.length := by
    intro hpos
    have hl : a.hatF.length = a.hatS.length := by rw [h.hat.vals]; simp
    have := argmax_lt (a.hatS.map fun x => |dot q (luV a.U k) (φ x)|) (by
      intro h0; rw [List.map_eq_nil_iff] at h0; rw [hl, h0] at hpos; exact absurd hpos (by simp))
    simpa using this
  unfold luStep
  simp only
  split
  · rename_i hflag
    apply luPick_inv h
    apply hidx
    by_contra hcon
    unfold luFlag at hflag
    rw [if_neg hcon] at hflag
    exact absurd hflag (by simp)
  · split
    · rename_i hc
      exact luPick_inv h _ _ _ _ (hidx hc.1)
    · obtain ⟨⟨j, hj, he⟩, hs, hh, hl, hd⟩ := h
      obtain ⟨hi, hext⟩ := he.inv hst
      have hPx : Justified cfg env a.st (choosePoint cfg env a.st q φ (luV a.U k) a.S) := by
        unfold choosePoint
        split
        · rename_i y hy
          split
          · exact .inr (.inl ⟨_, _, hy⟩)
          · exact .inr (.inr ⟨_, _, Ext.refl _, altPoint_mem ..⟩)
        · exact .inr (.inr ⟨_, _, Ext.refl _, altPoint_mem ..⟩)
      generalize choosePoint cfg env a.st q φ (luV a.U k) a.S = x at hPx ⊢
      obtain ⟨b1, b2, b3, b4, -⟩ := blackbox_spec hi x
      refine ⟨⟨j + 1, by omega, .step x he hPx⟩, ⟨?_, ?_⟩, hh.ext b2.pre, ?_, ?_⟩
      · simp only [List.map_append, List.map_cons, List.map_nil, ← hs.vals]
        rw [b3]
      · intro y hy
        simp only [List.mem_append, List.mem_singleton] at hy
        rcases hy with hy | rfl
        · exact b2.pre.subset (hs.mem y hy)
        · exact b4
      · simp [hl]
      · simp only
        rw [List.head?_append, hd]
        rfl

/-- The LU loop: at most `q - 1` evaluations, a set of `q` points that starts with the incumbent, every
point paired with its value. -/
theorem luPivot_inv {cfg : Cfg n} {env : Env n} {obj : Pt n → ℝ} {st : St n}
    (hst : Inv cfg obj st) (hold : Old cfg obj st)
    (method : LUMethod) (psi2 : ℝ) (q : ℕ) (φ : Pt n → ℕ → ℝ) {hatS : List (Pt n)} {hatF : List ℝ}
    (hh : Paired cfg obj st hatS hatF) :
    LUInv cfg env obj st (q - 1) (luPivot cfg env obj method psi2 q φ st hatS hatF) := by
  unfold luPivot
  have key : ∀ (l : List ℕ) (m : ℕ) (a : LU n), LUInv cfg env obj st m a →
      LUInv cfg env obj st (m + l.length) (l.foldl (luStep cfg env obj method psi2 q φ) a) := by
    intro l
    induction l with
    | nil => intro m a h; exact h
    | cons k l ih =>
      intro m a h
      rw [List.foldl_cons, List.length_cons, show m + (l.length + 1) = m + 1 + l.length by omega]
      exact ih _ _ (luStep_inv hst h method psi2 q φ k)
  have := key (List.range' 1 (q - 1)) 0 ⟨st, [st.sOld], [st.fOld], hatS, hatF, [φ st.sOld]⟩
    ⟨⟨0, le_refl _, .refl _⟩, ⟨by simp [hold.value], by simpa using hold.mem⟩, hh, rfl, rfl⟩
  simpa using this

theorem Paired.removePoint {cfg : Cfg n} {obj : Pt n → ℝ} {s st : St n} {r : List (Pt n) × List ℝ}
    (h : Paired cfg obj s r.1 r.2) : Paired cfg obj s (removePoint st r).1 (removePoint st r).2 := by
  have hz : r.1.zip r.2 = r.1.map fun x => (x, val cfg obj x) := by
    rw [h.vals, List.zip_map_right, ← List.map_id r.1]
    simp [List.zip_eq_zipWith, List.zipWith_self]
  unfold EQ.Opt.removePoint
  simp only [hz]
  refine ⟨?_, ?_⟩
  · rw [List.map_map]
    refine List.map_congr_left fun a ha => ?_
    obtain ⟨x, -, rfl⟩ := List.mem_map.1 (List.mem_filter.1 ha).1
    rfl
  · intro x hx
    obtain ⟨a, ha, rfl⟩ := List.mem_map.1 hx
    obtain ⟨y, hy, rfl⟩ := List.mem_map.1 (List.mem_filter.1 ha).1
    exact h.mem y hy

theorem Paired.removeFurthest {cfg : Cfg n} {obj : Pt n → ℝ} {s st : St n} {r : List (Pt n) × List ℝ}
    (h : Paired cfg obj s r.1 r.2) : Paired cfg obj s (removeFurthest st r).1 (removeFurthest st r).2 := by
  unfold EQ.Opt.removeFurthest
  refine ⟨?_, fun x hx => h.mem x (List.eraseIdx_subset hx)⟩
  simp only
  rw [h.vals, map_eraseIdx']

theorem Paired.uniqueRows {cfg : Cfg n} {obj : Pt n → ℝ} {s : St n} {r : List (Pt n) × List ℝ}
    (h : Paired cfg obj s r.1 r.2) : Paired cfg obj s (uniqueRows r).1 (uniqueRows r).2 := by
  unfold EQ.Opt.uniqueRows
  simp only
  set rows := ((List.range r.1.length).filter fun i =>
    (List.range i).all fun j => r.1.getD j default ≠ r.1.getD i default).map
      fun i => (r.1.getD i default, r.2.getD i 0) with hrows
  have hr : ∀ a ∈ rows, a.2 = val cfg obj a.1 ∧ a.1 ∈ r.1 := by
    intro a ha
    obtain ⟨i, hi, rfl⟩ := List.mem_map.1 ha
    have hlt := List.mem_range.1 (List.mem_filter.1 hi).1
    refine ⟨?_, getD_mem _ _ _ hlt⟩
    simp only
    rw [h.vals, getD_map' _ r.1 i default 0 hlt]
  refine ⟨?_, ?_⟩
  · rw [List.map_map]
    exact List.map_congr_left fun a ha => (hr a (List.mem_mergeSort.1 ha)).1
  · intro x hx
    obtain ⟨a, ha, rfl⟩ := List.mem_map.1 hx
    exact h.mem _ (hr a (List.mem_mergeSort.1 ha)).2

/-! ## One pass of the main loop as a sequence of elementary steps -/

/-- The elementary steps a run is made of. The number counts the requests for evaluations. -/
inductive Prim (cfg : Cfg n) (env : Env n) (obj : Pt n → ℝ) : ℕ → St n → St n → Prop
  | refl (s) : Prim cfg env obj 0 s s
  | eval {k s s'} (x) : Prim cfg env obj k s s' → Justified cfg env s' x →
      Prim cfg env obj (k + 1) s (blackbox cfg obj s' x).1
  | del {k s s'} (v) : Prim cfg env obj k s s' →
      (v ≥ s'.rho ∨ v = cfg.alpha2 * s'.rho ∨
        ∃ d ≥ 0, v = max (cfg.gamInc * s'.del) (cfg.gamIncBar * d)) →
      Prim cfg env obj k s (setDel cfg v s')
  | iterate {k s s'} : Prim cfg env obj k s s' → Prim cfg env obj k s (setIterate cfg s')
  | marks {k s s'} (c : ℕ) (r : ℝ) : Prim cfg env obj k s s' →
      Prim cfg env obj k s { s' with count := c, ratio := r }
  | rho {k s s'} : Prim cfg env obj k s s' → cfg.rhoMin < s'.rho →
      Prim cfg env obj k s { s' with rho := reduceRho cfg s'.rho }

theorem Prim.trans {cfg : Cfg n} {env : Env n} {obj : Pt n → ℝ} {k m : ℕ} {a b c : St n}
    (h : Prim cfg env obj k a b) (h' : Prim cfg env obj m b c) : Prim cfg env obj (k + m) a c := by
  induction h' with
  | refl => exact h
  | eval x _ hj ih => exact .eval x (ih h) hj
  | del v _ hv ih => exact .del v (ih h) hv
  | iterate _ ih => exact .iterate (ih h)
  | marks c r _ ih => exact .marks c r (ih h)
  | rho _ hr ih => exact .rho (ih h) hr

theorem Evals.prim {cfg : Cfg n} {env : Env n} {obj : Pt n → ℝ} {k : ℕ} {a b : St n}
    (h : Evals cfg env obj k a b) : Prim cfg env obj k a b := by
  induction h with
  | refl => exact .refl _
  | step x _ hj ih => exact .eval x ih hj

@[simp] theorem updateBounds_S (cfg : Cfg n) (s : St n) : (updateBounds cfg s).S = s.S := by
  unfold updateBounds; split <;> [split_ifs; skip] <;> rfl
@[simp] theorem updateBounds_f (cfg : Cfg n) (s : St n) : (updateBounds cfg s).f = s.f := by
  unfold updateBounds; split <;> [split_ifs; skip] <;> rfl
@[simp] theorem updateBounds_evals (cfg : Cfg n) (s : St n) : (updateBounds cfg s).evals = s.evals := by
  unfold updateBounds; split <;> [split_ifs; skip] <;> rfl
@[simp] theorem updateBounds_calls (cfg : Cfg n) (s : St n) : (updateBounds cfg s).calls = s.calls := by
  unfold updateBounds; split <;> [split_ifs; skip] <;> rfl
@[simp] theorem updateBounds_sOld (cfg : Cfg n) (s : St n) : (updateBounds cfg s).sOld = s.sOld := by
  unfold updateBounds; split <;> [split_ifs; skip] <;> rfl
@[simp] theorem updateBounds_fOld (cfg : Cfg n) (s : St n) : (updateBounds cfg s).fOld = s.fOld := by
  unfold updateBounds; split <;> [split_ifs; skip] <;> rfl
@[simp] theorem updateBounds_del (cfg : Cfg n) (s : St n) : (updateBounds cfg s).del = s.del := by
  unfold updateBounds; split <;> [split_ifs; skip] <;> rfl
@[simp] theorem updateBounds_rho (cfg : Cfg n) (s : St n) : (updateBounds cfg s).rho = s.rho := by
  unfold updateBounds; split <;> [split_ifs; skip] <;> rfl
@[simp] theorem updateBounds_count (cfg : Cfg n) (s : St n) : (updateBounds cfg s).count = s.count := by
  unfold updateBounds; split <;> [split_ifs; skip] <;> rfl
@[simp] theorem updateBounds_ratio (cfg : Cfg n) (s : St n) : (updateBounds cfg s).ratio = s.ratio := by
  unfold updateBounds; split <;> [split_ifs; skip] <;> rfl

theorem setIterate_old {cfg : Cfg n} {obj : Pt n → ℝ} {s : St n} (h : Inv cfg obj s) (hne : s.S ≠ []) :
    Old cfg obj (setIterate cfg s) ∧ ∀ x ∈ s.S, (setIterate cfg s).fOld ≤ val cfg obj x := by
  have hf : s.f ≠ [] := by rw [h.vals]; simpa using hne
  obtain ⟨h1, h2⟩ := argmin_spec s.f hf
  have hlen : argmin s.f < s.S.length := by rw [h.vals] at h1 ⊢; simpa using h1
  have hv : s.f.getD (argmin s.f) s.fOld = val cfg obj (s.S.getD (argmin s.f) s.sOld) := by
    conv_lhs => rw [h.vals]
    rw [getD_map' _ s.S _ s.sOld s.fOld (by rw [← h.vals]; exact hlen), ← h.vals]
  have hv0 : s.f.getD (argmin s.f) s.fOld = s.f.getD (argmin s.f) 0 := by
    rw [List.getD_eq_getElem?_getD, List.getD_eq_getElem?_getD, List.getElem?_eq_getElem h1]
    rfl
  refine ⟨⟨?_, ?_⟩, fun x hx => ?_⟩
  · simp only [setIterate, updateBounds_sOld, updateBounds_S]
    exact getD_mem _ _ _ hlen
  · simp only [setIterate, updateBounds_sOld, updateBounds_fOld]
    exact hv
  · simp only [setIterate, updateBounds_fOld]
    rw [hv0]
    exact h2 _ (by rw [h.vals]; exact List.mem_map.2 ⟨x, hx, rfl⟩)

/-- What elementary steps preserve. -/
theorem Prim.inv {cfg : Cfg n} {env : Env n} {obj : Pt n → ℝ} {k : ℕ} {a b : St n}
    (h : Prim cfg env obj k a b) (hi : Inv cfg obj a) (ho : Old cfg obj a) :
    Inv cfg obj b ∧ Old cfg obj b ∧ a.S <+: b.S ∧ b.evals ≤ a.evals + k ∧ b.fOld ≤ a.fOld := by
  induction h with
  | refl => exact ⟨hi, ho, List.prefix_refl _, le_refl _, le_refl _⟩
  | eval x _ hj ih =>
    obtain ⟨h1, h2, h3, h4, h5⟩ := ih hi ho
    obtain ⟨a1, a2, a3, a4, a5⟩ := blackbox_spec h1 x
    refine ⟨a1, h2.ext a2, h3.trans a2.pre, ?_, by rw [a2.fOld]; exact h5⟩
    rw [a1.evals, a5]
    rw [h1.evals] at h4
    split_ifs
    · omega
    · simp only [List.length_append, List.length_singleton]; omega
  | del v _ hv ih =>
    obtain ⟨h1, h2, h3, h4, h5⟩ := ih hi ho
    exact ⟨⟨by simpa [setDel] using h1.vals, by simpa [setDel] using h1.nodup, by simpa [setDel] using h1.evals,
      by simpa [setDel] using h1.calls⟩, ⟨by simpa [setDel] using h2.mem, by simpa [setDel] using h2.value⟩,
      by simpa [setDel] using h3, by simpa [setDel] using h4, by simpa [setDel] using h5⟩
  | iterate _ ih =>
    obtain ⟨h1, h2, h3, h4, h5⟩ := ih hi ho
    obtain ⟨h6, h7⟩ := setIterate_old h1 (List.ne_nil_of_mem h2.mem)
    refine ⟨⟨by simpa [setIterate] using h1.vals, by simpa [setIterate] using h1.nodup,
      by simpa [setIterate] using h1.evals, by simpa [setIterate] using h1.calls⟩, h6,
      by simpa [setIterate] using h3, by simpa [setIterate] using h4, ?_⟩
    have := h7 _ h2.mem
    rw [← h2.value] at this
    exact this.trans h5
  | marks c r _ ih =>
    obtain ⟨h1, h2, h3, h4, h5⟩ := ih hi ho
    exact ⟨⟨h1.vals, h1.nodup, h1.evals, h1.calls⟩, ⟨h2.mem, h2.value⟩, h3, h4, h5⟩
  | rho _ hr ih =>
    obtain ⟨h1, h2, h3, h4, h5⟩ := ih hi ho
    exact ⟨⟨h1.vals, h1.nodup, h1.evals, h1.calls⟩, ⟨h2.mem, h2.value⟩, h3, h4, h5⟩

/-- The state of a run between two passes. -/
structure RunInv (cfg : Cfg n) (obj : Pt n → ℝ) (r : Run n) : Prop where
  inv : Inv cfg obj r.st
  old : Old cfg obj r.st
  set : Paired cfg obj r.st r.S r.f
  len : r.S.length = setSize n

theorem setSize_pos (n : ℕ) : 1 ≤ setSize n := by
  unfold setSize
  rw [Nat.le_div_iff_mul_le (by norm_num)]
  nlinarith

theorem lu_run {cfg : Cfg n} {env : Env n} {obj : Pt n → ℝ} {st : St n} (hi : Inv cfg obj st)
    (ho : Old cfg obj st) (method : LUMethod) (psi2 : ℝ) (φ : Pt n → ℕ → ℝ) {hatS : List (Pt n)}
    {hatF : List ℝ} (hh : Paired cfg obj st hatS hatF) (a : LU n)
    (ha : luPivot cfg env obj method psi2 (setSize n) φ st hatS hatF = a) :
    (∃ k ≤ setSize n - 1, Prim cfg env obj k st a.st) ∧ RunInv cfg obj ⟨a.st, a.S, a.f⟩ ∧
      a.S.head? = some st.sOld ∧ Ext st a.st := by
  have h := luPivot_inv (env := env) hi ho method psi2 (setSize n) φ hh
  rw [ha] at h
  obtain ⟨⟨k, hk, he⟩, hs, -, hl, hd⟩ := h
  obtain ⟨h1, h2⟩ := he.inv hi
  have := setSize_pos n
  exact ⟨⟨k, hk, he.prim⟩, ⟨h1, ho.ext h2, hs, by rw [hl]; omega⟩, hd, h2⟩

theorem improveSet_spec {cfg : Cfg n} {env : Env n} {obj : Pt n → ℝ} {r : Run n} (h : RunInv cfg obj r) :
    (∃ k ≤ setSize n - 1, Prim cfg env obj k r.st (improveSet cfg env obj r).st) ∧
      RunInv cfg obj (improveSet cfg env obj r) ∧
      (improveSet cfg env obj r).S.head? = some r.st.sOld ∧ Ext r.st (improveSet cfg env obj r).st := by
  unfold improveSet
  simp only
  refine lu_run h.inv h.old .improve (1/4) _ ?_ _ rfl
  apply Paired.removePoint
  split_ifs
  · exact Paired.removeFurthest h.set
  · exact h.set

theorem replaceSet_spec {cfg : Cfg n} {env : Env n} {obj : Pt n → ℝ} {r : Run n} (h : RunInv cfg obj r)
    {x : Pt n} {v : ℝ} (hx : x ∈ r.st.S) (hv : v = val cfg obj x) :
    (∃ k ≤ setSize n - 1, Prim cfg env obj k r.st (replaceSet cfg env obj r x v).st) ∧
      RunInv cfg obj (replaceSet cfg env obj r x v) ∧
      (replaceSet cfg env obj r x v).S.head? = some r.st.sOld ∧
      Ext r.st (replaceSet cfg env obj r x v).st := by
  have hp : Paired cfg obj r.st (r.S ++ [x]) (r.f ++ [v]) := by
    refine ⟨by simp [h.set.vals, hv], fun y hy => ?_⟩
    rcases List.mem_append.1 hy with hy | hy
    · exact h.set.mem y hy
    · simp at hy; rw [hy]; exact hx
  unfold replaceSet
  simp only
  refine lu_run h.inv h.old .replace (1/4) _ ?_ _ rfl
  apply Paired.removePoint
  split_ifs
  · exact Paired.uniqueRows (r := (r.S ++ [x], r.f ++ [v])) hp
  · exact Paired.removeFurthest (r := (r.S ++ [x], r.f ++ [v])) hp
  · exact hp

theorem RunInv.prim {cfg : Cfg n} {env : Env n} {obj : Pt n → ℝ} {k : ℕ} {r : Run n} {st : St n}
    (h : RunInv cfg obj r) (p : Prim cfg env obj k r.st st) : RunInv cfg obj { r with st := st } := by
  obtain ⟨h1, h2, h3, -, -⟩ := p.inv h.inv h.old
  exact ⟨h1, h2, h.set.ext h3, h.len⟩

theorem updateGeometry_spec {cfg : Cfg n} {env : Env n} {obj : Pt n → ℝ} {r : Run n} (h : RunInv cfg obj r)
    (hr : cfg.rhoMin < r.st.rho) :
    (∃ k ≤ setSize n - 1, Prim cfg env obj k r.st (updateGeometry cfg env obj r).st) ∧
      RunInv cfg obj (updateGeometry cfg env obj r) := by
  unfold updateGeometry
  split_ifs with h1 h2
  · exact ⟨(improveSet_spec h).1, (improveSet_spec h).2.1⟩
  · have p0 : Prim cfg env obj 0 r.st (setDel cfg (cfg.alpha2 * r.st.rho) r.st) :=
      .del _ (.refl _) (.inr (.inl rfl))
    simp only
    split_ifs with h3
    · have p1 := Prim.rho p0 (by simpa [setDel] using hr)
      exact ⟨⟨0, Nat.zero_le _, p1⟩, h.prim p1⟩
    · exact ⟨⟨0, Nat.zero_le _, p0⟩, h.prim p0⟩
  · exact ⟨⟨0, Nat.zero_le _, .refl _⟩, h⟩

theorem settle_spec {cfg : Cfg n} {env : Env n} {obj : Pt n → ℝ} {r : Run n} (h : RunInv cfg obj r)
    (hr : cfg.rhoMin < r.st.rho) (fNew delM stepDist : ℝ) (hd : 0 ≤ stepDist) :
    (∃ k ≤ setSize n - 1, Prim cfg env obj k r.st (settle cfg env obj r fNew delM stepDist).st) ∧
      RunInv cfg obj (settle cfg env obj r fNew delM stepDist) := by
  have p1 : Prim cfg env obj 0 r.st (setIterate cfg { r.st with ratio := ratioOf (r.st.fOld - fNew) delM }) :=
    .iterate (.marks r.st.count _ (.refl _))
  have hrho : (setIterate cfg { r.st with ratio := ratioOf (r.st.fOld - fNew) delM }).rho = r.st.rho := by
    simp [setIterate]
  unfold settle
  simp only
  generalize setIterate cfg { r.st with ratio := ratioOf (r.st.fOld - fNew) delM } = st at p1 hrho ⊢
  split_ifs with h1 h2
  · have p2 : Prim cfg env obj 0 r.st (setDel cfg (max (cfg.gamInc * st.del) (cfg.gamIncBar * stepDist))
        { st with count := 0 }) := .del _ (.marks 0 st.ratio p1) (.inr (.inr ⟨stepDist, hd, rfl⟩))
    exact ⟨⟨0, Nat.zero_le _, p2⟩, h.prim p2⟩
  · have p2 : Prim cfg env obj 0 r.st (setDel cfg (max (max (cfg.gamDec * st.del) stepDist) st.rho)
        { st with count := 0 }) := .del _ (.marks 0 st.ratio p1) (.inl (le_max_right _ _))
    exact ⟨⟨0, Nat.zero_le _, p2⟩, h.prim p2⟩
  · have p2 : Prim cfg env obj 0 r.st (setDel cfg (max (min (cfg.gamDec * st.del) stepDist) st.rho)
        { st with count := st.count + 1 }) := .del _ (.marks _ st.ratio p1) (.inl (le_max_right _ _))
    obtain ⟨⟨k, hk, hp⟩, hri⟩ := updateGeometry_spec (env := env) (h.prim p2) (by
      simp only [setDel, updateBounds_rho]; rw [hrho]; exact hr)
    exact ⟨⟨0 + k, by omega, p2.trans hp⟩, hri⟩

/-- One pass: elementary steps with at most `1 + 2 (p - 1)` evaluations, where `p` is the size of the
sample set; the sample set keeps its size and its values. -/
theorem iter_spec {cfg : Cfg n} {env : Env n} {obj : Pt n → ℝ} {r : Run n} (h : RunInv cfg obj r) :
    (∃ k ≤ 1 + 2 * (setSize n - 1), Prim cfg env obj k r.st (iter cfg env obj r).1.st) ∧
      RunInv cfg obj (iter cfg env obj r).1 := by
  unfold iter
  split_ifs with h0
  · exact ⟨⟨0, Nat.zero_le _, .refl _⟩, h⟩
  · push Not at h0
    split
    · obtain ⟨⟨k, hk, hp⟩, h2, -, -⟩ := improveSet_spec (env := env) h
      exact ⟨⟨k, by omega, hp⟩, h2⟩
    · rename_i m hm
      simp only
      split_ifs with h1 h2
      · have p1 : Prim cfg env obj 0 r.st (setDel cfg (max (cfg.gamDec * r.st.del) r.st.rho)
            { r.st with ratio := -1/10, count := 3 }) :=
          .del _ (.marks 3 (-1/10) (.refl _)) (.inl (le_max_right _ _))
        obtain ⟨⟨k, hk, hp⟩, hri⟩ := updateGeometry_spec (env := env) (h.prim p1) (by simpa [setDel] using h0.2)
        exact ⟨⟨0 + k, by omega, p1.trans hp⟩, hri⟩
      · have p1 : Prim cfg env obj 1 r.st (blackbox cfg obj r.st m.sNew).1 :=
          .eval _ (.refl _) (.inl ⟨_, _, _, hm, rfl⟩)
        exact ⟨⟨1, by omega, p1⟩, h.prim p1⟩
      · have p1 : Prim cfg env obj 1 r.st (blackbox cfg obj r.st m.sNew).1 :=
          .eval _ (.refl _) (.inl ⟨_, _, _, hm, rfl⟩)
        obtain ⟨-, b2, b3, b4, -⟩ := blackbox_spec h.inv m.sNew
        obtain ⟨⟨k, hk, hp⟩, hri, -, hex⟩ := replaceSet_spec (env := env) (h.prim p1) (x := m.sNew) b4 b3
        obtain ⟨⟨k', hk', hp'⟩, hri'⟩ := settle_spec (env := env) hri (by
          rw [hex.rho]; simp only; rw [b2.rho]; exact h0.2) (blackbox cfg obj r.st m.sNew).2 (m.atOld - m.mNew)
          (normInf fun i => m.sNew i - r.st.sOld i) (normInf_nonneg _)
        exact ⟨⟨1 + k + k', by omega, (p1.trans hp).trans hp'⟩, hri'⟩

end EQ.Opt
