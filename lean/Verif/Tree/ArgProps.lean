import Verif.Tree.CandProps

/-!
# Arguments of a tree, and fits that fail: C231

The constructor of `PolyTree`, and `fit` with the names of the criterion and of the search as strings and with the state of the object
when it raises.
-/

namespace EQ.Tree
open EQ.Basis

variable {d : ℕ}

/-- The attributes of a `PolyTree` (polytree.py:48-61) that `fit` reads or writes. The basis and the method are part of the function that fits
polynomials; `order` is read through the cardinality only. -/
structure Obj (d : ℕ) where
  criterion : String
  maxDepth : ℤ
  msl : Option ℕ
  k : ℝ
  order : ℤ
  search : String
  samples : ℤ
  logging : Bool
  tree : Option (Node d)

/-- polytree.py:47-66 `__init__`. -/
noncomputable def Obj.new (criterion : String) (maxDepth : ℤ) (msl : Option ℕ) (k : ℝ) (order : ℤ) (search : String) (samples : ℤ) (logging : Bool) :
    Except Err (Obj d) :=
  if ¬ maxDepth > 0 then .error .assertionError
  else if ¬ 0 ≤ k then .error .assertionError
  else if ¬ order > 0 then .error .assertionError
  else if ¬ samples > 0 then .error .assertionError
  else .ok ⟨criterion, maxDepth, msl, k, order, search, samples, logging, none⟩

/-- polytree.py:141-146. -/
def criterionOf (s : String) : Option Criterion :=
  if s = "model_aware" then some .modelAware else if s = "model_agnostic" then some .modelAgnostic else none

/-- polytree.py:159-168. -/
def searchOf (s : String) : Option Search :=
  if s = "exhaustive" then some .exhaustive else if s = "grid" then some .grid else none

/-- polytree.py:298-300 with 133-168: `_build_tree`. The polynomial of the root is fitted first, which raises without points; then the name of the criterion is
looked at and, as the depth of the root is below the maximum and there is at least one input, the name of the search. -/
noncomputable def Obj.build (o : Obj d) (card : ℕ) (fit : Fit d) (D : Data d) : Except Err (State d) :=
  if D.X.length = 0 then .error .unboundLocalError
  else match criterionOf o.criterion with
    | none => .error .exception
    | some c => match searchOf o.search with
      | none => .error .exception
      | some q => fitTree ⟨c, q, o.samples.toNat, o.maxDepth.toNat, o.logging, card⟩ fit D ⟨o.msl, o.k, o.tree⟩

/-- polytree.py:303-315 `fit`: the outcome and the object afterwards. `card` is the cardinality of the basis or the exception of its constructor.
`min_samples_leaf` and `k` are assigned before the tree is built, `tree` afterwards. -/
noncomputable def Obj.fit (o : Obj d) (card : Except Err ℕ) (fit : Fit d) (D : Data d) : Except Err Unit × Obj d :=
  match card with
  | .error e => (.error e, o)
  | .ok c =>
    let m := resolveMsl c o.msl
    match o.build c fit D with
    | .error e => (.error e, { o with msl := some m, k := o.k * m })
    | .ok s => (.ok (), { o with msl := some m, k := o.k * m, tree := s.tree })

/-- **C231, the constructor.** It refuses exactly the arguments with a depth, an order or a number of samples that is not positive or with a negative smoothing
constant; every other object holds what was passed. -/
theorem c231_constructor (criterion search : String) (maxDepth order samples : ℤ) (msl : Option ℕ) (k : ℝ) (logging : Bool) :
    let r : Except Err (Obj d) := Obj.new criterion maxDepth msl k order search samples logging
    (0 < maxDepth ∧ 0 ≤ k ∧ 0 < order ∧ 0 < samples → r = .ok ⟨criterion, maxDepth, msl, k, order, search, samples, logging, none⟩) ∧
    (¬ (0 < maxDepth ∧ 0 ≤ k ∧ 0 < order ∧ 0 < samples) → r = .error .assertionError) := by
  intro r
  constructor
  · rintro ⟨h1, h2, h3, h4⟩
    simp [r, Obj.new, h1, h2, h3, h4]
  · intro h
    simp only [r, Obj.new]
    split_ifs with h1 h2 h3 h4 <;> first | rfl | exact absurd ⟨by omega, by simpa using h2, by omega, by omega⟩ h

/-- The default arguments are accepted, a smoothing constant of zero too. -/
example : (∃ o : Obj 2, Obj.new "model_aware" 5 none (1 / 2) 3 "exhaustive" 50 false = .ok o) ∧
    (∃ o : Obj 2, Obj.new "model_aware" 5 none 0 3 "exhaustive" 50 false = .ok o) ∧
    (Obj.new "model_aware" 0 none 0 3 "exhaustive" 50 false : Except Err (Obj 2)) = .error .assertionError :=
  ⟨⟨_, (c231_constructor _ _ _ _ _ _ _ _).1 (by norm_num)⟩, ⟨_, (c231_constructor _ _ _ _ _ _ _ _).1 (by norm_num)⟩,
    (c231_constructor _ _ _ _ _ _ _ _).2 (by norm_num)⟩

/-- What `fitTree` raises. -/
theorem fitTree_error {cfg : Config} {fit : Fit d} {D : Data d} {s : State d} {e : Err} (h : fitTree cfg fit D s = .error e) : e = .unboundLocalError := by
  unfold fitTree at h
  simp only at h
  split_ifs at h <;> exact (Except.error.inj h).symm

theorem Obj.fit_of_error {o : Obj d} {c : ℕ} {fit : Fit d} {D : Data d} {e : Err} (h : o.build c fit D = .error e) :
    o.fit (.ok c) fit D = (.error e, { o with msl := some (resolveMsl c o.msl), k := o.k * resolveMsl c o.msl }) := by
  simp only [Obj.fit, h]

theorem Obj.fit_of_ok {o : Obj d} {c : ℕ} {fit : Fit d} {D : Data d} {s : State d} (h : o.build c fit D = .ok s) :
    o.fit (.ok c) fit D = (.ok (), { o with msl := some (resolveMsl c o.msl), k := o.k * resolveMsl c o.msl, tree := s.tree }) := by
  simp only [Obj.fit, h]

/-- **C231, names.** Names of the criterion and of the search other than the documented ones are refused by `fit`, for every data set with points; they are never
replaced silently. The documented ones are never refused for their names. -/
theorem c231_names (o : Obj d) (card : ℕ) (fit : Fit d) (D : Data d) (hD : D.X ≠ []) :
    (o.fit (.ok card) fit D).1 = .error .exception ↔
      ¬ ((o.criterion = "model_aware" ∨ o.criterion = "model_agnostic") ∧ (o.search = "exhaustive" ∨ o.search = "grid")) := by
  have hl : D.X.length ≠ 0 := fun h => hD (List.length_eq_zero_iff.1 h)
  have hc : criterionOf o.criterion = none ↔ ¬ (o.criterion = "model_aware" ∨ o.criterion = "model_agnostic") := by
    unfold criterionOf; split_ifs with h1 h2 <;> simp [*]
  have hs : searchOf o.search = none ↔ ¬ (o.search = "exhaustive" ∨ o.search = "grid") := by
    unfold searchOf; split_ifs with h1 h2 <;> simp [*]
  have key : o.build card fit D = .error .exception ↔ criterionOf o.criterion = none ∨ searchOf o.search = none := by
    unfold Obj.build
    rw [if_neg hl]
    rcases h1 : criterionOf o.criterion with - | c
    · simp
    · rcases h2 : searchOf o.search with - | q
      · simp
      · simp only [reduceCtorEq, or_self, iff_false]
        intro h
        have := fitTree_error h
        cases this
  rw [not_and_or, ← hc, ← hs, ← key]
  rcases hb : o.build card fit D with e | s
  · rw [Obj.fit_of_error hb]
    simp
  · rw [Obj.fit_of_ok hb]
    simp

/-- **C231, documented names.** Each of them selects what it names: `fit` is the fit of C51 and the other properties with that criterion, that search, and the depth,
the number of samples and the logging passed to the constructor; afterwards the object holds its `min_samples_leaf`, its smoothing constant and its tree. -/
theorem c231_selected (o : Obj d) (card : ℕ) (fit : Fit d) (D : Data d) (hD : D.X ≠ []) (c : Criterion) (q : Search)
    (hc : (o.criterion, c) ∈ [("model_aware", Criterion.modelAware), ("model_agnostic", Criterion.modelAgnostic)])
    (hq : (o.search, q) ∈ [("exhaustive", Search.exhaustive), ("grid", Search.grid)]) :
    match fitTree ⟨c, q, o.samples.toNat, o.maxDepth.toNat, o.logging, card⟩ fit D ⟨o.msl, o.k, o.tree⟩ with
    | .error e => (o.fit (.ok card) fit D).1 = .error e
    | .ok s => o.fit (.ok card) fit D = (.ok (), { o with msl := s.msl, k := s.k, tree := s.tree }) := by
  have hl : D.X.length ≠ 0 := fun h => hD (List.length_eq_zero_iff.1 h)
  have hc' : criterionOf o.criterion = some c := by
    simp only [List.mem_cons, Prod.mk.injEq, List.not_mem_nil, or_false] at hc
    rcases hc with ⟨h, rfl⟩ | ⟨h, rfl⟩ <;> rw [h] <;> decide
  have hq' : searchOf o.search = some q := by
    simp only [List.mem_cons, Prod.mk.injEq, List.not_mem_nil, or_false] at hq
    rcases hq with ⟨h, rfl⟩ | ⟨h, rfl⟩ <;> rw [h] <;> decide
  have hb : o.build card fit D = fitTree ⟨c, q, o.samples.toNat, o.maxDepth.toNat, o.logging, card⟩ fit D ⟨o.msl, o.k, o.tree⟩ := by
    unfold Obj.build
    rw [if_neg hl, hc', hq']
  rcases h : fitTree ⟨c, q, o.samples.toNat, o.maxDepth.toNat, o.logging, card⟩ fit D ⟨o.msl, o.k, o.tree⟩ with e | s
  · rw [h] at hb
    simp only [Obj.fit_of_error hb]
  · rw [h] at hb
    simp only [Obj.fit_of_ok hb]
    unfold fitTree at h
    simp only at h
    split_ifs at h
    rw [← Except.ok.inj h]

/-- The four pairs of names are allowed. -/
example : ("model_agnostic", Criterion.modelAgnostic) ∈ [("model_aware", Criterion.modelAware), ("model_agnostic", Criterion.modelAgnostic)] ∧
    ("grid", Search.grid) ∈ [("exhaustive", Search.exhaustive), ("grid", Search.grid)] := by simp

/-- **C231, fits that fail: the part that holds.** If `fit` raises, the tree fitted before and all arguments but `min_samples_leaf` and `k` are as they were; if the basis cannot be
made, so is the whole object, and so it is for a smoothing constant of zero and a `min_samples_leaf` that is set and differs from the cardinality.
Missing: `k` is multiplied although nothing was fitted, see `c231_failed_fit_violated`. -/
theorem c231_failed_fit_partial (o : Obj d) (card : Except Err ℕ) (fit : Fit d) (D : Data d) (e : Err) (h : (o.fit card fit D).1 = .error e) :
    let o' := (o.fit card fit D).2
    o'.tree = o.tree ∧ o'.criterion = o.criterion ∧ o'.search = o.search ∧ o'.maxDepth = o.maxDepth ∧ o'.order = o.order ∧ o'.samples = o.samples ∧
    o'.logging = o.logging ∧ (∀ x, card = .error x → o' = o) ∧
    (∀ c m, card = .ok c → o.msl = some m → m ≠ c → o.k = 0 → o' = o) := by
  intro o'
  rcases card with x | c
  · exact ⟨rfl, rfl, rfl, rfl, rfl, rfl, rfl, fun _ _ => rfl, fun _ _ h => by cases h⟩
  · rcases hb : o.build c fit D with e' | s
    · have ho' : o' = _ := congrArg Prod.snd (Obj.fit_of_error hb)
      rw [ho']
      refine ⟨rfl, rfl, rfl, rfl, rfl, rfl, rfl, ?_, fun c' m hc hm hne hk => ?_⟩
      · intro x hx; cases hx
      obtain rfl := Except.ok.inj hc
      obtain ⟨o1, o2, o3, o4, o5, o6, o7, o8, o9⟩ := o
      simp only at hm hk
      subst hm hk
      simp [resolveMsl, hne]
    · rw [Obj.fit_of_ok hb] at h
      cases h

/-- **C231 is violated**: a tree is made with the misspelt search `Grid`, `fit` refuses it, the name is corrected and the tree fitted. It is the tree that is fitted at once with the
correct name, but the smoothing constant has been multiplied once more, whatever the data: for every positive constant and every `min_samples_leaf` above one the constants differ. -/
theorem c231_failed_fit_violated (o : Obj d) (card : ℕ) (fit : Fit d) (D : Data d) (hD : D.X ≠ []) (ho : o.search = "Grid") (hk : 0 < o.k)
    (hm : 1 < resolveMsl card o.msl)
    (hok : ({ o with search := "grid" }.fit (.ok card) fit D).1 = .ok ()) :
    let bad := (o.fit (.ok card) fit D).2
    let a := { o with search := "grid" }.fit (.ok card) fit D
    let b := { bad with search := "grid" }.fit (.ok card) fit D
    (o.fit (.ok card) fit D).1 = .error .exception ∧ b.1 = .ok () ∧ b.2.tree = a.2.tree ∧ b.2.msl = a.2.msl ∧
    b.2.k = a.2.k * (resolveMsl card o.msl : ℝ) ∧ a.2.k < b.2.k := by
  intro bad a b
  set m := resolveMsl card o.msl with hmdef
  have hr : resolveMsl card (some m) = m := resolveMsl_idem card o.msl
  have hl : D.X.length ≠ 0 := fun h => hD (List.length_eq_zero_iff.1 h)
  have h1 : (o.fit (.ok card) fit D).1 = .error .exception := (c231_names o card fit D hD).2 (by rw [ho]; simp)
  have hbad : bad = { o with msl := some m, k := o.k * m } := by
    rcases hb : o.build card fit D with e' | s
    · exact congrArg Prod.snd (Obj.fit_of_error hb)
    · rw [Obj.fit_of_ok hb] at h1; cases h1
  have hbuild : ∀ s, { o with search := "grid" }.build card fit D = .ok s →
      ∃ s', { bad with search := "grid" }.build card fit D = .ok s' ∧ s'.tree = s.tree := by
    intro s hs
    rw [hbad]
    unfold Obj.build at hs ⊢
    rw [if_neg hl] at hs ⊢
    simp only at hs ⊢
    rcases hc : criterionOf o.criterion with - | c
    · rw [hc] at hs; cases hs
    · rw [hc] at hs
      simp only [searchOf] at hs ⊢
      rw [if_neg (by decide), if_pos trivial] at hs ⊢
      simp only at hs ⊢
      unfold fitTree at hs ⊢
      simp only [hr, ← hmdef] at hs ⊢
      split_ifs at hs with g1 g2
      rw [if_neg g1, if_neg (by rw [hr]; exact g2)]
      refine ⟨_, rfl, ?_⟩
      rw [← Except.ok.inj hs]
  have ha : ∃ s, { o with search := "grid" }.build card fit D = .ok s := by
    rcases hb : { o with search := "grid" }.build card fit D with e' | s
    · rw [Obj.fit_of_error hb] at hok; cases hok
    · exact ⟨s, hb⟩
  obtain ⟨s, hs⟩ := ha
  obtain ⟨s', hs', ht⟩ := hbuild s hs
  have ea : a = (.ok (), { o with search := "grid", msl := some m, k := o.k * m, tree := s.tree }) := by
    exact Obj.fit_of_ok hs
  have eb : b = (.ok (), { o with search := "grid", msl := some m, k := o.k * m * m, tree := s'.tree }) := by
    have := Obj.fit_of_ok hs'
    simp only [hbad, hr] at this
    show { bad with search := "grid" }.fit (.ok card) fit D = _
    rw [hbad]
    exact this
  rw [ea, eb]
  refine ⟨h1, rfl, ht, rfl, rfl, ?_⟩
  have : (1 : ℝ) < m := by exact_mod_cast hm
  have := mul_pos hk (lt_trans one_pos this)
  show o.k * m < o.k * m * m
  nlinarith

/-- The four corners of the square meet the hypotheses, whatever the polynomial fits yield: the tree with the misspelt name is made, refused and fitted afterwards with a larger constant. -/
example (fit : Fit 2) : ∃ o : Obj 2, Obj.new "model_aware" 2 none (1 / 2) 1 "Grid" 50 false = .ok o ∧
    ({ o with search := "grid" }.fit (.ok 3) fit square).2.k < ({ (o.fit (.ok 3) fit square).2 with search := "grid" }.fit (.ok 3) fit square).2.k := by
  refine ⟨_, (c231_constructor _ _ _ _ _ _ _ _).1 (by norm_num), ?_⟩
  refine (c231_failed_fit_violated _ 3 fit square (by simp [square]) rfl (by norm_num) (by decide) ?_).2.2.2.2.2
  obtain ⟨s', hs⟩ := c145_fit_partial ⟨.modelAware, .grid, 50, 2, false, 3⟩ fit square ⟨none, 1 / 2, none⟩ (by simp [square]) (by decide) (by simp) (by simp)
  rw [Obj.fit_of_ok (s := s')]
  unfold Obj.build
  rw [if_neg (by simp [square])]
  simp only [criterionOf, searchOf, if_true]
  rw [if_neg (by decide : ¬ ("grid" : String) = "exhaustive")]
  exact hs

end EQ.Tree
