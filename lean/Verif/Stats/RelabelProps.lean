import Verif.Stats.AnovaProps
import Verif.Stats.ScaleProps

/-!
# Relabelling the inputs (C174)
-/

namespace EQ.Stats
open EQ.Param EQ.Poly EQ.Poly.Spec EQ.Sampling EQ.Sampling.Spec EQ.Stats.Spec EQ.Basis

/-! ## Specification -/

/-- The expansion with parameters `P` and the multi-indices `els`. -/
def expand {d : ℕ} (P : Fin d → MParam) (els : List (Fin d → ℕ)) : Expansion := ⟨List.ofFn P, els.map List.ofFn, none⟩

/-- The coefficients `c'` of the multi-indices `els'` are those of `els` after input `i` has been given the place of input `σ i`. -/
def Corresponds {d : ℕ} (σ : Equiv.Perm (Fin d)) (els els' : List (Fin d → ℕ)) (c c' : List ℝ) : Prop :=
  ∀ s s', ∀ h : s < els.length, ∀ h' : s' < els'.length, (∀ i, els'[s'] i = els[s] (σ i)) → c'.getD s' 0 = c.getD s 0

/-! ## Lemmas -/

theorem zip_relabel {d : ℕ} (σ : Equiv.Perm (Fin d)) {els els' : List (Fin d → ℕ)} (hnd : els.Nodup) (hp : els'.Perm (els.map fun r i => r (σ i)))
    {c c' : List ℝ} (hc : c.length = els.length) (hc' : c'.length = els'.length) (h : Corresponds σ els els' c c') :
    (List.zip els' c').Perm ((List.zip els c).map fun t => (fun i => t.1 (σ i), t.2)) := by
  have hinj : Function.Injective fun (r : Fin d → ℕ) i => r (σ i) := fun a b h => by
    funext i
    have := congrFun h (σ.symm i)
    simpa using this
  have hnd' : els'.Nodup := hp.nodup_iff.2 (hnd.map hinj)
  have hz : ∀ {l : List (Fin d → ℕ)} {a : List ℝ}, l.Nodup → a.length = l.length → (List.zip l a).Nodup := by
    intro l a hl ha
    apply List.Nodup.of_map Prod.fst
    rw [List.map_fst_zip (by omega)]
    exact hl
  have hinj2 : Function.Injective fun t : (Fin d → ℕ) × ℝ => ((fun i => t.1 (σ i)), t.2) := by
    rintro ⟨a, x⟩ ⟨b, y⟩ h
    simp only [Prod.mk.injEq] at h
    rw [Prod.mk.injEq]
    exact ⟨hinj h.1, h.2⟩
  have hsub : (List.zip els' c') ⊆ ((List.zip els c).map fun t => (fun i => t.1 (σ i), t.2)) := by
    rintro ⟨r, a⟩ hm
    obtain ⟨s', hs', he⟩ := List.getElem_of_mem hm
    rw [List.length_zip] at hs'
    rw [List.getElem_zip, Prod.mk.injEq] at he
    have h1 : s' < els'.length := by omega
    have hmem := hp.mem_iff.1 (List.getElem_mem h1)
    obtain ⟨r0, hr0, hr⟩ := List.mem_map.1 hmem
    obtain ⟨s, hs, rfl⟩ := List.getElem_of_mem hr0
    rw [List.mem_map]
    refine ⟨(els[s], c[s]'(by omega)), ?_, ?_⟩
    · rw [← List.getElem_zip (h := by simp; omega)]
      exact List.getElem_mem _
    · have := h s s' hs h1 fun i => by rw [← hr]
      rw [getD_of_lt _ _ _ (by omega), getD_of_lt _ _ _ (by omega)] at this
      rw [Prod.mk.injEq]
      exact ⟨hr.trans he.1, this.symm.trans he.2⟩
  refine List.Subperm.perm_of_length_le (List.Nodup.subperm (hz hnd' hc') hsub) ?_
  have := hp.length_eq
  simp only [List.length_map, List.length_zip] at this ⊢
  omega

theorem expansion_zip {d : ℕ} (P : Fin d → MParam) (els : List (Fin d → ℕ)) (c : List ℝ) (x : List ℝ) :
    expansion (List.ofFn P) (els.map List.ofFn) c x = ((List.zip els c).map fun t => t.2 * basisFun (List.ofFn P) (List.ofFn t.1) x).sum := by
  unfold expansion
  rw [List.zipWith_map_left, List.zip, List.map_zipWith]

theorem basisFun_ofFn {d : ℕ} (P : Fin d → MParam) (r : Fin d → ℕ) (x : Fin d → ℝ) :
    basisFun (List.ofFn P) (List.ofFn r) (List.ofFn x) = ∏ i, univ (P i) (r i) (x i) := by
  induction d with
  | zero => simp [basisFun]
  | succ d ih =>
    rw [List.ofFn_succ, List.ofFn_succ, List.ofFn_succ, basisFun, ih, Fin.prod_univ_succ]

theorem expansion_relabel {d : ℕ} (σ : Equiv.Perm (Fin d)) (P : Fin d → MParam) {els els' : List (Fin d → ℕ)} {c c' : List ℝ}
    (hz : (List.zip els' c').Perm ((List.zip els c).map fun t => (fun i => t.1 (σ i), t.2))) (x : Fin d → ℝ) :
    expansion (List.ofFn fun i => P (σ i)) (els'.map List.ofFn) c' (List.ofFn fun i => x (σ i)) =
      expansion (List.ofFn P) (els.map List.ofFn) c (List.ofFn x) := by
  rw [expansion_zip, expansion_zip, (hz.map _).sum_eq, List.map_map]
  congr 1
  apply List.map_congr_left
  intro t _
  simp only [Function.comp]
  rw [basisFun_ofFn, basisFun_ofFn]
  congr 1
  exact Equiv.prod_comp σ fun i => univ (P i) (t.1 i) (x i)

/-- Coefficients for the relabelled multi-indices. -/
theorem exists_corr {d : ℕ} (σ : Equiv.Perm (Fin d)) {els els' : List (Fin d → ℕ)} (hnd : els.Nodup) (c : List ℝ) : ∃ c' : List ℝ, c'.length = els'.length ∧ Corresponds σ els els' c c' := by
  classical
  refine ⟨els'.map fun r => c.getD (els.idxOf fun i => r (σ.symm i)) 0, by simp, fun s s' h h' he => ?_⟩
  rw [getD_map_lt _ _ _ _ h']
  have : (fun i => els'[s'] (σ.symm i)) = els[s] := by
    funext i
    rw [he]
    simp
  rw [this, hnd.idxOf_getElem]

theorem expand_regular {d : ℕ} (hd : 2 ≤ d) (P : Fin d → MParam) {els : List (Fin d → ℕ)} (hne : els ≠ []) : Regular (expand P els) := by
  refine ⟨by simpa [expand] using hne, fun r hr => ?_, fun h => ?_, by simp [SquareOpt, expand]⟩
  · obtain ⟨r, -, rfl⟩ := List.mem_map.1 hr
    simp [expand, Expansion.dims]
  · simp [expand, Expansion.dims] at h
    omega

theorem perm_symm {d : ℕ} (σ : Equiv.Perm (Fin d)) {els els' : List (Fin d → ℕ)} (hp : els'.Perm (els.map fun r i => r (σ i))) :
    els.Perm (els'.map fun r i => r (σ.symm i)) := by
  have := hp.map fun (r : Fin d → ℕ) i => r (σ.symm i)
  simp only [List.map_map, Function.comp_def, Equiv.apply_symm_apply] at this
  simpa using this.symm

theorem relabel_nodup {d : ℕ} (σ : Equiv.Perm (Fin d)) {els els' : List (Fin d → ℕ)} (hnd : els.Nodup) (hp : els'.Perm (els.map fun r i => r (σ i))) :
    els'.Nodup := by
  refine hp.nodup_iff.2 (hnd.map fun a b h => ?_)
  funext i
  have := congrFun h (σ.symm i)
  simpa using this

/-- For coefficients of the relabelled set there are coefficients of the first set with the same values. -/
theorem exists_back {d : ℕ} (σ : Equiv.Perm (Fin d)) (P : Fin d → MParam) {els els' : List (Fin d → ℕ)} (hnd : els.Nodup)
    (hp : els'.Perm (els.map fun r i => r (σ i))) (z' : List ℝ) (hz' : z'.length = els'.length) :
    ∃ z : List ℝ, z.length = els.length ∧ (∀ x : Fin d → ℝ, expansion (List.ofFn fun i => P (σ i)) (els'.map List.ofFn) z' (List.ofFn fun i => x (σ i)) =
      expansion (List.ofFn P) (els.map List.ofFn) z (List.ofFn x)) ∧ Corresponds σ els els' z z' := by
  have hnd' := relabel_nodup σ hnd hp
  obtain ⟨z, hz, hcor⟩ := exists_corr σ.symm (els' := els) hnd' z'
  refine ⟨z, hz, fun x => ?_, fun s s' h h' he => ?_⟩
  · have := expansion_relabel σ.symm (fun i => P (σ i)) (zip_relabel σ.symm hnd' (perm_symm σ hp) hz' hz hcor) fun i => x (σ i)
    simpa using this.symm
  · refine (hcor s' s h' h fun i => ?_).symm
    rw [he]
    simp

/-! ## Properties -/

/-- **C174.** Relabelling the inputs relabels the fit. Let the parameters be reordered, the index set reordered in the same way (its rows in any order),
and the sample points too. Then the least-squares fits to the same outputs agree at the sample points. If the sample determines the polynomial, the
coefficient of every multi-index is the one of the relabelled multi-index, and the two fits agree at all points. -/
theorem c174_fit {d : ℕ} (hd : 2 ≤ d) (σ : Equiv.Perm (Fin d)) (P : Fin d → MParam) (els els' : List (Fin d → ℕ)) (hnd : els.Nodup)
    (hp : els'.Perm (els.map fun r i => r (σ i))) (hz' : els'.head? = some fun _ => 0) (D : List ((Fin d → ℝ) × ℝ × ℝ)) (hD : ∀ t ∈ D, 0 < t.2.1)
    (c c' : List ℝ) (hc : LsqFit (expand P els) (D.map fun t => List.ofFn t.1) (D.map fun t => t.2.1) (D.map fun t => t.2.2) c)
    (hc' : LsqFit (expand (fun i => P (σ i)) els') (D.map fun t => List.ofFn fun i => t.1 (σ i)) (D.map fun t => t.2.1) (D.map fun t => t.2.2) c') :
    (∃ v, (expand P els).polyfit c (D.map fun t => List.ofFn t.1) = .ok v ∧
      (expand (fun i => P (σ i)) els').polyfit c' (D.map fun t => List.ofFn fun i => t.1 (σ i)) = .ok v) ∧
    (Determined (expand P els) (D.map fun t => List.ofFn t.1) → Corresponds σ els els' c c' ∧
      ∀ stack : List (Fin d → ℝ), ∃ v, (expand P els).polyfit c (stack.map List.ofFn) = .ok v ∧
        (expand (fun i => P (σ i)) els').polyfit c' (stack.map fun x => List.ofFn fun i => x (σ i)) = .ok v) := by
  have hne' : els' ≠ [] := by rintro rfl; simp at hz'
  have hne : els ≠ [] := by rintro rfl; exact hne' (List.length_eq_zero_iff.1 (by simpa using hp.length_eq))
  set B := expand P els with hBe
  set B' := expand (fun i => P (σ i)) els' with hBe'
  have hB : Regular B := expand_regular hd P hne
  have hB' : Regular B' := expand_regular hd _ hne'
  have dB : B.dims = d := by simp [hBe, expand, Expansion.dims]
  have dB' : B'.dims = d := by simp [hBe', expand, Expansion.dims]
  have lB : B.elements.length = els.length := by simp [hBe, expand]
  have lB' : B'.elements.length = els'.length := by simp [hBe', expand]
  have hs : Sample B.dims (D.map fun t => List.ofFn t.1) (D.map fun t => t.2.1) (D.map fun t => t.2.2) := by
    refine ⟨fun x hx => ?_, by simp, fun w hw => ?_, by simp⟩
    · obtain ⟨t, -, rfl⟩ := List.mem_map.1 hx; simp [dB]
    · obtain ⟨t, ht, rfl⟩ := List.mem_map.1 hw; exact hD t ht
  have hs' : Sample B'.dims (D.map fun t => List.ofFn fun i => t.1 (σ i)) (D.map fun t => t.2.1) (D.map fun t => t.2.2) := by
    refine ⟨fun x hx => ?_, by simp, fun w hw => ?_, by simp⟩
    · obtain ⟨t, -, rfl⟩ := List.mem_map.1 hx; simp [dB']
    · obtain ⟨t, ht, rfl⟩ := List.mem_map.1 hw; exact hD t ht
  obtain ⟨hl, hmin⟩ := (fitted_iff B hB hs c).1 hc
  rw [lB] at hl
  have hl' := ((fitted_iff B' hB' hs' c').1 hc').1
  rw [lB'] at hl'
  obtain ⟨c₀, hl₀, hcor⟩ := exists_corr σ (els' := els') hnd c
  have hexp := expansion_relabel σ P (zip_relabel σ hnd hp hl hl₀ hcor)
  have hmis : ∀ f f' : List ℝ → ℝ, (∀ x : Fin d → ℝ, f' (List.ofFn fun i => x (σ i)) = f (List.ofFn x)) →
      misfit (D.map fun t => List.ofFn fun i => t.1 (σ i)) (D.map fun t => t.2.1) (D.map fun t => t.2.2) f' =
        misfit (D.map fun t => List.ofFn t.1) (D.map fun t => t.2.1) (D.map fun t => t.2.2) f := by
    intro f f' h
    have e1 := misfit_list (D.map fun t => (List.ofFn fun i => t.1 (σ i), t.2.1, t.2.2)) f'
    have e2 := misfit_list (D.map fun t => (List.ofFn t.1, t.2.1, t.2.2)) f
    simp only [List.map_map, Function.comp_def] at e1 e2
    rw [e1, e2]
    simp only [h]
  have hc₀ : LsqFit B' (D.map fun t => List.ofFn fun i => t.1 (σ i)) (D.map fun t => t.2.1) (D.map fun t => t.2.2) c₀ := by
    refine (fitted_iff B' hB' hs' c₀).2 ⟨by rw [hl₀, lB'], fun w hw => ?_⟩
    rw [lB'] at hw
    obtain ⟨z, hz, he, -⟩ := exists_back σ P hnd hp w hw
    rw [eff_none B' rfl, eff_none B' rfl]
    have h := hmin z (by rw [hz, lB])
    rw [eff_none B rfl, eff_none B rfl] at h
    rw [hmis (expansion B.params B.elements c) (expansion B'.params B'.elements c₀) hexp,
      hmis (expansion B.params B.elements z) (expansion B'.params B'.elements w) he]
    exact h
  have hyy : List.zipWith (fun a b : ℝ => 1 * a + 0 * b + 0) (D.map fun t => t.2.2) (D.map fun t => t.2.2) = D.map fun t => t.2.2 := by
    rw [List.zipWith_self]
    simp
  have hhead : B'.elements.head? = some (List.replicate B'.dims 0) := by
    rw [dB', hBe']
    simp only [expand, List.head?_map, hz', Option.map_some]
    rw [List.ofFn_const]
  obtain ⟨⟨v₁, v₂, h₁, h₂, h₃⟩, hall⟩ := c169_linear B' hB' rfl hhead _ _ _ _ hs' hs' 1 0 0 c₀ c₀ c' hc₀ hc₀ (by rw [hyy]; exact hc')
  have hval : ∀ stack : List (Fin d → ℝ), ∃ v, B.polyfit c (stack.map List.ofFn) = .ok v ∧
      B'.polyfit c₀ (stack.map fun x => List.ofFn fun i => x (σ i)) = .ok v := by
    intro stack
    refine ⟨_, polyfit_eq B hB c (by rw [hl, lB]) _ fun x hx => ?_, ?_⟩
    · obtain ⟨x, -, rfl⟩ := List.mem_map.1 hx; simp [dB]
    · rw [polyfit_eq B' hB' c₀ (by rw [hl₀, lB']) _ fun x hx => ?_]
      · rw [eff_none B rfl, eff_none B' rfl, List.map_map, List.map_map]
        congr 1
        apply List.map_congr_left
        intro x _
        exact hexp x
      · obtain ⟨x, -, rfl⟩ := List.mem_map.1 hx; simp [dB']
  have hself : ∀ v : List ℝ, List.zipWith (fun a b : ℝ => 1 * a + 0 * b + 0) v v = v := by
    intro v
    rw [List.zipWith_self]
    simp
  constructor
  · obtain ⟨v, a, b⟩ := hval (D.map Prod.fst)
    rw [List.map_map] at a b
    refine ⟨v, a, ?_⟩
    change B'.polyfit c₀ (D.map fun t => List.ofFn fun i => t.1 (σ i)) = .ok v at b
    rw [b] at h₁ h₂
    obtain rfl := Except.ok.inj h₁
    obtain rfl := Except.ok.inj h₂
    rw [h₃, hself]
  · intro hdet
    have hdet' : Determined B' (D.map fun t => List.ofFn fun i => t.1 (σ i)) := by
      intro w hw h0
      rw [lB'] at hw
      obtain ⟨z, hz, he, hcw⟩ := exists_back σ P hnd hp w hw
      have := hdet z (by rw [hz, lB]) (by
        rw [polyfit_eq B hB z (by rw [hz, lB]) _ hs.size, eff_none B rfl]
        rw [polyfit_eq B' hB' w (by rw [hw, lB']) _ hs'.size, eff_none B' rfl] at h0
        have h0 := Except.ok.inj h0
        rw [List.map_map, List.map_map] at h0 ⊢
        congr 1
        apply List.map_congr_left
        intro t ht
        exact (he t.1).symm.trans (List.map_inj_left.1 h0 t ht))
      rw [lB] at this
      rw [lB']
      apply List.ext_getElem (by simpa using hw)
      intro s' h1 h2
      rw [List.getElem_replicate]
      have hs1 : s' < els'.length := by omega
      obtain ⟨r0, hr0, hr⟩ := List.mem_map.1 (hp.mem_iff.1 (List.getElem_mem hs1))
      obtain ⟨s, hs, rfl⟩ := List.getElem_of_mem hr0
      have := hcw s s' hs hs1 fun i => by rw [← hr]
      rw [getD_of_lt _ _ _ h1] at this
      rw [this, getD_of_lt _ _ _ (by omega)]
      simp [*]
    obtain ⟨hco, hst⟩ := hall hdet'
    have hcc : c' = c₀ := by
      apply List.ext_getElem (by omega)
      intro s h1 h2
      have := hco s h1
      rw [getD_of_lt _ _ _ h1, getD_of_lt _ _ _ h2] at this
      simpa using this
    subst hcc
    exact ⟨hcor, hval⟩

theorem sum_zip {α : Type} (els : List α) (c : List ℝ) (hc : c.length = els.length) (r0 : α) (g : α → ℝ → ℝ) :
    ((List.zip els c).map fun t => g t.1 t.2).sum = ∑ j ∈ Finset.range els.length, g (els.getD j r0) (c.getD j 0) := by
  rw [map_eq_range (List.zip els c) (r0, 0) (f := fun t => g t.1 t.2), range_map_sum, List.length_zip, hc, min_self]
  apply Finset.sum_congr rfl
  intro j hj
  have hj := Finset.mem_range.1 hj
  rw [getD_of_lt _ _ _ (by simp; omega), List.getElem_zip, getD_of_lt _ _ _ hj, getD_of_lt _ _ _ (by omega)]

theorem varSum_relabel {d : ℕ} (σ : Equiv.Perm (Fin d)) {els els' : List (Fin d → ℕ)} {c c' : List ℝ}
    (hz : (List.zip els' c').Perm ((List.zip els c).map fun t => (fun i => t.1 (σ i), t.2))) (hc : c.length = els.length) (hc' : c'.length = els'.length)
    (h0 : c'.headD 0 = c.headD 0) : varSum c' = varSum c := by
  have e : ∀ c : List ℝ, varSum c = (c.map (· ^ 2)).sum - c.headD 0 ^ 2 := by
    intro c
    unfold varSum
    cases c <;> simp
  have hp : c'.Perm c := by
    have := hz.map Prod.snd
    rwa [List.map_map, show (Prod.snd ∘ fun t : (Fin d → ℕ) × ℝ => ((fun i => t.1 (σ i)), t.2)) = Prod.snd from rfl,
      List.map_snd_zip (by omega), List.map_snd_zip (by omega)] at this
  rw [e, e, h0, (hp.map _).sum_eq]

theorem mem_nonzero_ofFn {d : ℕ} (r : Fin d → ℕ) (k : ℕ) : k ∈ nonzero (List.ofFn r) ↔ ∃ h : k < d, r ⟨k, h⟩ ≠ 0 := by
  unfold nonzero
  rw [List.mem_filter, List.mem_range, List.length_ofFn]
  constructor
  · rintro ⟨h, h1⟩
    refine ⟨h, ?_⟩
    rw [getD_of_lt _ _ _ (by simpa using h)] at h1
    simpa using h1
  · rintro ⟨h, h1⟩
    refine ⟨h, ?_⟩
    rw [getD_of_lt _ _ _ (by simpa using h)]
    simpa using h1

theorem nonzero_sublist_ofFn {d : ℕ} (r : Fin d → ℕ) : (nonzero (List.ofFn r)).Sublist (List.range d) := by
  unfold nonzero
  rw [List.length_ofFn]
  exact List.filter_sublist

theorem nonzero_relabel {d : ℕ} (σ : Equiv.Perm (Fin d)) (r : Fin d → ℕ) {S S' : List ℕ} (hS : S.Sublist (List.range d)) (hS' : S'.Sublist (List.range d))
    (h : ∀ i : Fin d, ↑i ∈ S' ↔ ↑(σ i) ∈ S) : nonzero (List.ofFn fun i => r (σ i)) = S' ↔ nonzero (List.ofFn r) = S := by
  constructor
  · rintro rfl
    refine sublist_range_ext (nonzero_sublist_ofFn _) hS fun k => ?_
    rw [mem_nonzero_ofFn]
    constructor
    · rintro ⟨hk, hr⟩
      have := (h (σ.symm ⟨k, hk⟩)).1 ((mem_nonzero_ofFn _ _).2 ⟨Fin.isLt _, by simpa using hr⟩)
      simpa using this
    · intro hk
      have hkd := List.mem_range.1 (hS.subset hk)
      refine ⟨hkd, ?_⟩
      obtain ⟨h1, h2⟩ := (mem_nonzero_ofFn _ _).1 ((h (σ.symm ⟨k, hkd⟩)).2 (by simpa using hk))
      simpa using h2
  · rintro rfl
    refine sublist_range_ext (nonzero_sublist_ofFn _) hS' fun k => ?_
    rw [mem_nonzero_ofFn]
    constructor
    · rintro ⟨hk, hr⟩
      exact (h ⟨k, hk⟩).2 ((mem_nonzero_ofFn _ _).2 ⟨Fin.isLt _, hr⟩)
    · intro hk
      have hkd := List.mem_range.1 (hS'.subset hk)
      refine ⟨hkd, ?_⟩
      obtain ⟨h1, h2⟩ := (mem_nonzero_ofFn _ _).1 ((h ⟨k, hkd⟩).1 hk)
      exact h2

theorem share_relabel {d : ℕ} (σ : Equiv.Perm (Fin d)) {els els' : List (Fin d → ℕ)} {c c' : List ℝ}
    (hz : (List.zip els' c').Perm ((List.zip els c).map fun t => (fun i => t.1 (σ i), t.2))) (v : ℝ) {S S' : List ℕ} (hS : S.Sublist (List.range d))
    (hS' : S'.Sublist (List.range d)) (h : ∀ i : Fin d, ↑i ∈ S' ↔ ↑(σ i) ∈ S) :
    share (els'.map List.ofFn) c' v S' = share (els.map List.ofFn) c v S := by
  unfold share
  rw [List.zip_map_left, List.zip_map_left, List.map_map, List.map_map, (hz.map _).sum_eq, List.map_map]
  congr 1
  apply List.map_congr_left
  intro t _
  simp only [Function.comp, Prod.map_fst, Prod.map_snd, id]
  rw [if_congr (nonzero_relabel σ t.1 hS hS' h) rfl rfl]

/-- The set of inputs that take the places of those in `S`. -/
theorem relabel_length {d : ℕ} (σ : Equiv.Perm (Fin d)) {S S' : List ℕ} (hS : S.Sublist (List.range d)) (hS' : S'.Sublist (List.range d))
    (h : ∀ i : Fin d, ↑i ∈ S' ↔ ↑(σ i) ∈ S) : S'.length = S.length := by
  have e : ∀ {S : List ℕ}, S.Sublist (List.range d) → S.length = (Finset.univ.filter fun i : Fin d => ↑i ∈ S).card := by
    intro S hS
    have hnd : S.Nodup := List.nodup_range.sublist hS
    rw [← List.toFinset_card_of_nodup hnd, ← Finset.card_map Fin.valEmbedding]
    congr 1
    ext k
    simp only [List.mem_toFinset, Finset.mem_map, Finset.mem_filter, Finset.mem_univ, true_and, Fin.valEmbedding_apply]
    constructor
    · intro hk
      exact ⟨⟨k, List.mem_range.1 (hS.subset hk)⟩, hk, rfl⟩
    · rintro ⟨i, hi, rfl⟩
      exact hi
  rw [e hS, e hS', ← Finset.card_map σ.toEmbedding]
  congr 1
  ext k
  simp only [Finset.mem_map, Finset.mem_filter, Finset.mem_univ, true_and, Equiv.coe_toEmbedding]
  constructor
  · rintro ⟨i, hi, rfl⟩
    exact (h i).1 hi
  · intro hk
    exact ⟨σ.symm k, (h _).2 (by simpa using hk), by simp⟩

/-- **C174.** Relabelling the inputs relabels the statistics: for coefficients that correspond to each other (as those of C174's fits do) the mean and the
variance are the same, the Sobol' index of a set of inputs is that of the set with the new labels, and so is the total index of every input. -/
theorem c174_statistics {d : ℕ} (hd : 2 ≤ d) (σ : Equiv.Perm (Fin d)) (els els' : List (Fin d → ℕ)) (hnd : els.Nodup) (h2 : 2 ≤ els.length)
    (hp : els'.Perm (els.map fun r i => r (σ i))) (hz : els.head? = some fun _ => 0) (hz' : els'.head? = some fun _ => 0) (c c' : List ℝ)
    (hc : c.length = els.length) (hc' : c'.length = els'.length) (hcor : Corresponds σ els els' c c') :
    mean c' = mean c ∧ variance c' = variance c ∧
    ∃ s s', allSobol c (els.map List.ofFn) d none = .ok s ∧ allSobol c' (els'.map List.ofFn) d none = .ok s' ∧
      (∀ o, 1 ≤ o → o ≤ d → ∃ L L', getSobol s o = .ok L ∧ getSobol s' o = .ok L' ∧ L'.length = L.length ∧
        ∀ S a, (S, a) ∈ L → ∀ S', S'.Sublist (List.range d) → (∀ i : Fin d, ↑i ∈ S' ↔ ↑(σ i) ∈ S) → (S', a) ∈ L') ∧
      ∀ v, variance c = .ok v → v ≠ 0 → ∃ T T', getSobolTotal s d = .ok T ∧ getSobolTotal s' d = .ok T' ∧
        ∀ i : Fin d, T'.getD i 0 = T.getD (σ i) 0 := by
  have hlen : els'.length = els.length := by simpa using hp.length_eq
  have hzip := zip_relabel σ hnd hp hc hc' hcor
  have h00 : c'.getD 0 0 = c.getD 0 0 := by
    refine hcor 0 0 (by omega) (by omega) fun i => ?_
    have e : ∀ {l : List (Fin d → ℕ)} (h : 0 < l.length), l.head? = some (fun _ => 0) → l[0] = fun _ => 0 := by
      intro l h hl
      cases l with
      | nil => simp at h
      | cons a l => simpa using hl
    rw [e (by omega) hz, e (by omega) hz']
  have hv := varSum_relabel σ hzip hc hc' (by cases c <;> cases c' <;> exact h00)
  obtain ⟨D, hD, hval⟩ := allSobol_ok c (els.map List.ofFn) d none hd (by omega)
  obtain ⟨D', hD', hval'⟩ := allSobol_ok c' (els'.map List.ofFn) d none hd (by omega)
  rw [show sobolOrder none d = d from rfl] at hD hval hD' hval'
  refine ⟨?_, by rw [variance_ok c (by omega), variance_ok c' (by omega), hv], _, _, hD, hD', fun o h1 ho => ?_, fun v hvv hv0 => ?_⟩
  · cases c with
    | nil => simp at hc; omega
    | cons a l =>
      cases c' with
      | nil => simp at hc'; omega
      | cons a' l' =>
        simp only [List.getD_cons_zero] at h00
        rw [h00]
        rfl
  · refine ⟨_, _, getSobol_combos d D o h1 ho, getSobol_combos d D' o h1 ho, by simp, fun S a hm S' hS' h => ?_⟩
    obtain ⟨S0, hS0, he⟩ := List.mem_map.1 hm
    obtain ⟨rfl, rfl⟩ := Prod.mk.inj he
    obtain ⟨hS, hSl⟩ := mem_combos.1 hS0
    have hl := relabel_length σ hS hS' h
    rw [List.mem_map]
    refine ⟨S', mem_combos.2 ⟨hS', by omega⟩, ?_⟩
    rw [hval S0 hS (by omega) (by omega), hval' S' hS' (by omega) (by omega), hv, share_relabel σ hzip _ hS hS' h]
  · have hrow : ∀ l : List (Fin d → ℕ), ∀ row ∈ l.map List.ofFn, row.length = d := by
      intro l row hr
      obtain ⟨r, -, rfl⟩ := List.mem_map.1 hr
      simp
    have hhd : ∀ {l : List (Fin d → ℕ)}, l.head? = some (fun _ => 0) → (l.map List.ofFn).head? = some (List.replicate d 0) := by
      intro l hl
      rw [List.head?_map, hl, Option.map_some, List.ofFn_const]
    have hv' : variance c' = .ok v := by rw [variance_ok c' (by omega), hv, ← variance_ok c (by omega), hvv]
    obtain ⟨s, T, hs, hT, -, L, -, hi⟩ := c38_total c (els.map List.ofFn) d hd (by omega) (by simpa using hc) (hrow els) (hhd hz) v hvv hv0
    obtain ⟨s', T', hs', hT', -, L', -, hi'⟩ := c38_total c' (els'.map List.ofFn) d hd (by omega) (by simpa using hc') (hrow els') (hhd hz') v hv' hv0
    rw [hD] at hs
    rw [hD'] at hs'
    obtain rfl := Except.ok.inj hs
    obtain rfl := Except.ok.inj hs'
    refine ⟨T, T', hT, hT', fun i => ?_⟩
    rw [(hi' i i.isLt).2.1, (hi (σ i) (σ i).isLt).2.1]
    have e : ∀ (l : List (Fin d → ℕ)) (c : List ℝ) (k : Fin d), c.length = l.length →
        ∑ j ∈ Finset.range (l.map List.ofFn).length, (if ((l.map List.ofFn).getD j []).getD (k : ℕ) 0 ≠ 0 then c.getD j 0 ^ 2 / v else 0) =
          ((List.zip l c).map fun t => if t.1 k ≠ 0 then t.2 ^ 2 / v else 0).sum := by
      intro l c k hl
      rw [sum_zip l c hl (fun _ => 0) fun r a => if r k ≠ 0 then a ^ 2 / v else 0, List.length_map]
      apply Finset.sum_congr rfl
      intro j hj
      have hj := Finset.mem_range.1 hj
      rw [getD_of_lt (l.map List.ofFn) [] j (by simpa using hj), List.getElem_map, getD_of_lt (List.ofFn _) _ _ (by simp), List.getElem_ofFn, getD_of_lt l _ _ hj]
    rw [e els' c' i hc', e els c (σ i) hc, (hzip.map _).sum_eq, List.map_map]
    rfl

/-- Two inputs exchanged, with the total-order set of order one, meet the hypotheses of C174. -/
example : ∃ (σ : Equiv.Perm (Fin 2)) (els els' : List (Fin 2 → ℕ)) (c c' : List ℝ), σ ≠ 1 ∧ els.Nodup ∧ 2 ≤ els.length ∧
    els'.Perm (els.map fun r i => r (σ i)) ∧ els.head? = some (fun _ => 0) ∧ els'.head? = some (fun _ => 0) ∧ c.length = els.length ∧
    c'.length = els'.length ∧ Corresponds σ els els' c c' := by
  refine ⟨Equiv.swap 0 1, [fun _ => 0, ![0, 1], ![1, 0]], [fun _ => 0, ![0, 1], ![1, 0]], [3, 1, 2], _, ?_, ?_, by simp, ?_, rfl, rfl, rfl,
    (exists_corr _ ?_ _).choose_spec⟩
  · intro h
    simpa using congrArg (fun e : Equiv.Perm (Fin 2) => e 0) h
  · decide
  · decide
  · decide

end EQ.Stats
