import Verif.Stats.Spec
import Verif.Stats.Lemmas
import Verif.Poly.FitProps

/-!
# Lemmas: expectations of products
-/

namespace EQ.Stats
open EQ.Basis EQ.Param EQ.Poly EQ.Sampling EQ.Sampling.Spec EQ.Poly.Spec EQ.Stats.Spec
open scoped Polynomial

theorem prodE_congr (Es : List ((ℝ → ℝ) → ℝ)) (f g : List ℝ → ℝ)
    (h : ∀ x, x.length = Es.length → f x = g x) : prodE Es f = prodE Es g := by
  induction Es generalizing f g with
  | nil => exact h [] rfl
  | cons E Es ih =>
    unfold prodE
    congr 1
    funext x
    exact ih _ _ fun xs hxs => h (x :: xs) (by simp [hxs])

/-- Expectation of a sum of products of univariate polynomials. -/
theorem prodE_sum {ι : Type} (s : Finset ι) (Es : List ((ℝ → ℝ) → ℝ)) (Ls : List (ℝ[X] →ₗ[ℝ] ℝ))
    (h : List.Forall₂ (fun E L => ∀ p : ℝ[X], E (fun x => p.eval x) = L p) Es Ls)
    (a : ι → ℝ) (ps : ι → List ℝ[X]) (hlen : ∀ i, (ps i).length = Es.length) :
    prodE Es (fun x => ∑ i ∈ s, a i * (List.zipWith (fun p t => p.eval t) (ps i) x).prod) =
      ∑ i ∈ s, a i * (List.zipWith (fun (L : ℝ[X] →ₗ[ℝ] ℝ) p => L p) Ls (ps i)).prod := by
  induction h generalizing a ps with
  | nil =>
    have : ∀ i, ps i = [] := fun i => List.length_eq_zero_iff.1 (hlen i)
    simp [prodE, this]
  | @cons E L Es Ls hE h ih =>
    have hps : ∀ i, ∃ p q, ps i = p :: q ∧ q.length = Es.length := by
      intro i
      have := hlen i
      cases hp : ps i with
      | nil => rw [hp] at this; simp at this
      | cons p q => rw [hp] at this; exact ⟨p, q, rfl, by simpa using this⟩
    choose hd tl hpq htl using hps
    unfold prodE
    have e1 : ∀ x, prodE Es (fun xs => ∑ i ∈ s,
        a i * (List.zipWith (fun p t => p.eval t) (ps i) (x :: xs)).prod) =
        (∑ i ∈ s, Polynomial.C (a i * (List.zipWith (fun (L : ℝ[X] →ₗ[ℝ] ℝ) p => L p) Ls
          (tl i)).prod) * hd i).eval x := by
      intro x
      rw [Polynomial.eval_finsetSum]
      have := ih (fun i => a i * (hd i).eval x) tl htl
      simp only [hpq, List.zipWith_cons_cons, List.prod_cons, ← mul_assoc]
      rw [this]
      apply Finset.sum_congr rfl
      intro i _
      simp only [Polynomial.eval_mul, Polynomial.eval_C]
      ring
    simp only [e1]
    rw [hE, map_sum]
    apply Finset.sum_congr rfl
    intro i _
    rw [Polynomial.C_mul', map_smul, hpq, List.zipWith_cons_cons, List.prod_cons, smul_eq_mul]
    ring

/-- The univariate polynomials of a multi-index. -/
noncomputable def polys (params : List MParam) (row : List ℕ) : List ℝ[X] :=
  List.zipWith (fun P n => opoly P.ab n) params row

theorem basisFun_polys (params : List MParam) (row : List ℕ) (x : List ℝ)
    (hr : row.length = params.length) (hx : x.length = params.length) :
    basisFun params row x = (List.zipWith (fun p t => p.eval t) (polys params row) x).prod := by
  rw [basisFun_eq_prod params row x hr hx]
  congr 1
  apply List.ext_getElem
  · simp [polys]
  · intro i h1 h2
    simp [polys, univ_eq]

theorem zipWith_eval_mul : ∀ (ps qs : List ℝ[X]) (x : List ℝ), ps.length = x.length →
    qs.length = x.length →
    (List.zipWith (fun p t => p.eval t) (List.zipWith (· * ·) ps qs) x).prod =
      (List.zipWith (fun p t => p.eval t) ps x).prod *
      (List.zipWith (fun p t => p.eval t) qs x).prod := by
  intro ps
  induction ps with
  | nil => intro qs x h1 h2; rw [List.length_eq_zero_iff.1 h1.symm]; simp
  | cons p ps ih =>
    intro qs x h1 h2
    cases x with
    | nil => simp at h1
    | cons t x =>
      cases qs with
      | nil => simp at h2
      | cons q qs =>
        simp only [List.zipWith_cons_cons, List.prod_cons, Polynomial.eval_mul]
        rw [ih qs x (by simpa using h1) (by simpa using h2)]
        ring

theorem law_functionals (params : List MParam) (Es : List ((ℝ → ℝ) → ℝ))
    (h : List.Forall₂ Law params Es) :
    ∃ Ls : List (ℝ[X] →ₗ[ℝ] ℝ),
      List.Forall₂ (fun E L => ∀ p : ℝ[X], E (fun x => p.eval x) = L p) Es Ls ∧
      List.Forall₂ (fun (P : MParam) (L : ℝ[X] →ₗ[ℝ] ℝ) =>
        ∀ i j, L (opoly P.ab i * opoly P.ab j) = if i = j then 1 else 0) params Ls := by
  induction h with
  | nil => exact ⟨[], .nil, .nil⟩
  | @cons P E Ps Es hPE h ih =>
    obtain ⟨Ls, h1, h2⟩ := ih
    obtain ⟨L, hL⟩ := hPE.linear
    refine ⟨L :: Ls, .cons hL h1, .cons (fun i j => ?_) h2⟩
    rw [← hL, ← hPE.orth i j]
    congr 1
    funext x
    rw [univ_eq, univ_eq, Polynomial.eval_mul]

theorem functional_orth (params : List MParam) (Ls : List (ℝ[X] →ₗ[ℝ] ℝ))
    (h : List.Forall₂ (fun (P : MParam) (L : ℝ[X] →ₗ[ℝ] ℝ) =>
        ∀ i j, L (opoly P.ab i * opoly P.ab j) = if i = j then 1 else 0) params Ls) :
    ∀ r s : List ℕ, r.length = params.length → s.length = params.length →
    (List.zipWith (fun (L : ℝ[X] →ₗ[ℝ] ℝ) p => L p) Ls
      (List.zipWith (· * ·) (polys params r) (polys params s))).prod = if r = s then 1 else 0 := by
  induction h with
  | nil =>
    intro r s hr hs
    rw [List.length_eq_zero_iff.1 hr, List.length_eq_zero_iff.1 hs]
    simp [polys]
  | @cons P L Ps Ls hPL h ih =>
    intro r s hr hs
    cases r with
    | nil => simp at hr
    | cons n r =>
      cases s with
      | nil => simp at hs
      | cons m s =>
        have := ih r s (by simpa using hr) (by simpa using hs)
        simp only [polys, List.zipWith_cons_cons, List.prod_cons] at this ⊢
        rw [this, hPL]
        by_cases h1 : n = m <;> by_cases h2 : r = s <;> simp [h1, h2]

theorem forall₂_law_length {params : List MParam} {Es : List ((ℝ → ℝ) → ℝ)}
    (h : List.Forall₂ Law params Es) : Es.length = params.length := h.length_eq.symm

/-- Expectation of a product of two expansions over the same index set. -/
theorem prodE_gram (params : List MParam) (Es : List ((ℝ → ℝ) → ℝ))
    (hlaw : List.Forall₂ Law params Es) (n m : ℕ) (r s : ℕ → List ℕ)
    (hr : ∀ i, (r i).length = params.length) (hs : ∀ i, (s i).length = params.length)
    (g h : ℕ → ℝ) :
    prodE Es (fun x => (∑ i ∈ Finset.range n, g i * basisFun params (r i) x) *
      ∑ i ∈ Finset.range m, h i * basisFun params (s i) x) =
      ∑ i ∈ Finset.range n, ∑ j ∈ Finset.range m, g i * h j * if r i = s j then 1 else 0 := by
  obtain ⟨Ls, h1, h2⟩ := law_functionals params Es hlaw
  have hl := forall₂_law_length hlaw
  have := prodE_sum (Finset.range n ×ˢ Finset.range m) Es Ls h1 (fun ij => g ij.1 * h ij.2)
    (fun ij => List.zipWith (· * ·) (polys params (r ij.1)) (polys params (s ij.2)))
    (by intro ij; simp [polys, hr, hs, hl])
  rw [Finset.sum_product] at this
  simp only [functional_orth params Ls h2 _ _ (hr _) (hs _)] at this
  rw [← this]
  apply prodE_congr
  intro x hx
  rw [Finset.sum_mul_sum, Finset.sum_product]
  apply Finset.sum_congr rfl
  intro i _
  apply Finset.sum_congr rfl
  intro j _
  rw [zipWith_eval_mul _ _ _ (by simp [polys, hr, hx, hl]) (by simp [polys, hs, hx, hl]),
    ← basisFun_polys params _ x (hr i) (by omega), ← basisFun_polys params _ x (hs j) (by omega)]
  ring

theorem basisFun_zero (params : List MParam) (x : List ℝ) (hx : x.length = params.length) :
    basisFun params (List.replicate params.length 0) x = 1 := by
  rw [basisFun_polys params _ x (by simp) hx]
  apply List.prod_eq_one
  intro y hy
  rw [List.mem_iff_getElem] at hy
  obtain ⟨i, hi, rfl⟩ := hy
  simp [polys, opoly]

/-- Mean of an expansion: the coefficient of the zero multi-index. -/
theorem prodE_lin (params : List MParam) (Es : List ((ℝ → ℝ) → ℝ))
    (hlaw : List.Forall₂ Law params Es) (n : ℕ) (r : ℕ → List ℕ)
    (hr : ∀ i, (r i).length = params.length) (g : ℕ → ℝ) :
    prodE Es (fun x => ∑ i ∈ Finset.range n, g i * basisFun params (r i) x) =
      ∑ i ∈ Finset.range n, g i * if r i = List.replicate params.length 0 then 1 else 0 := by
  have := prodE_gram params Es hlaw n 1 r (fun _ => List.replicate params.length 0) hr
    (fun _ => by simp) g (fun _ => 1)
  simp only [Finset.sum_range_one, mul_one, one_mul] at this
  rw [← this]
  apply prodE_congr
  intro x hx
  rw [basisFun_zero params x (by rw [hx, forall₂_law_length hlaw]), mul_one]

end EQ.Stats
