import Verif.Props.Count
import Verif.Props.Points

/-!
# Property C221: the shape of a `Lex` basis

If the last coordinates of the solutions are as many as the monomials divisible by no leading monomial,
the `Lex` basis gives the last coordinate by one equation and the others as polynomials in it.
-/

namespace Verif
open Res MvPolynomial LawfulRField

namespace Shape
variable {K : Type} [Field K] {n : ℕ}

/-- A polynomial in the last variable. -/
noncomputable def inLast (n : ℕ) (p : Polynomial K) : MvPolynomial (Fin (n + 1)) K :=
  Polynomial.aeval (X (Fin.last n)) p

theorem coeff_inLast (p : Polynomial K) (e : Fin (n + 1) →₀ ℕ) :
    coeff e (inLast n p) = if e = Finsupp.single (Fin.last n) (e (Fin.last n)) then p.coeff (e (Fin.last n)) else 0 := by
  classical
  unfold inLast
  rw [Polynomial.aeval_eq_sum_range, coeff_sum]
  simp only [coeff_smul, X_pow_eq_monomial, coeff_monomial, smul_eq_mul, mul_ite, mul_one, mul_zero]
  split_ifs with h
  · rw [Finset.sum_eq_single (e (Fin.last n))]
    · rw [if_pos h.symm]
    · intro j _ hj
      rw [if_neg]
      intro hc
      exact hj (by rw [← hc, Finsupp.single_eq_same])
    · intro hj
      rw [Finset.mem_range, not_lt] at hj
      rw [if_pos h.symm, Polynomial.coeff_eq_zero_of_natDegree_lt (by omega)]
  · refine Finset.sum_eq_zero fun j _ => ?_
    rw [if_neg]
    rintro rfl
    exact h (by rw [Finsupp.single_eq_same])

theorem mem_support_inLast {p : Polynomial K} {e : Fin (n + 1) →₀ ℕ} (h : e ∈ (inLast n p).support) :
    ∃ j, e = Finsupp.single (Fin.last n) j ∧ p.coeff j ≠ 0 := by
  rw [mem_support_iff, coeff_inLast] at h
  split_ifs at h with he
  · exact ⟨_, he, h⟩
  · exact absurd rfl h

/-- A polynomial with powers of the last variable only. -/
theorem exists_inLast {D : ℕ} (r : MvPolynomial (Fin (n + 1)) K)
    (h : ∀ e ∈ r.support, ∃ j < D, e = Finsupp.single (Fin.last n) j) :
    ∃ p : Polynomial K, p.degree < D ∧ inLast n p = r := by
  classical
  refine ⟨∑ j ∈ Finset.range D, Polynomial.monomial j (coeff (Finsupp.single (Fin.last n) j) r), ?_, ?_⟩
  · refine (Polynomial.degree_sum_le _ _).trans_lt ?_
    rw [Finset.sup_lt_iff (by exact_mod_cast WithBot.bot_lt_coe D)]
    intro j hj
    exact (Polynomial.degree_monomial_le _ _).trans_lt (by exact_mod_cast Finset.mem_range.mp hj)
  · ext e
    rw [coeff_inLast]
    simp only [Polynomial.finsetSum_coeff, Polynomial.coeff_monomial, Finset.sum_ite_eq', Finset.mem_range]
    by_cases he : e ∈ r.support
    · obtain ⟨j, hj, rfl⟩ := h e he
      simp [hj]
    · have h0 : coeff e r = 0 := by rwa [mem_support_iff, not_not] at he
      rw [h0]
      split_ifs with h1 h2
      · rw [← h1, h0]
      · rfl
      · rfl

theorem aeval_inLast {A : Type} [CommRing A] [Algebra K A] (a : Fin (n + 1) → A) (p : Polynomial K) :
    aeval a (inLast n p) = Polynomial.aeval (a (Fin.last n)) p := by
  unfold inLast
  rw [← Polynomial.aeval_algHom_apply, aeval_X]

end Shape

open Shape

section
variable {F : Type} [RField F] {K : Type} [Field K] [LawfulRField F K] {n : ℕ}

/-- The last coordinates of the solutions. -/
def lastCoordinates (K : Type) [Field K] [LawfulRField F K] (n : ℕ) (gens : List (Poly F)) :
    Set (AlgebraicClosure K) :=
  {t | ∃ a ∈ zeros K (n + 1) gens, a (Fin.last n) = t}

/-- The elements of `G` are, up to constant factors, `f(x_n)` and the `x_i - q_i(x_n)`; `f` has degree `D` and
the `q_i` have smaller degrees. -/
def InShape (n D : ℕ) (G : List (Poly F)) (f : Polynomial K) (q : Fin n → Polynomial K) : Prop :=
  f.Monic ∧ f.natDegree = D ∧ (∀ i, (q i).degree < D) ∧ G.length = n + 1 ∧
  (∀ g ∈ G, ∃ c : K, c ≠ 0 ∧ (Poly.den (Fin (n + 1)) g = c • Polynomial.aeval (X (Fin.last n)) f ∨
    ∃ i : Fin n, Poly.den (Fin (n + 1)) g =
      c • (X i.castSucc - Polynomial.aeval (X (Fin.last n)) (q i) : MvPolynomial (Fin (n + 1)) K))) ∧
  (∃ g ∈ G, ∃ c : K, c ≠ 0 ∧ Poly.den (Fin (n + 1)) g = c • Polynomial.aeval (X (Fin.last n)) f) ∧
  ∀ i : Fin n, ∃ g ∈ G, ∃ c : K, c ≠ 0 ∧ Poly.den (Fin (n + 1)) g =
    c • (X i.castSucc - Polynomial.aeval (X (Fin.last n)) (q i) : MvPolynomial (Fin (n + 1)) K)


theorem standard_powers {G : List (Poly F)} {I : Ideal (MvPolynomial (Fin (n + 1)) K)}
    (hok : GenOk (Fin (n + 1)) G) (hGr : IsGroebner (OrdKind.lex.mathlib (n + 1)) I (dens (Fin (n + 1)) G))
    {T : Set (AlgebraicClosure K)} (hT : ∀ p : Polynomial K, inLast n p ∈ I → ∀ t ∈ T, Polynomial.aeval t p = 0)
    (h0 : 0 < T.ncard) (hcard : T.ncard = (Standard (OrdKind.lex.mathlib (n + 1)) G).ncard) :
    Standard (OrdKind.lex.mathlib (n + 1)) G = {e | ∃ j < T.ncard, e = Finsupp.single (Fin.last n) j} := by
  classical
  have hfin : (Standard (OrdKind.lex.mathlib (n + 1)) G).Finite := Set.finite_of_ncard_pos (hcard ▸ h0)
  have hTfin : T.Finite := Set.finite_of_ncard_pos h0
  have hinj : Function.Injective fun j : ℕ => (Finsupp.single (Fin.last n) j : Fin (n + 1) →₀ ℕ) :=
    Finsupp.single_injective _
  have hset : {e : Fin (n + 1) →₀ ℕ | ∃ j < T.ncard, e = Finsupp.single (Fin.last n) j} =
      ((Finset.range T.ncard).image fun j => (Finsupp.single (Fin.last n) j : Fin (n + 1) →₀ ℕ)) := by
    ext e
    simp [eq_comm]
  symm
  refine Set.eq_of_subset_of_ncard_le ?_ ?_ hfin
  · rintro _ ⟨j, hj, rfl⟩ g hg hle
    have hg0 := hok.den_ne (K := K) hg
    -- the leading monomial is a power of the last variable, so the element is a polynomial in it
    have hsup : ∀ e ∈ (Poly.den (Fin (n + 1)) g : MvPolynomial (Fin (n + 1)) K).support,
        ∃ i < j + 1, e = Finsupp.single (Fin.last n) i := by
      intro e he
      have h1 : (OrdKind.lex.mathlib (n + 1)).toSyn e ≤ (OrdKind.lex.mathlib (n + 1)).toSyn (Finsupp.single (Fin.last n) j) :=
        ((OrdKind.lex.mathlib (n + 1)).le_degree he).trans ((OrdKind.lex.mathlib (n + 1)).toSyn_monotone hle)
      have h2 := lex_eliminates (n := n + 1) n e _ h1 (fun i hi => by
        by_contra hlt
        refine hi (Finsupp.single_eq_of_ne ?_)
        rintro rfl
        exact hlt (le_refl n))
      have h3 : e = Finsupp.single (Fin.last n) (e (Fin.last n)) := by
        ext i
        by_cases hi : i = Fin.last n
        · subst hi; rw [Finsupp.single_eq_same]
        · rw [Finsupp.single_eq_of_ne hi]
          by_contra hc
          have := h2 i hc
          exact hi (Fin.ext (by have h4 : n ≤ i.val := this; have := i.2; rw [Fin.val_last]; omega))
      refine ⟨e (Fin.last n), ?_, h3⟩
      by_contra hlt
      have hle' : Finsupp.single (Fin.last n) j ≤ e := by
        rw [h3, Finsupp.single_le_single]
        omega
      have := le_antisymm h1 ((OrdKind.lex.mathlib (n + 1)).toSyn_monotone hle')
      have := (OrdKind.lex.mathlib (n + 1)).toSyn.injective this
      rw [this, Finsupp.single_eq_same] at hlt
      omega
    obtain ⟨p, hp, hpg⟩ := exists_inLast _ hsup
    have hp0 : p ≠ 0 := by
      rintro rfl
      rw [inLast, map_zero] at hpg
      exact hg0 hpg.symm
    have hroots := hT p (by rw [hpg]; exact hGr.1 (mem_dens hg))
    have hle2 : T.ncard ≤ (p.map (algebraMap K (AlgebraicClosure K))).natDegree := by
      have hm0 : p.map (algebraMap K (AlgebraicClosure K)) ≠ 0 := by
        rwa [Ne, Polynomial.map_eq_zero]
      have hsub : hTfin.toFinset.val ≤ (p.map (algebraMap K (AlgebraicClosure K))).roots := by
        rw [Multiset.le_iff_subset hTfin.toFinset.nodup]
        intro t ht
        rw [Polynomial.mem_roots hm0, Polynomial.IsRoot, Polynomial.eval_map_algebraMap]
        exact hroots t (hTfin.mem_toFinset.mp ht)
      have := (Multiset.card_le_card hsub).trans (Polynomial.card_roots' _)
      rwa [Set.ncard_eq_toFinset_card T hTfin]
    rw [Polynomial.natDegree_map] at hle2
    have h6 : p.natDegree < j + 1 := (Polynomial.natDegree_lt_iff_degree_lt hp0).mpr hp
    omega
  · rw [← hcard, hset, Set.ncard_coe_finset, Finset.card_image_of_injective _ hinj, Finset.card_range]

/-- The polynomials `f(x_n)` and `x_i - q_i(x_n)`. -/
def shapeSet (f : Polynomial K) (q : Fin n → Polynomial K) : Set (MvPolynomial (Fin (n + 1)) K) :=
  insert (inLast n f) (Set.range fun i : Fin n => X i.castSucc - inLast n (q i))

theorem degree_inLast {f : Polynomial K} (hf : f.Monic) :
    (OrdKind.lex.mathlib (n + 1)).degree (inLast n f) = Finsupp.single (Fin.last n) f.natDegree := by
  classical
  have hmem : Finsupp.single (Fin.last n) f.natDegree ∈ (inLast n f).support := by
    rw [mem_support_iff, coeff_inLast, Finsupp.single_eq_same, if_pos rfl]
    change f.leadingCoeff ≠ 0
    rw [hf.leadingCoeff]
    exact one_ne_zero
  refine (OrdKind.lex.mathlib (n + 1)).toSyn.injective (le_antisymm ?_
    ((OrdKind.lex.mathlib (n + 1)).le_degree hmem))
  rw [MonomialOrder.degree_le_iff]
  intro e he
  obtain ⟨j, rfl, hj⟩ := mem_support_inLast he
  refine (OrdKind.lex.mathlib (n + 1)).toSyn_monotone ?_
  rw [Finsupp.single_le_single]
  exact Polynomial.le_natDegree_of_ne_zero hj

theorem mem_support_shape {q : Polynomial K} {i : Fin n} {e : Fin (n + 1) →₀ ℕ}
    (h : e ∈ (X i.castSucc - inLast n q : MvPolynomial (Fin (n + 1)) K).support) :
    e = Finsupp.single i.castSucc 1 ∨ ∃ j, e = Finsupp.single (Fin.last n) j ∧ q.coeff j ≠ 0 := by
  classical
  rcases Finset.mem_union.mp (support_sub _ _ _ h) with h | h
  · left
    rw [support_X] at h
    exact Finset.mem_singleton.mp h
  · exact .inr (mem_support_inLast h)

theorem single_castSucc_ne (i : Fin n) (j : ℕ) :
    (Finsupp.single i.castSucc 1 : Fin (n + 1) →₀ ℕ) ≠ Finsupp.single (Fin.last n) j := by
  intro h
  have := DFunLike.congr_fun h i.castSucc
  rw [Finsupp.single_eq_same, Finsupp.single_eq_of_ne (Fin.castSucc_lt_last i).ne] at this
  exact one_ne_zero this

theorem degree_shape (q : Polynomial K) (i : Fin n) :
    (OrdKind.lex.mathlib (n + 1)).degree (X i.castSucc - inLast n q : MvPolynomial (Fin (n + 1)) K) =
      Finsupp.single i.castSucc 1 := by
  classical
  have hmem : Finsupp.single i.castSucc 1 ∈
      (X i.castSucc - inLast n q : MvPolynomial (Fin (n + 1)) K).support := by
    rw [mem_support_iff, coeff_sub, coeff_X, coeff_inLast, if_pos rfl, if_neg (single_castSucc_ne i _), sub_zero]
    exact one_ne_zero
  refine (OrdKind.lex.mathlib (n + 1)).toSyn.injective (le_antisymm ?_
    ((OrdKind.lex.mathlib (n + 1)).le_degree hmem))
  rw [MonomialOrder.degree_le_iff]
  intro e he
  rcases mem_support_shape he with rfl | ⟨j, rfl, -⟩
  · exact le_refl _
  · by_contra hlt
    have := lex_eliminates (n := n + 1) n _ _ (not_le.mp hlt).le (fun k hk => by
      by_contra hlt
      refine hk (Finsupp.single_eq_of_ne ?_)
      rintro rfl
      exact hlt (le_refl n)) i.castSucc (by rw [Finsupp.single_eq_same]; exact one_ne_zero)
    have h4 : n ≤ i.val := this
    have := i.2
    omega

/-- The main step. -/
theorem shape {G : List (Poly F)} {I : Ideal (MvPolynomial (Fin (n + 1)) K)}
    (hok : GenOk (Fin (n + 1)) G) (hGr : IsGroebner (OrdKind.lex.mathlib (n + 1)) I (dens (Fin (n + 1)) G))
    (hinc : LeadsIncomparable (K := K) (OrdKind.lex.mathlib (n + 1)) G)
    (hred : IsInterReduced (OrdKind.lex.mathlib (n + 1)) (dens (Fin (n + 1)) G : Set (MvPolynomial (Fin (n + 1)) K)))
    {D : ℕ} (h0 : 0 < D)
    (hst : Standard (K := K) (OrdKind.lex.mathlib (n + 1)) G = {e | ∃ j < D, e = Finsupp.single (Fin.last n) j}) :
    ∃ f q, InShape n D G f q ∧ I = Ideal.span (shapeSet f q) := by
  classical
  have hred' : ∀ p : MvPolynomial (Fin (n + 1)) K, ∃ r : Polynomial K, r.degree < D ∧ p - inLast n r ∈ I := by
    intro p
    obtain ⟨r, hr, hrs⟩ := exists_standard hok hGr p
    rw [hst] at hrs
    obtain ⟨r', hd, rfl⟩ := exists_inLast r hrs
    exact ⟨r', hd, hr⟩
  obtain ⟨u, hud, huI⟩ := hred' (inLast n (Polynomial.X ^ D))
  choose q hqd hqI using fun i : Fin n => hred' (X i.castSucc)
  set f : Polynomial K := Polynomial.X ^ D - u with hf
  have hfm : f.Monic := Polynomial.monic_X_pow_sub hud
  have hfD : f.natDegree = D := by
    rw [hf, Polynomial.natDegree_sub_eq_left_of_natDegree_lt, Polynomial.natDegree_X_pow]
    rw [Polynomial.natDegree_X_pow]
    by_cases hu0 : u = 0
    · rw [hu0, Polynomial.natDegree_zero]; exact h0
    · exact (Polynomial.natDegree_lt_iff_degree_lt hu0).mpr hud
  have hdf : (OrdKind.lex.mathlib (n + 1)).degree (inLast n f) = Finsupp.single (Fin.last n) D := by
    rw [degree_inLast hfm, hfD]
  have hf0 : inLast n f ≠ 0 := by
    intro h
    have := congrArg (coeff (Finsupp.single (Fin.last n) D)) h
    rw [coeff_inLast, Finsupp.single_eq_same, if_pos rfl, coeff_zero, ← hfD] at this
    exact one_ne_zero (hfm.leadingCoeff.symm.trans this)
  have hq0 : ∀ i, (X i.castSucc - inLast n (q i) : MvPolynomial (Fin (n + 1)) K) ≠ 0 := by
    intro i h
    have := degree_shape (q i) i
    rw [h, MonomialOrder.degree_zero] at this
    exact one_ne_zero (Finsupp.single_eq_zero.mp this.symm)
  have hlast : ∀ (i : Fin n) (j d : ℕ), ¬ (Finsupp.single i.castSucc 1 : Fin (n + 1) →₀ ℕ) ≤
      Finsupp.single (Fin.last n) j := by
    intro i j _ h
    have := h i.castSucc
    rw [Finsupp.single_eq_same, Finsupp.single_eq_of_ne (Fin.castSucc_lt_last i).ne] at this
    omega
  have hH : IsGroebner (OrdKind.lex.mathlib (n + 1)) I (shapeSet f q) := by
    constructor
    · rintro _ (rfl | ⟨i, rfl⟩)
      · rw [SetLike.mem_coe, hf, inLast, map_sub]
        exact huI
      · exact hqI i
    · intro p hp hp0
      obtain ⟨_, ⟨g, hg, rfl⟩, hg0, hle⟩ := hGr.2 p hp hp0
      have hns : (OrdKind.lex.mathlib (n + 1)).degree p ∉ Standard (K := K) (OrdKind.lex.mathlib (n + 1)) G :=
        fun h => h g hg hle
      by_cases hi : ∃ i : Fin n, (OrdKind.lex.mathlib (n + 1)).degree p i.castSucc ≠ 0
      · obtain ⟨i, hi⟩ := hi
        refine ⟨_, .inr ⟨i, rfl⟩, hq0 i, ?_⟩
        beta_reduce
        rw [degree_shape, Finsupp.single_le_iff]
        omega
      · push Not at hi
        refine ⟨_, .inl rfl, hf0, ?_⟩
        rw [hdf, Finsupp.single_le_iff]
        by_contra hlt
        refine hns ?_
        rw [hst]
        refine ⟨_, not_le.mp hlt, ?_⟩
        ext i
        induction i using Fin.lastCases with
        | last => rw [Finsupp.single_eq_same]
        | cast i => rw [hi i, Finsupp.single_eq_of_ne (Fin.castSucc_lt_last i).ne]
  have hHr : IsInterReduced (OrdKind.lex.mathlib (n + 1)) (shapeSet f q) := by
    rintro _ (rfl | ⟨i, rfl⟩) _ (rfl | ⟨k, rfl⟩) hne e he hle
    · exact hne rfl
    · beta_reduce at hle
      obtain ⟨j, rfl, -⟩ := mem_support_inLast he
      rw [degree_shape] at hle
      exact hlast k j 0 hle
    · rw [hdf] at hle
      rcases mem_support_shape he with rfl | ⟨j, rfl, hj⟩
      · have := hle (Fin.last n)
        rw [Finsupp.single_eq_same, Finsupp.single_eq_of_ne (Fin.castSucc_lt_last i).ne'] at this
        omega
      · rw [Finsupp.single_le_single] at hle
        refine hj (Polynomial.coeff_eq_zero_of_degree_lt ((hqd i).trans_le ?_))
        exact_mod_cast hle
    · beta_reduce at hle
      rw [degree_shape] at hle
      rcases mem_support_shape he with rfl | ⟨j, rfl, hj⟩
      · have hki : k ≠ i := by rintro rfl; exact hne rfl
        have := hle k.castSucc
        rw [Finsupp.single_eq_same, Finsupp.single_eq_of_ne (by simpa using hki)] at this
        omega
      · exact hlast k j 0 hle
  have hH0 : (0 : MvPolynomial (Fin (n + 1)) K) ∉ shapeSet f q := by
    rintro (h | ⟨i, h⟩)
    · exact hf0 h.symm
    · exact hq0 i h
  have hG0 : (0 : MvPolynomial (Fin (n + 1)) K) ∉ dens (Fin (n + 1)) G := by
    rintro ⟨g, hg, h⟩
    exact hok.den_ne hg h.symm
  have hlc : ∀ h ∈ shapeSet f q, (OrdKind.lex.mathlib (n + 1)).leadingCoeff h = 1 := by
    rintro _ (rfl | ⟨i, rfl⟩)
    · rw [MonomialOrder.leadingCoeff, hdf, coeff_inLast, Finsupp.single_eq_same, if_pos rfl, ← hfD]
      exact hfm.leadingCoeff
    · beta_reduce
      rw [MonomialOrder.leadingCoeff, degree_shape, coeff_sub, coeff_X, coeff_inLast, if_pos rfl,
        if_neg (single_castSucc_ne i _), sub_zero]
  have hmul : ∀ {g h : MvPolynomial (Fin (n + 1)) K}, g ≠ 0 → h ∈ shapeSet f q →
      ((OrdKind.lex.mathlib (n + 1)).leadingCoeff g)⁻¹ • g =
        ((OrdKind.lex.mathlib (n + 1)).leadingCoeff h)⁻¹ • h →
      g = (OrdKind.lex.mathlib (n + 1)).leadingCoeff g • h := by
    intro g h hg0 hh he
    rw [hlc h hh, inv_one, one_smul] at he
    rw [← he, smul_smul, mul_inv_cancel₀ (MonomialOrder.leadingCoeff_ne_zero_iff.mpr hg0), one_smul]
  have hfrom : ∀ h ∈ shapeSet f q, ∃ g ∈ G, ∃ c : K, c ≠ 0 ∧ Poly.den (Fin (n + 1)) g = c • h := by
    intro h hh
    obtain ⟨_, ⟨g, hg, rfl⟩, he⟩ := hH.reduced_unique hGr hH0 hHr hred hh
    exact ⟨g, hg, _, MonomialOrder.leadingCoeff_ne_zero_iff.mpr (hok.den_ne hg),
      hmul (hok.den_ne hg) hh he.symm⟩
  have hto : ∀ g ∈ G, ∃ c : K, c ≠ 0 ∧ ∃ h ∈ shapeSet f q, Poly.den (Fin (n + 1)) g = c • h := by
    intro g hg
    obtain ⟨h, hh, he⟩ := hGr.reduced_unique hH hG0 hred hHr ⟨g, hg, rfl⟩
    exact ⟨_, MonomialOrder.leadingCoeff_ne_zero_iff.mpr (hok.den_ne hg), h, hh, hmul (hok.den_ne hg) hh he⟩
  have hdeg : ∀ {c : K} {h : MvPolynomial (Fin (n + 1)) K}, c ≠ 0 →
      (OrdKind.lex.mathlib (n + 1)).degree (c • h) = (OrdKind.lex.mathlib (n + 1)).degree h := fun hc =>
    MonomialOrder.degree_smul_of_mem_nonZeroDivisors (mem_nonZeroDivisors_of_ne_zero hc)
  refine ⟨f, q, ⟨hfm, hfD, hqd, ?_, fun g hg => ?_, hfrom _ (.inl rfl), fun i => hfrom _ (.inr ⟨i, rfl⟩)⟩,
    hH.span_eq.symm⟩
  · have hnd : (G.map fun g => (OrdKind.lex.mathlib (n + 1)).degree
        (Poly.den (Fin (n + 1)) g : MvPolynomial (Fin (n + 1)) K)).Nodup := by
      refine List.pairwise_map.mpr (hinc.imp fun {a b} h e => h.1 ?_)
      rw [e]
    have hset : (G.map fun g => (OrdKind.lex.mathlib (n + 1)).degree
        (Poly.den (Fin (n + 1)) g : MvPolynomial (Fin (n + 1)) K)).toFinset =
        insert (Finsupp.single (Fin.last n) D) (Finset.univ.image fun i : Fin n => Finsupp.single i.castSucc 1) := by
      ext e
      rw [List.mem_toFinset, List.mem_map, Finset.mem_insert, Finset.mem_image]
      constructor
      · rintro ⟨g, hg, rfl⟩
        obtain ⟨c, hc, h, (rfl | ⟨i, rfl⟩), he⟩ := hto g hg
        · left; rw [he, hdeg hc, hdf]
        · right
          exact ⟨i, Finset.mem_univ _, by rw [he, hdeg hc, degree_shape]⟩
      · rintro (rfl | ⟨i, -, rfl⟩)
        · obtain ⟨g, hg, c, hc, he⟩ := hfrom _ (.inl rfl)
          exact ⟨g, hg, by rw [he, hdeg hc, hdf]⟩
        · obtain ⟨g, hg, c, hc, he⟩ := hfrom _ (.inr ⟨i, rfl⟩)
          exact ⟨g, hg, by rw [he, hdeg hc, degree_shape]⟩
    have := congrArg Finset.card hset
    rw [List.toFinset_card_of_nodup hnd, List.length_map, Finset.card_insert_of_notMem, Finset.card_image_of_injective,
      Finset.card_univ, Fintype.card_fin] at this
    · exact this
    · intro i k h
      have := DFunLike.congr_fun h i.castSucc
      beta_reduce at this
      by_contra hne
      rw [Finsupp.single_eq_same, Finsupp.single_eq_of_ne (by simpa using hne)] at this
      exact one_ne_zero this
    · rw [Finset.mem_image]
      rintro ⟨i, -, h⟩
      exact single_castSucc_ne i _ h
  · obtain ⟨c, hc, h, (rfl | ⟨i, rfl⟩), he⟩ := hto g hg
    · exact ⟨c, hc, .inl he⟩
    · exact ⟨c, hc, .inr ⟨i, he⟩⟩

/-- C221. Of the equations in `x_0, ..., x_n` suppose that the last coordinates of the solutions take as many
values as there are monomials divisible by no leading monomial of the `Lex` basis, and at least one.  Then
the basis consists of `f(x_n)` and the `x_i - q_i(x_n)`, up to constant factors, and the solutions are the
points with `f(x_n) = 0` and `x_i = q_i(x_n)`. -/
theorem C221_shape (gens : List (Poly F))
    (hg : ∀ g ∈ gens, Poly.Clean (Fin (n + 1)) g ∧ Poly.den (Fin (n + 1)) g ≠ (0 : MvPolynomial (Fin (n + 1)) K)) :
    Spec (PolyPanic F) (Computer.buchbergerAlgorithm (OrdKind.lex.order .debug) gens) (fun G =>
      0 < (lastCoordinates K n gens).ncard →
      (lastCoordinates K n gens).ncard = {e : Fin (n + 1) →₀ ℕ | ∀ g ∈ G, ¬ (OrdKind.lex.mathlib (n + 1)).degree
        (Poly.den (Fin (n + 1)) g : MvPolynomial (Fin (n + 1)) K) ≤ e}.ncard →
      ∃ (f : Polynomial K) (q : Fin n → Polynomial K), InShape n (lastCoordinates K n gens).ncard G f q ∧
        zeros K (n + 1) gens = {a | Polynomial.aeval (a (Fin.last n)) f = 0 ∧
          ∀ i : Fin n, a i.castSucc = Polynomial.aeval (a (Fin.last n)) (q i)}) := by
  refine (algorithm_spec (OrdKind.implements .lex (n + 1)) gens hg (fun _ => True) trivial
    fun _ _ => trivial).imp fun G h h0 hcard => ?_
  have hst := standard_powers h.1 h.2.1 (T := lastCoordinates K n gens) (by
    rintro p hp t ⟨a, ha, rfl⟩
    rw [zeros_eq] at ha
    have := ha _ hp
    rwa [aeval_inLast] at this) h0 hcard
  obtain ⟨f, q, hsh, hI⟩ := shape h.1 h.2.1 h.2.2.2.1 h.2.2.2.2 h0 hst
  refine ⟨f, q, hsh, ?_⟩
  rw [zeros_eq, hI, zeroLocus_span]
  ext a
  constructor
  · intro ha
    refine ⟨?_, fun i => ?_⟩
    · have := ha _ (.inl rfl)
      rwa [aeval_inLast] at this
    · have := ha _ (.inr ⟨i, rfl⟩)
      beta_reduce at this
      rwa [map_sub, aeval_X, aeval_inLast, sub_eq_zero] at this
  · rintro ⟨h1, h2⟩ _ (rfl | ⟨i, rfl⟩)
    · rwa [aeval_inLast]
    · beta_reduce
      rw [map_sub, aeval_X, aeval_inLast, sub_eq_zero]
      exact h2 i

/-- C221, over a perfect field such as the rationals: so it is if the ideal is radical and the solutions, finitely
many and at least one, differ in the last coordinate. -/
theorem C221_radical [PerfectField K] (gens : List (Poly F))
    (hg : ∀ g ∈ gens, Poly.Clean (Fin (n + 1)) g ∧ Poly.den (Fin (n + 1)) g ≠ (0 : MvPolynomial (Fin (n + 1)) K))
    (hfin : (zeros K (n + 1) gens).Finite) (hne : (zeros K (n + 1) gens).Nonempty)
    (hinj : Set.InjOn (fun a => a (Fin.last n)) (zeros K (n + 1) gens))
    (hrad : (Ideal.span (dens (Fin (n + 1)) gens : Set (MvPolynomial (Fin (n + 1)) K))).IsRadical) :
    Spec (PolyPanic F) (Computer.buchbergerAlgorithm (OrdKind.lex.order .debug) gens) (fun G =>
      ∃ (f : Polynomial K) (q : Fin n → Polynomial K), InShape n (zeros K (n + 1) gens).ncard G f q ∧
        zeros K (n + 1) gens = {a | Polynomial.aeval (a (Fin.last n)) f = 0 ∧
          ∀ i : Fin n, a i.castSucc = Polynomial.aeval (a (Fin.last n)) (q i)}) := by
  have hlast : lastCoordinates K n gens = (fun a => a (Fin.last n)) '' zeros K (n + 1) gens := rfl
  have hcard : (lastCoordinates K n gens).ncard = (zeros K (n + 1) gens).ncard := by
    rw [hlast, hinj.ncard_image]
  refine ((C221_shape gens hg).and (C154_radical (OrdKind.implements .lex (n + 1)) gens hg)).imp
    fun G ⟨h1, h2⟩ => ?_
  rw [hcard] at h1
  exact h1 ((Set.ncard_pos hfin).mpr hne) ((h2 hfin).mpr hrad)

theorem origin_mem_zeros {gens : List (Poly F)}
    (h : ∀ p ∈ Ideal.span (dens (Fin n) gens : Set (MvPolynomial (Fin n) K)), constantCoeff p = 0) :
    (fun _ => 0) ∈ zeros K n gens := by
  rw [zeros_eq]
  intro p hp
  rw [aeval_zero', h p hp, map_zero]

end

/-! ### Examples -/

/-- `x^2 + y^2 = 5` and `x y = 2`: the second coordinates are the zeros of `y^4 - 5 y^2 + 4`, and
`x = (5 y - y^3) / 2`. -/
theorem C221_run : letI := Rational.field .debug
    Computer.buchbergerAlgorithm (OrdKind.lex.order .debug)
      ([[⟨⟨1, 1⟩, [2]⟩, ⟨⟨1, 1⟩, [0, 2]⟩, ⟨⟨-5, 1⟩, []⟩], [⟨⟨1, 1⟩, [1, 1]⟩, ⟨⟨-2, 1⟩, []⟩]] : List (Poly Rational)) =
      .ok [[⟨⟨1, 1⟩, [1]⟩, ⟨⟨1, 2⟩, [0, 3]⟩, ⟨⟨-5, 2⟩, [0, 1]⟩],
        [⟨⟨1, 1⟩, [0, 4]⟩, ⟨⟨-5, 1⟩, [0, 2]⟩, ⟨⟨4, 1⟩, []⟩]] := by
  let _ := Rational.field .debug
  exact (Computer.buchbergerAlgorithmN_approx 60 _).eq (by decide +kernel) (by simp)

/-- The hypotheses of `C221_radical` hold for `y - 2 x` and `x^2 - x`, whose solutions are `(0, 0)` and `(1, 2)`. -/
example : letI := Rational.field .debug
    letI := Rational.lawful
    let gens : List (Poly Rational) := [[⟨⟨1, 1⟩, [0, 1]⟩, ⟨⟨-2, 1⟩, [1]⟩], [⟨⟨1, 1⟩, [2]⟩, ⟨⟨-1, 1⟩, [1]⟩]]
    (∀ g ∈ gens, Poly.Clean (Fin 2) g ∧ Poly.den (Fin 2) g ≠ (0 : MvPolynomial (Fin 2) ℚ)) ∧
    (zeros ℚ 2 gens).Finite ∧ (zeros ℚ 2 gens).Nonempty ∧
    Set.InjOn (fun a => a (Fin.last 1)) (zeros ℚ 2 gens) ∧
    (Ideal.span (dens (Fin 2) gens : Set (MvPolynomial (Fin 2) ℚ))).IsRadical := by
  let _ := Rational.field .debug
  let _ := Rational.lawful
  intro gens
  have hsp := (C220_points (F := Rational) (K := ℚ) (k := 2) [[⟨0, 1⟩, ⟨0, 1⟩], [⟨1, 1⟩, ⟨2, 1⟩]] (by
    change ∀ a ∈ _, ∀ c ∈ a, Rational.WF c
    intro a ha c hc
    refine ⟨?_, ?_⟩ <;> revert c <;> revert a <;> decide)).of_ok C220_run
  obtain ⟨hg, hmem⟩ := hsp
  have hv : ∀ k : ℤ, (val (⟨k, 1⟩ : Rational) : ℚ) = k := fun k => by
    change Rational.val _ = _
    unfold Rational.val
    simp
  have e1 : pointOf ℚ 2 [(⟨0, 1⟩ : Rational), ⟨0, 1⟩] = ![0, 0] := by
    funext i
    fin_cases i <;> simp [pointOf, hv]
  have e2 : pointOf ℚ 2 [(⟨1, 1⟩ : Rational), ⟨2, 1⟩] = ![1, 2] := by
    funext i
    fin_cases i <;> simp [pointOf, hv]
  have hmem' : ∀ p : MvPolynomial (Fin 2) ℚ, p ∈ Ideal.span (dens (Fin 2) gens) ↔
      eval ![0, 0] p = 0 ∧ eval ![1, 2] p = 0 := by
    intro p
    rw [hmem, List.forall_mem_cons, List.forall_mem_singleton, e1, e2]
  have hz : ∀ a ∈ zeros ℚ 2 gens, a 1 = 2 * a 0 ∧ (a 0 = 0 ∨ a 0 = 1) := by
    intro a ha
    rw [zeros_eq] at ha
    have h1 := ha (X 1 - C 2 * X 0) ((hmem' _).mpr (by simp))
    have h2 := ha (X 0 * (X 0 - 1)) ((hmem' _).mpr (by simp))
    simp only [map_sub, map_mul, aeval_X, map_one, mul_eq_zero, sub_eq_zero, map_ofNat] at h1 h2
    exact ⟨h1, h2⟩
  refine ⟨hg, ?_, ⟨fun _ => 0, ?_⟩, ?_, ?_⟩
  · refine Set.Finite.subset (Set.toFinite {![0, 0], ![1, 2]}) fun a ha => ?_
    obtain ⟨h1, h2⟩ := hz a ha
    rcases h2 with h2 | h2
    · left
      funext i
      fin_cases i <;> simp [h1, h2]
    · right
      funext i
      fin_cases i <;> simp [h1, h2]
  · refine origin_mem_zeros fun p hp => ?_
    have := ((hmem' p).mp hp).1
    have h0 : (![0, 0] : Fin 2 → ℚ) = 0 := by funext i; fin_cases i <;> rfl
    rwa [h0, eval_zero] at this
  · intro a ha b hb hab
    have hab : a 1 = b 1 := hab
    obtain ⟨h1, -⟩ := hz a ha
    obtain ⟨h2, -⟩ := hz b hb
    have h0 : a 0 = b 0 := by
      have : (2 : AlgebraicClosure ℚ) * a 0 = 2 * b 0 := by rw [← h1, ← h2, hab]
      exact mul_left_cancel₀ two_ne_zero this
    funext i
    fin_cases i
    · exact h0
    · exact hab
  · rintro p ⟨N, hN⟩
    rw [hmem'] at hN ⊢
    rw [map_pow, map_pow] at hN
    exact ⟨eq_zero_of_pow_eq_zero hN.1, eq_zero_of_pow_eq_zero hN.2⟩

end Verif
