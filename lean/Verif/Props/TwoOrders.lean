import Verif.Props.Ideal
import Mathlib.RingTheory.MvPolynomial.Groebner
import Mathlib.LinearAlgebra.Dimension.Finite

/-!
# Property C223: Gröbner bases for two orders

When the basis computed with one order is the basis for another, in terms of leading monomials.
-/

namespace Verif
open Res MvPolynomial LawfulRField

section
variable {F : Type} [RField F] {K : Type} [Field K] [LawfulRField F K] {n : ℕ} {O O' : MOrder}
  {m m' : MonomialOrder (Fin n)}

/-- If the leading monomials are the same for both orders, a Gröbner basis for one is one for the other. -/
theorem groebner_of_same {I : Ideal (MvPolynomial (Fin n) K)} {G : List (Poly F)}
    (hok : GenOk (Fin n) G) (hGr : IsGroebner m I (dens (Fin n) G))
    (h : ∀ g ∈ G, m'.degree (Poly.den (Fin n) g) = m.degree (Poly.den (Fin n) g)) :
    IsGroebner m' I (dens (Fin n) G) := by
  classical
  refine ⟨hGr.1, fun f hf hf0 => ?_⟩
  by_contra hcon
  have hst : m'.degree f ∈ Standard m G := fun g hg hle =>
    hcon ⟨_, mem_dens hg, hok.den_ne hg, by rw [h g hg]; exact hle⟩
  set f' := f - m'.leadingTerm f with hf'
  obtain ⟨q, r, e1, e2, e3⟩ := m'.div_set (B := dens (Fin n) G) (fun b hb => by
    obtain ⟨g, hg, rfl⟩ := hb
    exact (m'.leadingCoeff_ne_zero_iff.mpr (hok.den_ne hg)).isUnit) f'
  have hrI : f' - r ∈ I := by
    rw [e1, add_sub_cancel_right, Finsupp.linearCombination_apply, Finsupp.sum]
    exact Ideal.sum_mem _ fun b _ => by
      rw [smul_eq_mul]; exact Ideal.mul_mem_left _ _ (hGr.1 b.2)
  have hrle : ∀ e ∈ r.support, m'.toSyn e ≤ m'.toSyn (m'.degree f') := by
    have hr : r = f' - Finsupp.linearCombination _ (fun (b : dens (Fin n) G) => (b : MvPolynomial (Fin n) K)) q :=
      by rw [e1]; ring
    have : m'.toSyn (m'.degree r) ≤ m'.toSyn (m'.degree f') := by
      rw [hr, Finsupp.linearCombination_apply, Finsupp.sum]
      refine (m'.degree_sub_le).trans (sup_le le_rfl ?_)
      refine m'.degree_sum_le.trans (Finset.sup_le fun b _ => ?_)
      rw [smul_eq_mul, mul_comm]
      exact e2 b
    exact fun e he => (m'.le_degree he).trans this
  have hz : m'.leadingTerm f + r = 0 := by
    refine standard_independent hGr ?_ fun e he => ?_
    · have := I.sub_mem hf hrI
      rw [hf'] at this
      convert this using 1
      ring
    · rcases Finset.mem_union.mp (support_add he) with h1 | h1
      · have : e = m'.degree f := by
          rw [MonomialOrder.leadingTerm] at h1
          exact Finset.mem_singleton.mp (support_monomial_subset h1)
        rw [this]
        exact hst
      · intro g hg hle
        exact e3 e h1 _ (mem_dens hg) (by rw [h g hg]; exact hle)
  have hc := congrArg (coeff (m'.degree f)) hz
  rw [coeff_add, coeff_zero, MonomialOrder.leadingTerm, coeff_monomial, if_pos rfl] at hc
  have hlc := m'.leadingCoeff_ne_zero_iff.mpr hf0
  by_cases hrc : coeff (m'.degree f) r = 0
  · rw [hrc, add_zero] at hc
    exact hlc hc
  · have h1 := hrle _ (mem_support_iff.mpr hrc)
    by_cases h0 : m'.degree f = 0
    · obtain ⟨p, hp, hp0, hle⟩ := hGr.2 f hf hf0
      obtain ⟨g, hg, rfl⟩ := hp
      refine hst g hg ?_
      rwa [h0, ← m.degree_C (R := K) (σ := Fin n) (m'.leadingCoeff f), ← m'.eq_C_of_degree_eq_zero h0]
    · have := m'.degree_sub_leadingTerm_lt_degree h0
      exact absurd h1 (not_le.mpr this)

theorem interReduced_of_same {G : List (Poly F)} (hr : IsInterReduced m (dens (Fin n) G))
    (h : ∀ g ∈ G, m'.degree (Poly.den (Fin n) g) = m.degree (Poly.den (Fin n) g)) :
    IsInterReduced m' (dens (Fin n) G) := by
  rintro p hp _ ⟨g, hg, rfl⟩ hne e he
  rw [h g hg]
  exact hr p hp _ (mem_dens hg) hne e he

/-- The monomials of an element of a reduced basis other than the leading one are standard. -/
theorem tail_standard {G : List (Poly F)} (hr : IsInterReduced m (dens (Fin n) G)) {g : Poly F} (hg : g ∈ G)
    {e : Fin n →₀ ℕ} (he : e ∈ (Poly.den (Fin n) g).support) (hne : e ≠ m.degree (Poly.den (Fin n) g)) :
    e ∈ Standard m G := by
  intro g' hg' hle
  by_cases hd : Poly.den (Fin n) g = Poly.den (Fin n) g'
  · rw [← hd] at hle
    exact hne (m.toSyn.injective (le_antisymm (m.le_degree he) (m.toSyn_monotone hle)))
  · exact hr _ (mem_dens hg) _ (mem_dens hg') hd e he hle

/-- The hypothesis of `C223_same` can be computed. -/
theorem same_degree (hO : Implements O m) (hO' : Implements O' m') {p : Poly F} (hp : Poly.Clean (Fin n) p)
    {t : Term F} (h : Computer.leadingTerm O p = .ok (some t)) (h' : Computer.leadingTerm O' p = .ok (some t)) :
    m'.degree (Poly.den (Fin n) p) = m.degree (Poly.den (Fin n) p) :=
  ((((C35_leading_term hO' p hp).1.of_ok h').2 t rfl).2.2.1).symm.trans
    ((((C35_leading_term hO p hp).1.of_ok h).2 t rfl).2.2.1)

variable (hO : Implements O m) (hO' : Implements O' m') (gens : List (Poly F))
  (hg : ∀ g ∈ gens, Poly.Clean (Fin n) g ∧ Poly.den (Fin n) g ≠ 0)
  {G G' : List (Poly F)} (hG : Computer.buchbergerAlgorithm O gens = .ok G)
  (hG' : Computer.buchbergerAlgorithm O' gens = .ok G')

include hO hO' hg hG hG'

/-- C223. The monomials divisible by no leading monomial are equally many for all orders. -/
theorem C223_count : Cardinal.mk (Standard (K := K) m G) = Cardinal.mk (Standard (K := K) m' G') := by
  have s := (algorithm_spec hO gens hg (fun _ => True) trivial fun _ _ => trivial).of_ok hG
  have s' := (algorithm_spec hO' gens hg (fun _ => True) trivial fun _ _ => trivial).of_ok hG'
  obtain ⟨h1, h2⟩ := macaulay s.1 s.2.1
  obtain ⟨h1', h2'⟩ := macaulay s'.1 s'.2.1
  exact mk_eq_mk_of_basis' (Module.Basis.mk h1 h2.ge) (Module.Basis.mk h1' h2'.ge)

/-- C223. The elements of the basis for the first order have the same leading monomials for the second exactly if
the same monomials are divisible by no leading monomial of the basis. -/
theorem C223_leads : (∀ g ∈ G, m'.degree (Poly.den (Fin n) g) = m.degree (Poly.den (Fin n) g)) ↔
    Standard (K := K) m G = Standard (K := K) m' G' := by
  have s := (algorithm_spec hO gens hg (fun _ => True) trivial fun _ _ => trivial).of_ok hG
  have s' := (algorithm_spec hO' gens hg (fun _ => True) trivial fun _ _ => trivial).of_ok hG'
  obtain ⟨hok, hgr, -, -, hred⟩ := s
  obtain ⟨hok', hgr', -, -, hred'⟩ := s'
  constructor
  · intro h
    have hgr2 := groebner_of_same hok hgr h
    ext e
    simp only [Standard, Set.mem_ofPred_eq]
    constructor
    · intro he g' hg' hle
      obtain ⟨p, hp, hp0, hle'⟩ := hgr2.2 _ (hgr'.1 (mem_dens hg')) (hok'.den_ne hg')
      obtain ⟨g, hgm, rfl⟩ := hp
      exact he g hgm (by rw [← h g hgm]; exact hle'.trans hle)
    · intro he g hgm hle
      obtain ⟨p, hp, hp0, hle'⟩ := hgr'.2 _ (hgr.1 (mem_dens hgm)) (hok.den_ne hgm)
      obtain ⟨g', hg', rfl⟩ := hp
      exact he g' hg' (hle'.trans (by rw [h g hgm]; exact hle))
  · intro hst g hgm
    have h1 : m.degree (Poly.den (Fin n) g) ∉ Standard (K := K) m' G' := by
      rw [← hst]
      exact fun h => h g hgm le_rfl
    obtain ⟨g', hg', hle⟩ : ∃ g' ∈ G', m'.degree (Poly.den (Fin n) g') ≤ m.degree (Poly.den (Fin n) g) := by
      by_contra hc
      exact h1 fun g' hg' hle => hc ⟨g', hg', hle⟩
    have h2 : m'.degree (Poly.den (Fin n) g') ∉ Standard (K := K) m G := by
      rw [hst]
      exact fun h => h g' hg' le_rfl
    obtain ⟨g₂, hg₂, hle₂⟩ : ∃ g₂ ∈ G, m.degree (Poly.den (Fin n) g₂) ≤ m'.degree (Poly.den (Fin n) g') := by
      by_contra hc
      exact h2 fun g' hg' hle => hc ⟨g', hg', hle⟩
    have heq : m'.degree (Poly.den (Fin n) g') = m.degree (Poly.den (Fin n) g) := by
      by_cases hd : Poly.den (Fin n) g = Poly.den (Fin n) g₂
      · rw [← hd] at hle₂
        exact le_antisymm hle hle₂
      · exact absurd (hle₂.trans hle)
          (hred _ (mem_dens hgm) _ (mem_dens hg₂) hd _ (m.degree_mem_support (hok.den_ne hgm)))
    set p := Poly.den (Fin n) g with hp
    set p' := Poly.den (Fin n) g' with hp'
    have hc := m.leadingCoeff_ne_zero_iff.mpr (hok.den_ne hgm)
    have hc' := m'.leadingCoeff_ne_zero_iff.mpr (hok'.den_ne hg')
    have hz : (m.leadingCoeff p)⁻¹ • p - (m'.leadingCoeff p')⁻¹ • p' = 0 := by
      refine standard_independent hgr (Ideal.sub_mem _ (Submodule.smul_of_tower_mem _ _ (hgr.1 (mem_dens hgm)))
        (Submodule.smul_of_tower_mem _ _ (hgr'.1 (mem_dens hg')))) fun e he => ?_
      have hne : e ≠ m.degree p := by
        rintro rfl
        rw [mem_support_iff, coeff_sub, coeff_smul, coeff_smul, ← heq] at he
        refine he ?_
        nth_rewrite 1 [heq]
        change (m.leadingCoeff p)⁻¹ * m.leadingCoeff p - (m'.leadingCoeff p')⁻¹ * m'.leadingCoeff p' = 0
        rw [inv_mul_cancel₀ hc, inv_mul_cancel₀ hc', sub_self]
      rcases Finset.mem_union.mp (support_sub _ _ _ he) with h3 | h3
      · exact tail_standard hred hgm (support_smul h3) hne
      · rw [hst]
        exact tail_standard hred' hg' (support_smul h3) (by rw [← hp', heq]; exact hne)
    have hpp : p = (m.leadingCoeff p * (m'.leadingCoeff p')⁻¹) • p' := by
      rw [mul_smul, ← sub_eq_zero.mp hz, smul_smul, mul_inv_cancel₀ hc, one_smul]
    rw [← heq, hpp, MonomialOrder.degree_smul_of_mem_nonZeroDivisors
      (mem_nonZeroDivisors_of_ne_zero (mul_ne_zero hc (inv_ne_zero hc')))]

/-- C223. In this case the two bases are the same up to order and nonzero factors, each passes the criterion for the other
order, and the remainders are the same. -/
theorem C223_same (h : ∀ g ∈ G, m'.degree (Poly.den (Fin n) g) = m.degree (Poly.den (Fin n) g)) :
    (fun p => (m.leadingCoeff p)⁻¹ • p) '' dens (Fin n) G =
      (fun p => (m'.leadingCoeff p)⁻¹ • p) '' dens (Fin n) G' ∧
    (∀ g' ∈ G', m.degree (Poly.den (Fin n) g') = m'.degree (Poly.den (Fin n) g')) ∧
    Spec (PolyPanic F) (Computer.buchbergerCriterion O' G) (· = true) ∧
    Spec (PolyPanic F) (Computer.buchbergerCriterion O G') (· = true) ∧
    ∀ f r r' qs qs', Poly.Clean (Fin n) f → Computer.divide O f G = .ok (r, qs) →
      Computer.divide O' f G' = .ok (r', qs') → Poly.den (Fin n) r = Poly.den (Fin n) r' := by
  have hst := (C223_leads hO hO' gens hg hG hG').mp h
  have h' := (C223_leads hO' hO gens hg hG' hG).mpr hst.symm
  have s := (algorithm_spec hO gens hg (fun _ => True) trivial fun _ _ => trivial).of_ok hG
  have s' := (algorithm_spec hO' gens hg (fun _ => True) trivial fun _ _ => trivial).of_ok hG'
  obtain ⟨hok, hgr, -, -, hred⟩ := s
  obtain ⟨hok', hgr', -, -, hred'⟩ := s'
  have hgr2 := groebner_of_same hok hgr h
  have hgr2' := groebner_of_same hok' hgr' h'
  have hred2 := interReduced_of_same hred h
  have z : ∀ {G : List (Poly F)}, GenOk (Fin n) G → (0 : MvPolynomial (Fin n) K) ∉ dens (Fin n) G := by
    rintro G hG ⟨g, hg, h0⟩
    exact hG.den_ne hg h0.symm
  have hlc : ∀ p ∈ dens (Fin n) G, m.leadingCoeff p = m'.leadingCoeff p := by
    rintro _ ⟨g, hgm, rfl⟩
    rw [MonomialOrder.leadingCoeff, MonomialOrder.leadingCoeff, h g hgm]
  refine ⟨?_, h', ?_, ?_, ?_⟩
  · apply Set.Subset.antisymm
    · rintro _ ⟨p, hp, rfl⟩
      obtain ⟨q, hq, heq⟩ := IsGroebner.reduced_unique hgr2 hgr' (z hok) hred2 hred' hp
      exact ⟨q, hq, by simp only [hlc p hp]; exact heq.symm⟩
    · rintro _ ⟨q, hq, rfl⟩
      obtain ⟨p, hp, heq⟩ := IsGroebner.reduced_unique hgr' hgr2 (z hok') hred' hred2 hq
      exact ⟨p, hp, by simp only [hlc p hp]; exact heq.symm⟩
  · exact (buchbergerCriterion_spec hO'.poly polyPanic_allowed hok).imp fun b hb => hb.mpr (by
      rw [hgr.span_eq]; exact hgr2)
  · exact (buchbergerCriterion_spec hO.poly polyPanic_allowed hok').imp fun b hb => hb.mpr (by
      rw [hgr'.span_eq]; exact hgr2')
  · intro f r r' qs qs' hf hd hd'
    have t := (divide_gens hO.poly polyPanic_allowed (fun g h => (hok g h).1) hf).of_ok hd
    have t' := (divide_gens hO'.poly polyPanic_allowed (fun g h => (hok' g h).1) hf).of_ok hd'
    obtain ⟨-, t2, t3, -⟩ := t
    obtain ⟨-, t2', t3', -⟩ := t'
    simp only at t2 t3 t2' t3'
    rw [hgr.span_eq] at t3
    rw [hgr'.span_eq] at t3'
    refine sub_eq_zero.mp (standard_independent hgr ?_ fun e he => ?_)
    · have := Ideal.sub_mem _ t3' t3
      rwa [sub_sub_sub_cancel_left] at this
    · rcases Finset.mem_union.mp (support_sub _ _ _ he) with h3 | h3
      · exact fun g hgm => (t2 e h3).2 _ (mem_dens hgm) (hok.den_ne hgm)
      · rw [hst]
        exact fun g hgm => (t2' e h3).2 _ (mem_dens hgm) (hok'.den_ne hgm)

end

/-- `x y - 1`, `y^2 - 1`, `x - y` and `x - y^2`, `y^3 - 1`, `x y - 1`, `x^2 - y`. -/
def twoA : Poly Rational := [⟨⟨1, 1⟩, [1, 1]⟩, ⟨⟨-1, 1⟩, []⟩]
def twoB : Poly Rational := [⟨⟨1, 1⟩, [0, 2]⟩, ⟨⟨-1, 1⟩, []⟩]
def twoC : Poly Rational := [⟨⟨1, 1⟩, [1]⟩, ⟨⟨-1, 1⟩, [0, 1]⟩]
def twoD : Poly Rational := [⟨⟨1, 1⟩, [1]⟩, ⟨⟨-1, 1⟩, [0, 2]⟩]
def twoE : Poly Rational := [⟨⟨1, 1⟩, [0, 3]⟩, ⟨⟨-1, 1⟩, []⟩]
def twoF : Poly Rational := [⟨⟨1, 1⟩, [2]⟩, ⟨⟨-1, 1⟩, [0, 1]⟩]

/-- C223. The basis of `x y - 1` and `y^2 - 1` for `Lex` is the one for `GrLex`; the leading monomials agree. -/
theorem C223_run : letI := Rational.field .debug
    letI := Rational.lawful
    (∀ g ∈ [twoA, twoB], Poly.Clean (Fin 2) g ∧ Poly.den (Fin 2) g ≠ 0) ∧
    Computer.buchbergerAlgorithm (OrdKind.lex.order .debug) [twoA, twoB] = .ok [twoB, twoC] ∧
    Computer.buchbergerAlgorithm (OrdKind.grLex.order .debug) [twoA, twoB] = .ok [twoB, twoC] ∧
    ∀ g ∈ [twoB, twoC], (OrdKind.grLex.mathlib 2).degree (Poly.den (Fin 2) g) =
      (OrdKind.lex.mathlib 2).degree (Poly.den (Fin 2) g) := by
  let _ := Rational.field .debug
  let _ := Rational.lawful
  refine ⟨sampleGens (by decide),
    (Computer.buchbergerAlgorithmN_approx 30 _).eq (by decide +kernel) (by simp),
    (Computer.buchbergerAlgorithmN_approx 30 _).eq (by decide +kernel) (by simp), ?_⟩
  have hc : ∀ g ∈ [twoB, twoC], Poly.Clean (Fin 2) g ∧ Poly.den (Fin 2) g ≠ 0 := sampleGens (by decide)
  rw [List.forall_mem_cons, List.forall_mem_singleton] at hc ⊢
  exact ⟨same_degree (OrdKind.lex.implements 2) (OrdKind.grLex.implements 2) hc.1.1
      (t := ⟨⟨1, 1⟩, [0, 2]⟩) (by decide +kernel) (by decide +kernel),
    same_degree (OrdKind.lex.implements 2) (OrdKind.grLex.implements 2) hc.2.1
      (t := ⟨⟨1, 1⟩, [1]⟩) (by decide +kernel) (by decide +kernel)⟩

/-- C223. The bases of `x - y^2` and `y^3 - 1` for `Lex` and `GrLex` differ. -/
theorem C223_run_differ : letI := Rational.field .debug
    Computer.buchbergerAlgorithm (OrdKind.lex.order .debug) [twoD, twoE] = .ok [twoD, twoE] ∧
    Computer.buchbergerAlgorithm (OrdKind.grLex.order .debug) [twoD, twoE] = .ok [twoD, twoA, twoF] ∧
    Computer.leadingTerm (OrdKind.lex.order .debug) twoD = .ok (some ⟨⟨1, 1⟩, [1]⟩) ∧
    Computer.leadingTerm (OrdKind.grLex.order .debug) twoD = .ok (some ⟨⟨-1, 1⟩, [0, 2]⟩) := by
  let _ := Rational.field .debug
  exact ⟨(Computer.buchbergerAlgorithmN_approx 30 _).eq (by decide +kernel) (by simp),
    (Computer.buchbergerAlgorithmN_approx 30 _).eq (by decide +kernel) (by simp), by decide +kernel,
    by decide +kernel⟩

end Verif
