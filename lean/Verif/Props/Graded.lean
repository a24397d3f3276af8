import Verif.Props.Ideal
import Mathlib.RingTheory.MvPolynomial.WeightedHomogeneous
import Mathlib.LinearAlgebra.Dimension.StrongRankCondition

/-!
# Properties C140–C142: gradings, Hilbert functions and the number of solutions

Conventions as in `Props/Comp.lean`.
-/

namespace Verif
open Res MvPolynomial LawfulRField

section
variable {F : Type} [RField F] {K : Type} [Field K] [LawfulRField F K]
variable {n : ℕ} {O : MOrder} {m : MonomialOrder (Fin n)}
variable {M : Type} [AddCommMonoid M]

/-! ## C140 homogeneous generators -/

/-- The components of an element of an ideal with homogeneous generators lie in it. -/
theorem component_mem {w : Fin n → M} {S : Set (MvPolynomial (Fin n) K)}
    (hS : ∀ f ∈ S, ∃ d, IsWeightedHomogeneous w f d) {f : MvPolynomial (Fin n) K}
    (hf : f ∈ Ideal.span S) (d : M) : weightedHomogeneousComponent w d f ∈ Ideal.span S := by
  classical
  let _ := weightedGradedAlgebra K w
  exact weightedHomogeneousComponent_mem_of_mem K w
    (Ideal.homogeneous_span _ _ fun x hx => hS x hx) hf d

theorem support_component {w : Fin n → M} {d : M} {f : MvPolynomial (Fin n) K} {e : Fin n →₀ ℕ}
    (he : e ∈ (weightedHomogeneousComponent w d f).support) :
    e ∈ f.support ∧ Finsupp.weight w e = d := by
  classical
  rw [support_weightedHomogeneousComponent, Finset.mem_filter] at he
  exact he

/-- A polynomial all of whose components but one vanish is homogeneous. -/
theorem homogeneous_of_component {w : Fin n → M} {d : M} {f : MvPolynomial (Fin n) K}
    (h : ∀ d', d' ≠ d → weightedHomogeneousComponent w d' f = 0) : IsWeightedHomogeneous w f d := by
  classical
  intro e he
  by_contra hne
  have := congrArg (coeff e) (h _ hne)
  rw [coeff_weightedHomogeneousComponent, if_pos rfl, coeff_zero] at this
  exact he this

/-- Elements of a reduced Gröbner basis of an ideal with homogeneous generators are homogeneous. -/
theorem IsGroebner.homogeneous {w : Fin n → M} {S G : Set (MvPolynomial (Fin n) K)}
    (hS : ∀ f ∈ S, ∃ d, IsWeightedHomogeneous w f d) (hG : IsGroebner m (Ideal.span S) G)
    (hr : IsInterReduced m G) {g : MvPolynomial (Fin n) K} (hg : g ∈ G) :
    IsWeightedHomogeneous w g (Finsupp.weight w (m.degree g)) := by
  refine homogeneous_of_component fun d hd => ?_
  by_contra hne
  obtain ⟨h, hh, hh0, hle⟩ := hG.2 _ (component_mem hS (hG.1 hg) d) hne
  obtain ⟨hs, hw⟩ := support_component (m.degree_mem_support hne)
  by_cases e : g = h
  · subst e
    have h1 := m.toSyn_monotone hle
    have h2 := m.le_degree hs
    have h3 := m.toSyn.injective (le_antisymm h1 h2)
    rw [← h3] at hw
    exact hd hw.symm
  · exact hr g hg h hh e _ hs hle

/-- C140. If the generators are homogeneous for a grading of the variables (by any commutative
monoid), so are all elements of the result. -/
theorem C140_homogeneous (hO : Implements O m) (gens : List (Poly F))
    (hg : ∀ g ∈ gens, Poly.Clean (Fin n) g ∧ Poly.den (Fin n) g ≠ 0) (w : Fin n → M)
    (hw : ∀ g ∈ gens, ∃ d, IsWeightedHomogeneous w (Poly.den (Fin n) g : MvPolynomial (Fin n) K) d) :
    Spec (PolyPanic F) (Computer.buchbergerAlgorithm O gens) (fun G =>
      ∀ g ∈ G, ∃ d, IsWeightedHomogeneous w (Poly.den (Fin n) g : MvPolynomial (Fin n) K) d) := by
  refine (algorithm_spec hO gens hg (fun _ => True) trivial fun _ _ => trivial).imp fun G h => ?_
  intro g hgm
  refine ⟨_, h.2.1.homogeneous (w := w) ?_ h.2.2.2.2 (mem_dens hgm)⟩
  rintro _ ⟨g₀, h₀, rfl⟩
  exact hw g₀ h₀

/-- Homogeneity, read off the list of terms. -/
theorem homogeneous_iff_terms {p : Poly F} (hp : Poly.Clean (Fin n) p) (w : Fin n → M) (d : M) :
    IsWeightedHomogeneous w (Poly.den (Fin n) p : MvPolynomial (Fin n) K) d ↔
      ∀ t ∈ p, ∑ i : Fin n, t.mdeg.deg i • w i = d := by
  constructor
  · intro h t ht
    have := h (mem_support_iff.mp ((Poly.mem_support_den hp).mpr ⟨t, ht, rfl⟩))
    rwa [Finsupp.weight_eq_sum] at this
  · intro h e he
    obtain ⟨t, ht, rfl⟩ := (Poly.mem_support_den hp).mp (mem_support_iff.mpr he)
    rw [Finsupp.weight_eq_sum]
    exact h t ht

/-- C140, on the terms: if in each generator all terms have the same degree, so they have in each
element of the result. -/
theorem C140_terms (hO : Implements O m) (gens : List (Poly F))
    (hg : ∀ g ∈ gens, Poly.Clean (Fin n) g ∧ Poly.den (Fin n) g ≠ 0) (w : Fin n → M)
    (hw : ∀ g ∈ gens, ∃ d, ∀ t ∈ g, ∑ i : Fin n, t.mdeg.deg i • w i = d) :
    Spec (PolyPanic F) (Computer.buchbergerAlgorithm O gens) (fun G =>
      ∀ g ∈ G, ∃ d, ∀ t ∈ g, ∑ i : Fin n, t.mdeg.deg i • w i = d) := by
  refine ((C140_homogeneous hO gens hg w fun g h => ?_).and (C43_ideal hO gens hg)).imp fun G h g hm => ?_
  · obtain ⟨d, hd⟩ := hw g h
    exact ⟨d, (homogeneous_iff_terms (hg g h).1 w d).mpr hd⟩
  · obtain ⟨d, hd⟩ := h.1 g hm
    exact ⟨d, (homogeneous_iff_terms (h.2.1 g hm).1 w d).mp hd⟩

/-- C140. Then the remainder of a homogeneous polynomial modulo the result is homogeneous of the same
degree. -/
theorem C140_remainder (hO : Implements O m) (G : List (Poly F)) (hG : GroebnerList m G) (w : Fin n → M)
    (hw : ∀ g ∈ G, ∃ d, IsWeightedHomogeneous w (Poly.den (Fin n) g : MvPolynomial (Fin n) K) d)
    (f : Poly F) (hf : Poly.Clean (Fin n) f) (d : M)
    (hd : IsWeightedHomogeneous w (Poly.den (Fin n) f : MvPolynomial (Fin n) K) d) :
    Spec (PolyPanic F) (Computer.divide O f G) (fun x =>
      IsWeightedHomogeneous w (Poly.den (Fin n) x.1 : MvPolynomial (Fin n) K) d) := by
  classical
  refine (divide_gens hO.poly polyPanic_allowed hG.1 hf).imp ?_
  rintro ⟨r, qs⟩ ⟨-, hred, hmem, -⟩
  refine homogeneous_of_component fun d' hd' => ?_
  have hS : ∀ g ∈ (dens (Fin n) G : Set (MvPolynomial (Fin n) K)), ∃ d, IsWeightedHomogeneous w g d := by
    rintro _ ⟨g, h, rfl⟩
    exact hw g h
  refine hG.isGroebner.eq_zero ?_ fun e he => (hred e (support_component he).1).2
  have := component_mem hS hmem d'
  rw [map_sub, hd.weightedHomogeneousComponent_ne d' hd', zero_sub] at this
  exact (Ideal.neg_mem_iff _).mp this

/-! ## C141 the number of solutions -/

/-- The value of the monomials at a point. -/
noncomputable def pointHom {L : Type} [Field L] (a : Fin n → L) : Multiplicative (Fin n →₀ ℕ) →* L where
  toFun e := e.toAdd.prod fun i k => a i ^ k
  map_one' := by simp
  map_mul' x y := by
    rw [toAdd_mul, Finsupp.prod_add_index'] <;> intros <;> simp [pow_add]

theorem pointHom_injective {L : Type} [Field L] :
    Function.Injective (pointHom : (Fin n → L) → _) := by
  intro a b h
  funext i
  have := DFunLike.congr_fun h (Multiplicative.ofAdd (Finsupp.single i 1))
  change (Finsupp.single i 1).prod (fun i k => a i ^ k) = (Finsupp.single i 1).prod (fun i k => b i ^ k) at this
  rwa [Finsupp.prod_single_index (h := fun i k => a i ^ k) (pow_zero _),
    Finsupp.prod_single_index (h := fun i k => b i ^ k) (pow_zero _), pow_one, pow_one] at this

/-- C141. The number of common zeros of the generators, in any field extension, is at most the number
of monomials not divisible by a leading monomial of the result, if that is finite. -/
theorem C141_solutions (hO : Implements O m) (gens : List (Poly F))
    (hg : ∀ g ∈ gens, Poly.Clean (Fin n) g ∧ Poly.den (Fin n) g ≠ 0) (L : Type) [Field L]
    [Algebra K L] :
    Spec (PolyPanic F) (Computer.buchbergerAlgorithm O gens) (fun G =>
      {e : Fin n →₀ ℕ | ∀ g ∈ G, ¬ m.degree (Poly.den (Fin n) g) ≤ e}.Finite →
      {a : Fin n → L | ∀ g ∈ gens, aeval a (Poly.den (Fin n) g : MvPolynomial (Fin n) K) = 0}.Finite ∧
      {a : Fin n → L | ∀ g ∈ gens, aeval a (Poly.den (Fin n) g : MvPolynomial (Fin n) K) = 0}.ncard ≤
        {e : Fin n →₀ ℕ | ∀ g ∈ G, ¬ m.degree (Poly.den (Fin n) g) ≤ e}.ncard) := by
  classical
  refine (algorithm_spec hO gens hg (fun _ => True) trivial fun _ _ => trivial).imp fun G h hfin => ?_
  change (Standard m G).Finite at hfin
  have : Fintype (Standard m G) := hfin.fintype
  set Z := {a : Fin n → L | ∀ g ∈ gens, aeval a (Poly.den (Fin n) g : MvPolynomial (Fin n) K) = 0} with hZ
  have hzero : ∀ a ∈ Z, ∀ f ∈ Ideal.span (dens (Fin n) gens), aeval a (f : MvPolynomial (Fin n) K) = 0 := by
    intro a ha f hf
    have : Ideal.span (dens (Fin n) gens) ≤ RingHom.ker (aeval a : MvPolynomial (Fin n) K →ₐ[K] L) := by
      rw [Ideal.span_le]
      rintro _ ⟨g, hgm, rfl⟩
      exact ha g hgm
    exact this hf
  have hli : LinearIndependent L (fun a : Z => fun e : Standard m G =>
      pointHom a.1 (Multiplicative.ofAdd e.1)) := by
    rw [linearIndependent_iff']
    intro s c hsum a ha
    have hpts : LinearIndependent L (fun a : Z => (pointHom a.1 : Multiplicative (Fin n →₀ ℕ) → L)) :=
      (linearIndependent_monoidHom (Multiplicative (Fin n →₀ ℕ)) L).comp (fun a : Z => pointHom a.1)
        fun a b hab => Subtype.ext (pointHom_injective hab)
    refine linearIndependent_iff'.mp hpts s c ?_ a ha
    funext e
    rw [Finset.sum_apply]
    obtain ⟨r, hr, hrs⟩ := exists_standard h.1 h.2.1 (monomial e.toAdd (1 : K))
    have hval : ∀ a : Z, (pointHom a.1 e : L) =
        ∑ d ∈ r.support, algebraMap K L (r.coeff d) * pointHom a.1 (Multiplicative.ofAdd d) := by
      intro a
      have h1 := hzero a.1 a.2 _ hr
      rw [map_sub, sub_eq_zero, aeval_monomial, map_one, one_mul, aeval_def, eval₂_eq'] at h1
      change e.toAdd.prod (fun i k => a.1 i ^ k) = _
      rw [h1]
      refine Finset.sum_congr rfl fun d _ => ?_
      congr 1
      change _ = d.prod fun i k => a.1 i ^ k
      rw [Finsupp.prod_fintype]
      intro i
      exact pow_zero _
    simp only [Pi.smul_apply, smul_eq_mul, Pi.zero_apply]
    calc ∑ a ∈ s, c a * pointHom a.1 e
        = ∑ d ∈ r.support, algebraMap K L (r.coeff d) *
            ∑ a ∈ s, c a * pointHom a.1 (Multiplicative.ofAdd d) := by
          simp only [hval, Finset.mul_sum]
          rw [Finset.sum_comm]
          exact Finset.sum_congr rfl fun d _ => Finset.sum_congr rfl fun a _ => by ring
      _ = 0 := by
          refine Finset.sum_eq_zero fun d hd => ?_
          have := congrFun hsum ⟨d, hrs d hd⟩
          rw [Finset.sum_apply] at this
          simp only [Pi.smul_apply, smul_eq_mul, Pi.zero_apply] at this
          rw [this, mul_zero]
  have hZf : Finite Z := hli.finite
  have : Fintype Z := Fintype.ofFinite Z
  refine ⟨Set.toFinite Z, ?_⟩
  have := hli.fintype_card_le_finrank
  rw [Module.finrank_fintype_fun_eq_card] at this
  rwa [← Nat.card_eq_fintype_card, ← Nat.card_eq_fintype_card, Nat.card_coe_set_eq,
    Nat.card_coe_set_eq] at this

/-! ## C142 Hilbert functions -/

/-- If the polynomials in `V` reduce to combinations of the standard monomials in `T`, the number of
these is the dimension of the image of `V` in the quotient. -/
theorem finrank_image {I : Ideal (MvPolynomial (Fin n) K)} {G : List (Poly F)}
    (hok : GenOk (Fin n) G) (hGr : IsGroebner m I (dens (Fin n) G))
    (V : Submodule K (MvPolynomial (Fin n) K)) (T : Set (Fin n →₀ ℕ)) (hT : T ⊆ Standard m G)
    (hTV : ∀ e ∈ T, monomial e (1 : K) ∈ V)
    (hV : ∀ f ∈ V, ∃ r : MvPolynomial (Fin n) K, f - r ∈ I ∧ ∀ e ∈ r.support, e ∈ T) :
    Module.finrank K (V.map (Ideal.Quotient.mkₐ K I).toLinearMap) = T.ncard := by
  have hli : LinearIndependent K (fun e : T => Ideal.Quotient.mk I (monomial e.1 (1 : K))) :=
    (macaulay hok hGr).1.comp (fun e : T => (⟨e.1, hT e.2⟩ : Standard m G))
      fun a b hab => Subtype.ext (congrArg (fun x : Standard m G => x.1) hab)
  have hspan : V.map (Ideal.Quotient.mkₐ K I).toLinearMap =
      Submodule.span K (Set.range fun e : T => Ideal.Quotient.mk I (monomial e.1 (1 : K))) := by
    apply le_antisymm
    · rintro _ ⟨f, hf, rfl⟩
      obtain ⟨r, hr, hrs⟩ := hV f hf
      rw [← Ideal.Quotient.eq] at hr
      change Ideal.Quotient.mk I f ∈ _
      rw [hr, r.as_sum, map_sum]
      refine Submodule.sum_mem _ fun e he => ?_
      rw [mk_monomial]
      exact Submodule.smul_mem _ _ (Submodule.subset_span ⟨⟨e, hrs e he⟩, rfl⟩)
    · rw [Submodule.span_le]
      rintro _ ⟨e, rfl⟩
      exact ⟨_, hTV e.1 e.2, rfl⟩
  rw [hspan, Module.finrank, rank_span hli, Cardinal.mk_range_eq _ hli.injective]
  exact Nat.card_coe_set_eq T

/-- Reduction to standard monomials does not raise the leading monomial. -/
theorem standard_degree_le {I : Ideal (MvPolynomial (Fin n) K)} {G : List (Poly F)}
    (hGr : IsGroebner m I (dens (Fin n) G)) {f r : MvPolynomial (Fin n) K} (hr : f - r ∈ I)
    (hs : ∀ e ∈ r.support, e ∈ Standard m G) : m.toSyn (m.degree r) ≤ m.toSyn (m.degree f) := by
  by_contra hlt
  rw [not_le] at hlt
  have h1 : m.degree (r - f) = m.degree r := m.degree_sub_of_lt hlt
  have hr0 : r ≠ 0 := by
    rintro rfl
    rw [MonomialOrder.degree_zero, map_zero] at hlt
    exact absurd hlt not_lt_bot
  have hne : r - f ≠ 0 := by
    intro h0
    rw [sub_eq_zero] at h0
    rw [h0] at hlt
    exact lt_irrefl _ hlt
  have hmem : r - f ∈ I := by rw [← neg_sub]; exact I.neg_mem hr
  obtain ⟨_, ⟨g, hgm, rfl⟩, -, hle⟩ := hGr.2 _ hmem hne
  rw [h1] at hle
  exact hs _ (m.degree_mem_support hr0) g hgm hle

end

theorem degree_eq_tot {n : ℕ} (e : Fin n →₀ ℕ) : e.degree = tot n (extend e) := by
  rw [tot_extend, Finsupp.degree_eq_sum]

/-- The graded orders compare total degrees first. -/
theorem OrdKind.degree_mono {k : OrdKind} (hk : k.graded = true) {n : ℕ} {a b : Fin n →₀ ℕ}
    (h : (k.mathlib n).toSyn a ≤ (k.mathlib n).toSyn b) : a.degree ≤ b.degree := by
  rcases h.lt_or_eq with h | h
  · rw [OrdKind.mathlib_lt] at h
    rw [degree_eq_tot, degree_eq_tot]
    cases k
    · cases hk
    · cases hk
    · rcases h with h | h
      · exact h.le
      · exact h.1.le
    · rcases h with h | h
      · exact h.le
      · exact h.1.le
  · rw [(k.mathlib n).toSyn.injective h]

section
variable {F : Type} [RField F] {K : Type} [Field K] [LawfulRField F K]
variable {n : ℕ} {O : MOrder} {m : MonomialOrder (Fin n)}
variable {M : Type} [AddCommMonoid M]

/-- C142. With `GrLex` and `GRevLex`, the number of monomials of degree at most `d` not divisible by a
leading monomial of the result is the dimension of the image in the quotient ring of the polynomials
of degree at most `d` (the affine Hilbert function). -/
theorem C142_affine (k : OrdKind) (hk : k.graded = true) (gens : List (Poly F))
    (hg : ∀ g ∈ gens, Poly.Clean (Fin n) g ∧ Poly.den (Fin n) g ≠ 0) (d : ℕ) :
    Spec (PolyPanic F) (Computer.buchbergerAlgorithm (k.order .debug) gens) (fun G =>
      Module.finrank K ((restrictTotalDegree (Fin n) K d).map
        (Ideal.Quotient.mkₐ K (Ideal.span (dens (Fin n) gens))).toLinearMap) =
      {e : Fin n →₀ ℕ | e.degree ≤ d ∧
        ∀ g ∈ G, ¬ (k.mathlib n).degree (Poly.den (Fin n) g : MvPolynomial (Fin n) K) ≤ e}.ncard) := by
  refine (algorithm_spec (OrdKind.implements k n) gens hg (fun _ => True) trivial
    fun _ _ => trivial).imp fun G h => ?_
  refine finrank_image h.1 h.2.1 _ _ (fun e he => he.2) ?_ ?_
  · intro e he
    rw [mem_restrictTotalDegree]
    refine (totalDegree_monomial_le _ _).trans ?_
    exact he.1
  · intro f hf
    rw [mem_restrictTotalDegree] at hf
    obtain ⟨r, hr, hrs⟩ := exists_standard h.1 h.2.1 f
    refine ⟨r, hr, fun e he => ⟨?_, hrs e he⟩⟩
    have h1 := ((k.mathlib n).le_degree he).trans (standard_degree_le h.2.1 hr hrs)
    refine (OrdKind.degree_mono hk h1).trans ?_
    by_cases hf0 : f = 0
    · rw [hf0, MonomialOrder.degree_zero]
      simp
    · exact (le_totalDegree ((k.mathlib n).degree_mem_support hf0)).trans hf

/-- C142. With any order, for generators that are homogeneous for a grading: the number of monomials
of degree `d` not divisible by a leading monomial of the result is the dimension of the part of degree
`d` of the quotient ring (the Hilbert function). -/
theorem C142_homogeneous (hO : Implements O m) (gens : List (Poly F))
    (hg : ∀ g ∈ gens, Poly.Clean (Fin n) g ∧ Poly.den (Fin n) g ≠ 0) (w : Fin n → M)
    (hw : ∀ g ∈ gens, ∃ d, IsWeightedHomogeneous w (Poly.den (Fin n) g : MvPolynomial (Fin n) K) d)
    (d : M) :
    Spec (PolyPanic F) (Computer.buchbergerAlgorithm O gens) (fun G =>
      Module.finrank K ((weightedHomogeneousSubmodule K w d).map
        (Ideal.Quotient.mkₐ K (Ideal.span (dens (Fin n) gens))).toLinearMap) =
      {e : Fin n →₀ ℕ | Finsupp.weight w e = d ∧
        ∀ g ∈ G, ¬ m.degree (Poly.den (Fin n) g : MvPolynomial (Fin n) K) ≤ e}.ncard) := by
  refine (algorithm_spec hO gens hg (fun _ => True) trivial fun _ _ => trivial).imp fun G h => ?_
  have hS : ∀ g ∈ (dens (Fin n) gens : Set (MvPolynomial (Fin n) K)),
      ∃ d, IsWeightedHomogeneous w g d := by
    rintro _ ⟨g, h, rfl⟩
    exact hw g h
  refine finrank_image h.1 h.2.1 _ _ (fun e he => he.2) ?_ ?_
  · intro e he
    rw [mem_weightedHomogeneousSubmodule]
    exact isWeightedHomogeneous_monomial _ _ _ he.1
  · intro f hf
    rw [mem_weightedHomogeneousSubmodule] at hf
    obtain ⟨r, hr, hrs⟩ := exists_standard h.1 h.2.1 f
    refine ⟨weightedHomogeneousComponent w d r, ?_, fun e he => ?_⟩
    · have := component_mem hS hr d
      rwa [map_sub, hf.weightedHomogeneousComponent_same] at this
    · obtain ⟨h1, h2⟩ := support_component he
      exact ⟨h2, hrs e h1⟩

end

/-! ### Examples -/

/-- `x^2 - y z` -/
def gradedA : Poly Rational := [⟨⟨1, 1⟩, [2]⟩, ⟨⟨-1, 1⟩, [0, 1, 1]⟩]
/-- `x y - z^2` -/
def gradedB : Poly Rational := [⟨⟨1, 1⟩, [1, 1]⟩, ⟨⟨-1, 1⟩, [0, 0, 2]⟩]

/-- Two quadrics; the two new elements of the basis have degree three and four. -/
example : letI := Rational.field .debug
    letI := Rational.lawful
    (∀ g ∈ [gradedA, gradedB], Poly.Clean (Fin 3) g ∧ Poly.den (Fin 3) g ≠ (0 : MvPolynomial (Fin 3) ℚ)) ∧
    (∀ g ∈ [gradedA, gradedB], ∀ t ∈ g, ∑ i : Fin 3, t.mdeg.deg i • 1 = 2) ∧
    Computer.buchbergerAlgorithm (OrdKind.grLex.order .debug) [gradedA, gradedB] =
      .ok [gradedA, gradedB, [⟨⟨1, 1⟩, [1, 0, 2]⟩, ⟨⟨-1, 1⟩, [0, 2, 1]⟩],
        [⟨⟨1, 1⟩, [0, 3, 1]⟩, ⟨⟨-1, 1⟩, [0, 0, 4]⟩]] := by
  let _ := Rational.field .debug
  exact ⟨sampleGens (by decide), by decide,
    (Computer.buchbergerAlgorithmN_approx 40 _).eq (by decide +kernel) (by simp)⟩

/-- The bound on the number of solutions is attained: `x y - 1, y^2 - 1` has the standard monomials
`1, y` and the solutions `(1, 1)` and `(-1, -1)`. -/
example : letI := Rational.field .debug
    letI := Rational.lawful
    (∀ g ∈ [cloG₁, cloG₂], Poly.Clean (Fin 2) g ∧ Poly.den (Fin 2) g ≠ (0 : MvPolynomial (Fin 2) ℚ)) ∧
    Computer.buchbergerAlgorithm (OrdKind.grLex.order .debug) [cloG₁, cloG₂] =
      .ok [cloG₂, [⟨⟨1, 1⟩, [1]⟩, ⟨⟨-1, 1⟩, [0, 1]⟩]] := by
  let _ := Rational.field .debug
  exact ⟨sampleGens (by decide),
    (Computer.buchbergerAlgorithmN_approx 40 _).eq (by decide +kernel) (by simp)⟩

end Verif
