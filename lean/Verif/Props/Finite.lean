import Verif.Props.Graded
import Mathlib.RingTheory.Algebraic.MvPolynomial
import Mathlib.RingTheory.Ideal.GoingUp
import Mathlib.RingTheory.Algebraic.Integral

/-!
# Properties C152 and C153: systems with finitely many solutions

Conventions as in `Props/Comp.lean`.
-/

namespace Verif
open Res MvPolynomial LawfulRField

section
variable {F : Type} [RField F] {K : Type} [Field K] [LawfulRField F K]
variable {n : ℕ} {O : MOrder} {m : MonomialOrder (Fin n)}

/-- The common zeros of the generators in an algebraic closure. -/
def zeros (K : Type) [Field K] [LawfulRField F K] (n : ℕ) (gens : List (Poly F)) :
    Set (Fin n → AlgebraicClosure K) :=
  {a | ∀ g ∈ gens, aeval a (Poly.den (Fin n) g : MvPolynomial (Fin n) K) = 0}

theorem zeros_eq (gens : List (Poly F)) : zeros K n gens =
    zeroLocus (AlgebraicClosure K) (Ideal.span (dens (Fin n) gens : Set (MvPolynomial (Fin n) K))) := by
  rw [zeroLocus_span]
  ext x
  constructor
  · intro h p hp
    obtain ⟨g, hg, rfl⟩ := hp
    exact h g hg
  · intro h g hg
    exact h _ (mem_dens hg)

/-- A nonzero polynomial in one variable over `K`, vanishing at all the `i`-th coordinates. -/
theorem exists_univariate {Z : Set (Fin n → AlgebraicClosure K)} (hZ : Z.Finite) (i : Fin n) :
    ∃ f : Polynomial K, f ≠ 0 ∧ ∀ a ∈ Z, Polynomial.aeval (a i) f = 0 := by
  classical
  refine ⟨∏ a ∈ hZ.toFinset, minpoly K (a i), ?_, fun a ha => ?_⟩
  · rw [Finset.prod_ne_zero_iff]
    exact fun a _ => minpoly.ne_zero (Algebra.IsIntegral.isIntegral (a i))
  · rw [map_prod]
    exact Finset.prod_eq_zero (hZ.mem_toFinset.mpr ha) (minpoly.aeval K (a i))

theorem univariate_supported (i : Fin n) (f : Polynomial K) :
    Polynomial.aeval (X i : MvPolynomial (Fin n) K) f ∈ supported K {i} := by
  rw [supported_eq_adjoin_X, Set.image_singleton]
  exact Polynomial.aeval_mem_adjoin_singleton K _

theorem univariate_ne_zero (i : Fin n) {f : Polynomial K} (hf : f ≠ 0) :
    Polynomial.aeval (X i : MvPolynomial (Fin n) K) f ≠ 0 := by
  intro h
  exact (transcendental_iff.mp (transcendental_X K i)) f h |> hf

/-- C152 (finiteness). The equations have finitely many solutions with coordinates in an algebraic
closure exactly when for every variable some element of the result has a power of it as leading
monomial. -/
theorem C152_finite (hO : Implements O m) (gens : List (Poly F))
    (hg : ∀ g ∈ gens, Poly.Clean (Fin n) g ∧ Poly.den (Fin n) g ≠ 0) :
    Spec (PolyPanic F) (Computer.buchbergerAlgorithm O gens) (fun G =>
      {a : Fin n → AlgebraicClosure K | ∀ g ∈ gens,
        aeval a (Poly.den (Fin n) g : MvPolynomial (Fin n) K) = 0}.Finite ↔
        ∀ i : Fin n, ∃ g ∈ G, ∃ d : ℕ, m.degree (Poly.den (Fin n) g : MvPolynomial (Fin n) K) =
          Finsupp.single i d) := by
  refine ((algorithm_spec hO gens hg (fun _ => True) trivial fun _ _ => trivial).and
    ((C106_finite (K := K) hO gens hg).and (C141_solutions hO gens hg (AlgebraicClosure K)))).imp
    fun G ⟨h, hfin, hsol⟩ => ?_
  change (zeros K n gens).Finite ↔ _
  constructor
  · intro hZ i
    obtain ⟨f, hf0, hf⟩ := exists_univariate hZ i
    have hrad : Polynomial.aeval (X i : MvPolynomial (Fin n) K) f ∈
        (Ideal.span (dens (Fin n) gens : Set (MvPolynomial (Fin n) K))).radical := by
      rw [← vanishingIdeal_zeroLocus_eq_radical (K := AlgebraicClosure K), ← zeros_eq,
        mem_vanishingIdeal_iff]
      intro a ha
      rw [← Polynomial.aeval_algHom_apply, aeval_X]
      exact hf a ha
    obtain ⟨N, hN⟩ := Ideal.mem_radical_iff.mp hrad
    rw [← map_pow] at hN
    have hne := univariate_ne_zero i (pow_ne_zero N hf0)
    obtain ⟨_, ⟨g, hgm, rfl⟩, _, hle⟩ := h.2.1.2 _ hN hne
    refine ⟨g, hgm, m.degree (Poly.den (Fin n) g) i, Finsupp.ext fun j => ?_⟩
    by_cases hj : j = i
    · rw [hj, Finsupp.single_eq_same]
    · rw [Finsupp.single_eq_of_ne hj]
      have h1 := mem_supported_iff.mp (univariate_supported i (f ^ N)) _ (m.degree_mem_support hne) j
      have h2 := hle j
      by_contra h0
      exact hj (h1 (by omega))
  · intro hall
    have := hfin.mpr hall
    refine (hsol ?_).1
    change (Standard m G).Finite
    have hli := (macaulay h.1 h.2.1).1
    have : Finite (Standard m G) := hli.finite
    exact Set.toFinite _

/-- C152 (triangular form). With `Lex`, if there are finitely many solutions, the result contains for
every variable `x_i` an element involving only `x_i, x_{i+1}, …` whose leading monomial is a power of
`x_i`. -/
theorem C152_triangular (gens : List (Poly F))
    (hg : ∀ g ∈ gens, Poly.Clean (Fin n) g ∧ Poly.den (Fin n) g ≠ 0) :
    Spec (PolyPanic F) (Computer.buchbergerAlgorithm (OrdKind.lex.order .debug) gens) (fun G =>
      {a : Fin n → AlgebraicClosure K | ∀ g ∈ gens,
        aeval a (Poly.den (Fin n) g : MvPolynomial (Fin n) K) = 0}.Finite →
      ∀ i : Fin n, ∃ g ∈ G, (Poly.den (Fin n) g : MvPolynomial (Fin n) K) ∈ supported K {j | i ≤ j} ∧
        ∃ d : ℕ, (OrdKind.lex.mathlib n).degree (Poly.den (Fin n) g : MvPolynomial (Fin n) K) =
          Finsupp.single i d) := by
  refine (C152_finite (OrdKind.implements .lex n) gens hg).imp fun G h hZ i => ?_
  obtain ⟨g, hgm, d, hd⟩ := h.mp hZ i
  refine ⟨g, hgm, mem_supported_iff.mpr fun e he j hj => ?_, d, hd⟩
  refine lex_eliminates i.val e (Finsupp.single i d) ?_ (fun j hj => ?_) j hj
  · rw [← hd]; exact (OrdKind.lex.mathlib n).le_degree he
  · by_contra hlt
    refine hj (Finsupp.single_eq_of_ne ?_)
    rintro rfl
    exact hlt (le_refl j.val)

/-- A homomorphism to an algebraically closed field extends to an integral algebra. -/
theorem extend_hom {K R A L : Type} [Field K] [CommRing R] [CommRing A] [Field L] [IsAlgClosed L]
    [Algebra K R] [Algebra K A] [Algebra K L] [Algebra.IsIntegral K A] (f : R →ₐ[K] A) (φ : R →ₐ[K] L)
    (hker : ∀ r, f r = 0 → φ r = 0) : ∃ ψ : A →ₐ[K] L, ∀ r, ψ (f r) = φ r := by
  let _ : Algebra R A := f.toRingHom.toAlgebra
  have hf : ∀ r, algebraMap R A r = f r := fun _ => rfl
  have : IsScalarTower K R A := .of_algebraMap_eq fun x => (f.commutes x).symm
  have : Algebra.IsIntegral R A := .tower_top K
  let P := RingHom.ker φ.toRingHom
  have : P.IsPrime := RingHom.ker_isPrime _
  obtain ⟨Q, _, hQ, hQP⟩ := Ideal.exists_ideal_over_prime_of_isIntegral (S := A) P ⊥ (by
    intro r hr
    exact hker r hr)
  have : Q.LiesOver P := ⟨hQP.symm⟩
  let e : R ⧸ P →+* L := Ideal.Quotient.lift P φ.toRingHom (fun r hr => hr)
  have he : Function.Injective e := by
    rw [injective_iff_map_eq_zero]
    intro x hx
    obtain ⟨r, rfl⟩ := Ideal.Quotient.mk_surjective x
    exact Ideal.Quotient.eq_zero_iff_mem.mpr hx
  let _ : Algebra (R ⧸ P) L := e.toAlgebra
  have : FaithfulSMul (R ⧸ P) L := (faithfulSMul_iff_algebraMap_injective _ _).mpr he
  have : Algebra.IsIntegral (R ⧸ P) (A ⧸ Q) := inferInstance
  have : Algebra.IsAlgebraic (R ⧸ P) (A ⧸ Q) := inferInstance
  let ψ : A ⧸ Q →ₐ[R ⧸ P] L := IsAlgClosed.lift
  have key : ∀ r, ψ (Ideal.Quotient.mk Q (f r)) = φ r := fun r => ψ.commutes (Ideal.Quotient.mk P r)
  refine ⟨{ (ψ : A ⧸ Q →+* L).comp (Ideal.Quotient.mk Q) with commutes' := fun x => ?_ }, key⟩
  have := key (algebraMap K R x)
  rwa [f.commutes, φ.commutes] at this

theorem extend_point {S : Set (Fin n)} (hS : Eliminates m S) {I : Ideal (MvPolynomial (Fin n) K)}
    {G : Set (MvPolynomial (Fin n) K)} (hG : IsGroebner m I G)
    [Module.Finite K (MvPolynomial (Fin n) K ⧸ I)] {L : Type} [Field L] [IsAlgClosed L] [Algebra K L]
    (a : Fin n → L) (ha : ∀ g ∈ G, g ∈ supported K S → aeval a g = 0) :
    ∃ x : Fin n → L, (∀ i ∈ S, x i = a i) ∧ ∀ f ∈ I, aeval x f = 0 := by
  obtain ⟨ψ, hψ⟩ := extend_hom ((Ideal.Quotient.mkₐ K I).comp (supported K S).val)
    ((aeval a).comp (supported K S).val) (by
      rintro ⟨r, hr⟩ h0
      change aeval a r = 0
      have hI : r ∈ I := Ideal.Quotient.eq_zero_iff_mem.mp h0
      have := (elimination hS hG r).mp ⟨hI, hr⟩
      induction this using Submodule.span_induction with
      | mem x hx => exact ha x hx.1 hx.2
      | zero => exact map_zero _
      | add x y hx hy ihx ihy =>
        have h1 := (elimination hS hG x).mpr hx
        have h2 := (elimination hS hG y).mpr hy
        rw [map_add, ihx h1.2 (Ideal.Quotient.eq_zero_iff_mem.mpr h1.1) h1.1,
          ihy h2.2 (Ideal.Quotient.eq_zero_iff_mem.mpr h2.1) h2.1, add_zero]
      | smul c x hx ihx =>
        have h1 := (elimination hS hG x).mpr hx
        rw [Subalgebra.smul_def, smul_eq_mul, map_mul,
          ihx h1.2 (Ideal.Quotient.eq_zero_iff_mem.mpr h1.1) h1.1, mul_zero])
  have hx : ∀ f, aeval (fun i => ψ (Ideal.Quotient.mk I (X i))) f = ψ (Ideal.Quotient.mk I f) := by
    intro f
    have : aeval (fun i => ψ (Ideal.Quotient.mk I (X i))) = ψ.comp (Ideal.Quotient.mkₐ K I) := by
      ext i
      rw [aeval_X]
      rfl
    rw [this]
    rfl
  refine ⟨fun i => ψ (Ideal.Quotient.mk I (X i)), fun i hi => ?_, fun f hf => ?_⟩
  · have := hψ ⟨X i, X_mem_supported.mpr hi⟩
    refine this.trans ?_
    change aeval a (X i) = a i
    rw [aeval_X]
  · rw [hx, Ideal.Quotient.eq_zero_iff_mem.mpr hf, map_zero]

/-- C153 (back substitution). With `Lex`, if there are finitely many solutions, then every common zero
of those elements of the result that do not involve `x_0, …, x_{k-1}` extends to a solution. -/
theorem C153_extension (gens : List (Poly F))
    (hg : ∀ g ∈ gens, Poly.Clean (Fin n) g ∧ Poly.den (Fin n) g ≠ 0) :
    Spec (PolyPanic F) (Computer.buchbergerAlgorithm (OrdKind.lex.order .debug) gens) (fun G =>
      {a : Fin n → AlgebraicClosure K | ∀ g ∈ gens,
        aeval a (Poly.den (Fin n) g : MvPolynomial (Fin n) K) = 0}.Finite →
      ∀ (k : ℕ) (a : Fin n → AlgebraicClosure K),
        (∀ g ∈ G, (Poly.den (Fin n) g : MvPolynomial (Fin n) K) ∈ supported K {i : Fin n | k ≤ i.val} →
          aeval a (Poly.den (Fin n) g : MvPolynomial (Fin n) K) = 0) →
        ∃ x : Fin n → AlgebraicClosure K, (∀ i : Fin n, k ≤ i.val → x i = a i) ∧
          ∀ g ∈ gens, aeval x (Poly.den (Fin n) g : MvPolynomial (Fin n) K) = 0) := by
  have hO := OrdKind.implements .lex n
  refine ((algorithm_spec hO gens hg (fun _ => True) trivial fun _ _ => trivial).and
    ((C106_finite (K := K) hO gens hg).and (C152_finite hO gens hg))).imp
    fun G ⟨h, hfin, hsol⟩ hZ k a ha => ?_
  have := hfin.mpr (hsol.mp hZ)
  obtain ⟨x, hx, hx'⟩ := extend_point (lex_eliminates k) h.2.1 a (by
    rintro _ ⟨g, hgm, rfl⟩ hgS
    exact ha g hgm hgS)
  exact ⟨x, fun i hi => hx i hi, fun g hgm => hx' _ (Ideal.subset_span (mem_dens hgm))⟩

/-- C153, conversely: the coordinates of a solution satisfy those elements, so the partial solutions
are exactly the projections of the solutions. -/
theorem C153_projection (hO : Implements O m) (gens : List (Poly F))
    (hg : ∀ g ∈ gens, Poly.Clean (Fin n) g ∧ Poly.den (Fin n) g ≠ 0) :
    Spec (PolyPanic F) (Computer.buchbergerAlgorithm O gens) (fun G =>
      ∀ (S : Set (Fin n)) (x a : Fin n → AlgebraicClosure K),
        (∀ g ∈ gens, aeval x (Poly.den (Fin n) g : MvPolynomial (Fin n) K) = 0) →
        (∀ i ∈ S, x i = a i) →
        ∀ g ∈ G, (Poly.den (Fin n) g : MvPolynomial (Fin n) K) ∈ supported K S →
          aeval a (Poly.den (Fin n) g : MvPolynomial (Fin n) K) = 0) := by
  refine (algorithm_spec hO gens hg (fun _ => True) trivial fun _ _ => trivial).imp
    fun G h S x a hx hxa g hgm hgS => ?_
  have hI : aeval x (Poly.den (Fin n) g : MvPolynomial (Fin n) K) = 0 := by
    have hmem := h.2.1.1 (mem_dens hgm)
    have : Ideal.span (dens (Fin n) gens) ≤
        RingHom.ker (aeval x : MvPolynomial (Fin n) K →ₐ[K] AlgebraicClosure K) := by
      rw [Ideal.span_le]
      rintro _ ⟨g', hg', rfl⟩
      exact hx g' hg'
    exact this hmem
  rw [← hI]
  refine (eval₂Hom_congr' rfl (fun i hi _ => ?_) rfl).symm
  exact hxa i (mem_supported.mp hgS hi)

end

/-! ### Examples -/

/-- `x y - 1, y^2 - 1` has finitely many solutions; with `Lex` the result is the triangular system
`y^2 - 1, x - y`. -/
example : letI := Rational.field .debug
    letI := Rational.lawful
    (∀ g ∈ [cloG₁, cloG₂], Poly.Clean (Fin 2) g ∧ Poly.den (Fin 2) g ≠ (0 : MvPolynomial (Fin 2) ℚ)) ∧
    Computer.buchbergerAlgorithm (OrdKind.lex.order .debug) [cloG₁, cloG₂] =
      .ok [cloG₂, [⟨⟨1, 1⟩, [1]⟩, ⟨⟨-1, 1⟩, [0, 1]⟩]] := by
  let _ := Rational.field .debug
  exact ⟨sampleGens (by decide),
    (Computer.buchbergerAlgorithmN_approx 40 _).eq (by decide +kernel) (by simp)⟩

end Verif
