import Verif.Props.Finite
import Mathlib.FieldTheory.SeparableDegree
import Mathlib.FieldTheory.Perfect
import Mathlib.RingTheory.Artinian.Module

/-!
# Property C154: the number of solutions

Conventions as in `Props/Comp.lean`.
-/

namespace Verif
open Res MvPolynomial LawfulRField

/-- The homomorphisms from a finite algebra to an algebraically closed field, grouped by kernel. -/
theorem homs_bijective {K A L : Type} [Field K] [CommRing A] [Algebra K A] [Module.Finite K A]
    [Field L] [Algebra K L] :
    Function.Bijective (fun x : Σ M : MaximalSpectrum A, (A ⧸ M.asIdeal) →ₐ[K] L =>
      x.2.comp (Ideal.Quotient.mkₐ K x.1.asIdeal)) := by
  have hker : ∀ (M : MaximalSpectrum A) (ψ : (A ⧸ M.asIdeal) →ₐ[K] L) (a : A),
      ψ (Ideal.Quotient.mk M.asIdeal a) = 0 ↔ a ∈ M.asIdeal := by
    intro M ψ a
    let _ := Ideal.Quotient.field M.asIdeal
    rw [← Ideal.Quotient.eq_zero_iff_mem]
    exact map_eq_zero_iff ψ ψ.toRingHom.injective
  constructor
  · rintro ⟨M, ψ⟩ ⟨M', ψ'⟩ h
    have hM : M = M' := by
      ext a
      rw [← hker M ψ a, ← hker M' ψ' a]
      have := DFunLike.congr_fun h a
      change ψ (Ideal.Quotient.mk M.asIdeal a) = ψ' (Ideal.Quotient.mk M'.asIdeal a) at this
      rw [this]
    subst hM
    congr 1
    exact Ideal.Quotient.algHom_ext K h
  · intro φ
    have : IsArtinianRing A := IsArtinianRing.of_finite K A
    have hp : (RingHom.ker φ).IsPrime := RingHom.ker_isPrime _
    have hm : (RingHom.ker φ).IsMaximal := inferInstance
    refine ⟨⟨⟨RingHom.ker φ, hm⟩, Ideal.Quotient.liftₐ (RingHom.ker φ) φ fun a ha => ha⟩, ?_⟩
    ext a
    rfl

/-- The number of homomorphisms from a finite algebra over a perfect field to an algebraically closed
field is the dimension of the algebra modulo its nilpotent elements. -/
theorem card_homs {K A L : Type} [Field K] [PerfectField K] [CommRing A] [Algebra K A]
    [Module.Finite K A] [Field L] [IsAlgClosed L] [Algebra K L] :
    Nat.card (A →ₐ[K] L) = Module.finrank K (A ⧸ nilradical A) := by
  have : IsArtinianRing A := IsArtinianRing.of_finite K A
  have : Fintype (MaximalSpectrum A) := Fintype.ofFinite _
  have hcard : ∀ M : MaximalSpectrum A,
      Nat.card ((A ⧸ M.asIdeal) →ₐ[K] L) = Module.finrank K (A ⧸ M.asIdeal) := by
    intro M
    let _ := Ideal.Quotient.field M.asIdeal
    rw [← Field.finSepDegree_eq_of_isAlgClosed K (A ⧸ M.asIdeal) L]
    exact Field.finSepDegree_eq_finrank_of_isSeparable K _
  have hfin : ∀ M : MaximalSpectrum A, Finite ((A ⧸ M.asIdeal) →ₐ[K] L) := by
    intro M
    let _ := Ideal.Quotient.field M.asIdeal
    infer_instance
  rw [← Nat.card_congr (Equiv.ofBijective _ (homs_bijective (K := K) (A := A) (L := L))), Nat.card_sigma,
    ((IsArtinianRing.quotNilradicalEquivPi A).restrictScalars K).toLinearEquiv.finrank_eq,
    Module.finrank_pi_fintype]
  exact Finset.sum_congr rfl fun M _ => hcard M

/-- The common zeros of an ideal are the homomorphisms from the quotient ring. -/
noncomputable def zerosEquiv {K L : Type} [Field K] [Field L] [Algebra K L] {n : ℕ}
    (I : Ideal (MvPolynomial (Fin n) K)) :
    zeroLocus L I ≃ ((MvPolynomial (Fin n) K ⧸ I) →ₐ[K] L) where
  toFun a := Ideal.Quotient.liftₐ I (aeval a.1) fun f hf => a.2 f hf
  invFun ψ := ⟨fun i => ψ (Ideal.Quotient.mk I (X i)), fun f hf => by
    have : aeval (fun i => ψ (Ideal.Quotient.mk I (X i))) = ψ.comp (Ideal.Quotient.mkₐ K I) := by
      ext i
      rw [aeval_X]
      rfl
    rw [this]
    change ψ (Ideal.Quotient.mk I f) = 0
    rw [Ideal.Quotient.eq_zero_iff_mem.mpr hf, map_zero]⟩
  left_inv a := by
    apply Subtype.ext
    funext i
    exact aeval_X _ i
  right_inv ψ := by
    apply Ideal.Quotient.algHom_ext
    ext i
    exact aeval_X _ i

section
variable {F : Type} [RField F] {K : Type} [Field K] [LawfulRField F K]
variable {n : ℕ} {O : MOrder} {m : MonomialOrder (Fin n)}

/-- Modulo the ideal and then modulo nilpotent elements is modulo the radical. -/
theorem finrank_nilradical (I : Ideal (MvPolynomial (Fin n) K)) :
    Module.finrank K ((MvPolynomial (Fin n) K ⧸ I) ⧸ nilradical (MvPolynomial (Fin n) K ⧸ I)) =
      Module.finrank K (MvPolynomial (Fin n) K ⧸ I.radical) := by
  let f := (Ideal.Quotient.mkₐ K (nilradical (MvPolynomial (Fin n) K ⧸ I))).comp (Ideal.Quotient.mkₐ K I)
  have hf : Function.Surjective f :=
    (Ideal.Quotient.mkₐ_surjective K _).comp (Ideal.Quotient.mkₐ_surjective K I)
  have hk : RingHom.ker f = I.radical := by
    ext p
    change Ideal.Quotient.mk _ (Ideal.Quotient.mk I p) = 0 ↔ _
    rw [Ideal.Quotient.eq_zero_iff_mem, mem_nilradical, Ideal.mem_radical_iff]
    refine exists_congr fun N => ?_
    rw [← map_pow, Ideal.Quotient.eq_zero_iff_mem]
  rw [← (Ideal.quotientKerAlgEquivOfSurjective hf).toLinearEquiv.finrank_eq]
  exact (Ideal.quotientEquivAlgOfEq K hk).toLinearEquiv.finrank_eq

theorem finite_of_zeros (hO : Implements O m) (gens : List (Poly F))
    (hg : ∀ g ∈ gens, Poly.Clean (Fin n) g ∧ Poly.den (Fin n) g ≠ 0) :
    Spec (PolyPanic F) (Computer.buchbergerAlgorithm O gens) (fun _ => (zeros K n gens).Finite →
      Module.Finite K (MvPolynomial (Fin n) K ⧸ Ideal.span (dens (Fin n) gens))) :=
  ((C106_finite (K := K) hO gens hg).and (C152_finite hO gens hg)).imp
    fun _ ⟨hfin, hsol⟩ hZ => hfin.mpr (hsol.mp hZ)

/-- Over a perfect field (the rationals, for instance), if the equations have finitely
many solutions with coordinates in an algebraic closure, their number is the dimension of the
polynomials modulo the radical of the ideal. -/
theorem count_zeros [PerfectField K] (hO : Implements O m) (gens : List (Poly F))
    (hg : ∀ g ∈ gens, Poly.Clean (Fin n) g ∧ Poly.den (Fin n) g ≠ 0) :
    Spec (PolyPanic F) (Computer.buchbergerAlgorithm O gens) (fun _ =>
      {a : Fin n → AlgebraicClosure K | ∀ g ∈ gens,
        aeval a (Poly.den (Fin n) g : MvPolynomial (Fin n) K) = 0}.Finite →
      {a : Fin n → AlgebraicClosure K | ∀ g ∈ gens,
        aeval a (Poly.den (Fin n) g : MvPolynomial (Fin n) K) = 0}.ncard =
      Module.finrank K (MvPolynomial (Fin n) K ⧸
        (Ideal.span (dens (Fin n) gens : Set (MvPolynomial (Fin n) K))).radical)) := by
  refine (finite_of_zeros (K := K) hO gens hg).imp fun _ hfin hZ => ?_
  have := hfin hZ
  change (zeros K n gens).ncard = _
  rw [zeros_eq, ← Nat.card_coe_set_eq, Nat.card_congr (zerosEquiv _), card_homs, finrank_nilradical]

/-- C154. Over a perfect field, if the equations have finitely many solutions, then
there are exactly as many as monomials divisible by no leading monomial of the result if and only if
the ideal is radical. -/
theorem C154_radical [PerfectField K] (hO : Implements O m) (gens : List (Poly F))
    (hg : ∀ g ∈ gens, Poly.Clean (Fin n) g ∧ Poly.den (Fin n) g ≠ 0) :
    Spec (PolyPanic F) (Computer.buchbergerAlgorithm O gens) (fun G =>
      {a : Fin n → AlgebraicClosure K | ∀ g ∈ gens,
        aeval a (Poly.den (Fin n) g : MvPolynomial (Fin n) K) = 0}.Finite →
      ({a : Fin n → AlgebraicClosure K | ∀ g ∈ gens,
        aeval a (Poly.den (Fin n) g : MvPolynomial (Fin n) K) = 0}.ncard =
          {e : Fin n →₀ ℕ | ∀ g ∈ G,
            ¬ m.degree (Poly.den (Fin n) g : MvPolynomial (Fin n) K) ≤ e}.ncard ↔
        (Ideal.span (dens (Fin n) gens : Set (MvPolynomial (Fin n) K))).IsRadical)) := by
  refine ((algorithm_spec hO gens hg (fun _ => True) trivial fun _ _ => trivial).and
    ((finite_of_zeros (K := K) hO gens hg).and (count_zeros hO gens hg))).imp
    fun G ⟨h, hfin, hcount⟩ hZ => ?_
  have := hfin hZ
  rw [hcount hZ]
  change _ = (Standard m G).ncard ↔ _
  obtain ⟨hli, hspan⟩ := macaulay h.1 h.2.1
  set I := Ideal.span (dens (Fin n) gens : Set (MvPolynomial (Fin n) K))
  have hdim : Module.finrank K (MvPolynomial (Fin n) K ⧸ I) = (Standard m G).ncard := by
    rw [Module.finrank_eq_nat_card_basis (Module.Basis.mk hli hspan.ge), Nat.card_coe_set_eq]
  rw [← hdim]
  constructor
  · intro heq
    let φ := (Ideal.Quotient.factorₐ K I.le_radical).toLinearMap
    have hsur : Function.Surjective φ := Ideal.Quotient.factor_surjective I.le_radical
    have : Module.Finite K (MvPolynomial (Fin n) K ⧸ I.radical) := Module.Finite.of_surjective φ hsur
    have hinj : Function.Injective φ := (LinearMap.injective_iff_surjective_of_finrank_eq_finrank heq.symm).mpr hsur
    intro p hp
    rw [← Ideal.Quotient.eq_zero_iff_mem]
    apply hinj
    rw [map_zero]
    exact Ideal.Quotient.eq_zero_iff_mem.mpr hp
  · intro hrad
    rw [hrad.radical]

end

/-! ### Examples -/

/-- `x y - 1, y^2 - 1`: two solutions and the two monomials `1, y`. -/
example : letI := Rational.field .debug
    letI := Rational.lawful
    (∀ g ∈ [cloG₁, cloG₂], Poly.Clean (Fin 2) g ∧ Poly.den (Fin 2) g ≠ (0 : MvPolynomial (Fin 2) ℚ)) ∧
    PerfectField ℚ ∧
    Computer.buchbergerAlgorithm (OrdKind.lex.order .debug) [cloG₁, cloG₂] =
      .ok [cloG₂, [⟨⟨1, 1⟩, [1]⟩, ⟨⟨-1, 1⟩, [0, 1]⟩]] := by
  let _ := Rational.field .debug
  exact ⟨sampleGens (by decide), inferInstance,
    (Computer.buchbergerAlgorithmN_approx 40 _).eq (by decide +kernel) (by simp)⟩

end Verif
