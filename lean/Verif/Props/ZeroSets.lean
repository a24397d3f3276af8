import Verif.Props.IdealSum
import Verif.Props.Finite
import Verif.Props.IdealOps

/-!
# Property C219: operations on ideals are operations on sets of solutions

The programs of C134, C135 and C215, and two that compare the solutions of two systems of equations.
-/

namespace Verif
open Res MvPolynomial LawfulRField

section
variable {F : Type} [RField F]

/-- Does `f` vanish at all solutions of the equations `gens`?  `x_k` is a variable that does not occur. -/
def vanishesOn (O : MOrder) (k : ℕ) (gens : List (Poly F)) (f : Poly F) : Res Bool := do
  let G ← rabinowitsch O k gens f
  match G with
  | [[t]] => pure (t.mdeg == [])
  | _ => pure false

/-- Are all solutions of `gens` solutions of `fs`? -/
def solutionsInclude (O : MOrder) (k : ℕ) (gens fs : List (Poly F)) : Res Bool := do
  let bs ← fs.mapM fun f => vanishesOn O k gens f
  pure (bs.all id)

/-- Have `gens` and `fs` the same solutions? -/
def sameSolutions (O : MOrder) (k : ℕ) (gens fs : List (Poly F)) : Res Bool := do
  let a ← solutionsInclude O k gens fs
  let b ← solutionsInclude O k fs gens
  pure (a && b)

end

section
variable {F : Type} [RField F] {K : Type} [Field K] [LawfulRField F K] {k : ℕ}

/-- C219, sums: the common solutions. -/
theorem C219_sum {O : MOrder} {m : MonomialOrder (Fin k)} (hO : Implements O m) (fs gs : List (Poly F))
    (hf : ∀ g ∈ fs, Poly.Clean (Fin k) g ∧ Poly.den (Fin k) g ≠ (0 : MvPolynomial (Fin k) K))
    (hg : ∀ g ∈ gs, Poly.Clean (Fin k) g ∧ Poly.den (Fin k) g ≠ (0 : MvPolynomial (Fin k) K)) :
    Spec (PolyPanic F) (idealSum O fs gs) (fun H => zeros K k H = zeros K k fs ∩ zeros K k gs) := by
  refine (C215_sum hO fs gs hf hg).imp fun H hH => ?_
  rw [zeros_eq, hH.2.1, zeros_eq, zeros_eq]
  exact (zeroLocus_vanishingIdeal_galoisConnection (K := AlgebraicClosure K)).l_sup

/-- C219, products: the solutions of one of the two systems. -/
theorem C219_product {O : MOrder} {m : MonomialOrder (Fin k)} (hO : Implements O m) (fs gs : List (Poly F))
    (hf : ∀ g ∈ fs, Poly.Clean (Fin k) g ∧ Poly.den (Fin k) g ≠ (0 : MvPolynomial (Fin k) K))
    (hg : ∀ g ∈ gs, Poly.Clean (Fin k) g ∧ Poly.den (Fin k) g ≠ (0 : MvPolynomial (Fin k) K)) :
    Spec (PolyPanic F) (idealMul O fs gs) (fun H => zeros K k H = zeros K k fs ∪ zeros K k gs) := by
  refine (C215_product hO fs gs hf hg).imp fun H hH => ?_
  rw [zeros_eq, hH.2.1, zeros_eq, zeros_eq]
  ext a
  constructor
  · intro h
    by_contra hc
    rw [Set.mem_union, not_or] at hc
    obtain ⟨h1, h2⟩ := hc
    simp only [mem_zeroLocus_iff, not_forall] at h1 h2
    obtain ⟨p, hp, hp0⟩ := h1
    obtain ⟨q, hq, hq0⟩ := h2
    have := h _ (Ideal.mul_mem_mul hp hq)
    rw [map_mul] at this
    exact (mul_ne_zero hp0 hq0) this
  · rintro (h | h) p hp
    · exact h p (show p ∈ _ ⊓ _ from Ideal.mul_le_inf hp).1
    · exact h p (show p ∈ _ ⊓ _ from Ideal.mul_le_inf hp).2

/-- C219, intersections: likewise. -/
theorem C219_intersection (fs gs : List (Poly F))
    (hf : ∀ g ∈ fs, Poly.Clean (Fin k) g ∧ Poly.den (Fin k) g ≠ (0 : MvPolynomial (Fin k) K))
    (hg : ∀ g ∈ gs, Poly.Clean (Fin k) g ∧ Poly.den (Fin k) g ≠ (0 : MvPolynomial (Fin k) K)) :
    Spec (PolyPanic F) (intersect k fs gs) (fun H => zeros K k H = zeros K k fs ∪ zeros K k gs) := by
  refine (C135_intersection fs gs hf hg).imp fun H hH => ?_
  rw [zeros_eq, hH.2, zeros_eq, zeros_eq]
  ext a
  constructor
  · intro h
    by_contra hc
    rw [Set.mem_union, not_or] at hc
    obtain ⟨h1, h2⟩ := hc
    simp only [mem_zeroLocus_iff, not_forall] at h1 h2
    obtain ⟨p, hp, hp0⟩ := h1
    obtain ⟨q, hq, hq0⟩ := h2
    have := h _ ⟨Ideal.mul_mem_right q _ hp, Ideal.mul_mem_left _ p hq⟩
    rw [map_mul] at this
    exact (mul_ne_zero hp0 hq0) this
  · rintro (h | h) p hp
    · exact h p hp.1
    · exact h p hp.2

/-- C219, saturation: the smallest set given by equations over `K` that contains the solutions with
`f ≠ 0`. -/
theorem C219_saturation (gens : List (Poly F)) (f : Poly F)
    (hg : ∀ g ∈ gens, Poly.Clean (Fin k) g ∧ Poly.den (Fin k) g ≠ (0 : MvPolynomial (Fin k) K))
    (hf : Poly.Clean (Fin k) f) :
    Spec (PolyPanic F) (saturate k gens f) (fun H => ∀ c : Fin k → AlgebraicClosure K, c ∈ zeros K k H ↔
      ∀ q : MvPolynomial (Fin k) K, (∀ a ∈ zeros K k gens,
        aeval a (Poly.den (Fin k) f : MvPolynomial (Fin k) K) ≠ 0 → aeval a q = 0) → aeval c q = 0) := by
  refine (C134_saturation gens f hg hf).imp fun H hH c => ?_
  rw [zeros_eq, zeros_eq]
  constructor
  · intro hc q hq
    have hrad : Poly.den (Fin k) f * q ∈
        (Ideal.span (dens (Fin k) gens : Set (MvPolynomial (Fin k) K))).radical := by
      rw [← vanishingIdeal_zeroLocus_eq_radical (K := AlgebraicClosure K), mem_vanishingIdeal_iff]
      intro a ha
      rw [map_mul]
      by_cases h0 : aeval a (Poly.den (Fin k) f : MvPolynomial (Fin k) K) = 0
      · rw [h0, zero_mul]
      · rw [hq a ha h0, mul_zero]
    obtain ⟨N, hN⟩ := hrad
    rw [mul_pow] at hN
    have := hc _ ((hH.2 (q ^ N)).mpr ⟨N, hN⟩)
    rw [map_pow] at this
    exact eq_zero_of_pow_eq_zero this
  · intro h p hp
    obtain ⟨N, hN⟩ := (hH.2 p).mp hp
    refine h p fun a ha h0 => ?_
    have := ha _ hN
    rw [map_mul, map_pow] at this
    exact (mul_eq_zero.mp this).resolve_left (pow_ne_zero N h0)

/-- C219, saturation with finitely many solutions: if only finitely many solutions have `f ≠ 0`, these
are the solutions of the result. -/
theorem C219_saturation_finite (gens : List (Poly F)) (f : Poly F)
    (hg : ∀ g ∈ gens, Poly.Clean (Fin k) g ∧ Poly.den (Fin k) g ≠ (0 : MvPolynomial (Fin k) K))
    (hf : Poly.Clean (Fin k) f)
    (hfin : {a ∈ zeros K k gens | aeval a (Poly.den (Fin k) f : MvPolynomial (Fin k) K) ≠ 0}.Finite) :
    Spec (PolyPanic F) (saturate k gens f) (fun H => zeros K k H =
      {a ∈ zeros K k gens | aeval a (Poly.den (Fin k) f : MvPolynomial (Fin k) K) ≠ 0}) := by
  classical
  refine (C219_saturation gens f hg hf).imp fun H hH => ?_
  ext c
  rw [hH]
  constructor
  · intro h
    refine ⟨fun g hgm => h _ fun a ha _ => ha g hgm, fun h0 => ?_⟩
    let χ : Polynomial K :=
      ∏ a ∈ hfin.toFinset, minpoly K (aeval a (Poly.den (Fin k) f : MvPolynomial (Fin k) K))
    have hcomp : ∀ a : Fin k → AlgebraicClosure K,
        aeval a (Polynomial.aeval (Poly.den (Fin k) f : MvPolynomial (Fin k) K) χ) =
          Polynomial.aeval (aeval a (Poly.den (Fin k) f : MvPolynomial (Fin k) K)) χ := fun a =>
      (Polynomial.aeval_algHom_apply (aeval a) (Poly.den (Fin k) f : MvPolynomial (Fin k) K) χ).symm
    have h1 := h (Polynomial.aeval (Poly.den (Fin k) f : MvPolynomial (Fin k) K) χ) fun a ha ha0 => by
      rw [hcomp, map_prod]
      exact Finset.prod_eq_zero (hfin.mem_toFinset.mpr ⟨ha, ha0⟩) (minpoly.aeval K _)
    rw [hcomp, h0, map_prod, Finset.prod_eq_zero_iff] at h1
    obtain ⟨a, ha, hz⟩ := h1
    have ha0 := (hfin.mem_toFinset.mp ha).2
    rw [← Polynomial.coeff_zero_eq_aeval_zero'] at hz
    have hz := (FaithfulSMul.algebraMap_injective K (AlgebraicClosure K)) (hz.trans (map_zero _).symm)
    exact ha0 ((minpoly.coeff_zero_eq_zero (Algebra.IsIntegral.isIntegral _)).mp hz)
  · intro hc q hq
    exact hq c hc.1 hc.2

theorem vanishesOn_spec {O : MOrder} {m : MonomialOrder (Fin (k + 1))} (hO : Implements O m)
    (gens : List (Poly F)) (f : Poly F)
    (hg : ∀ g ∈ gens, Poly.Clean (Fin k) g ∧ Poly.den (Fin k) g ≠ (0 : MvPolynomial (Fin k) K))
    (hf : Poly.Clean (Fin k) f) :
    Spec (PolyPanic F) (vanishesOn O k gens f) (fun b => b = true ↔
      ∀ a ∈ zeros K k gens, aeval a (Poly.den (Fin k) f : MvPolynomial (Fin k) K) = 0) := by
  refine (C133_vanishes hO gens f hg hf).bind fun G hG => ?_
  replace hG : (∃ c : F, G = [[⟨c, []⟩]]) ↔
      ∀ a ∈ zeros K k gens, aeval a (Poly.den (Fin k) f : MvPolynomial (Fin k) K) = 0 := hG
  rw [← hG]
  split
  · next t =>
    change (t.mdeg == []) = true ↔ _
    rw [beq_iff_eq]
    constructor
    · intro h
      exact ⟨t.coef, by rw [← h]⟩
    · rintro ⟨c, hc⟩
      injection hc with h1
      injection h1 with h2
      rw [h2]
  · next hne =>
    change false = true ↔ _
    refine ⟨fun h => (by cases h), ?_⟩
    rintro ⟨c, hc⟩
    exact absurd hc (hne _)

/-- C219: the comparison of the solutions of two systems. -/
theorem C219_include {O : MOrder} {m : MonomialOrder (Fin (k + 1))} (hO : Implements O m)
    (gens fs : List (Poly F))
    (hg : ∀ g ∈ gens, Poly.Clean (Fin k) g ∧ Poly.den (Fin k) g ≠ (0 : MvPolynomial (Fin k) K))
    (hf : ∀ f ∈ fs, Poly.Clean (Fin k) f) :
    Spec (PolyPanic F) (solutionsInclude O k gens fs) (fun b => b = true ↔
      zeros K k gens ⊆ zeros K k fs) := by
  refine (mapM_spec (P := fun f b => b = true ↔
    ∀ a ∈ zeros K k gens, aeval a (Poly.den (Fin k) f : MvPolynomial (Fin k) K) = 0)
    fun f hfm => vanishesOn_spec hO gens f hg (hf f hfm)).bind fun bs hbs => ?_
  change _ ↔ _
  rw [List.all_eq_true]
  constructor
  · intro hall a ha f hfm
    obtain ⟨b, hb, hfb⟩ := forall₂_mem_right hbs.flip hfm
    exact hfb.mp (hall b hb) a ha
  · intro hsub b hb
    obtain ⟨f, hfm, hfb⟩ := forall₂_mem_right hbs hb
    exact hfb.mpr fun a ha => hsub ha f hfm

/-- C219: two systems have the same solutions exactly when `sameSolutions` says so. -/
theorem C219_same {O : MOrder} {m : MonomialOrder (Fin (k + 1))} (hO : Implements O m)
    (gens fs : List (Poly F))
    (hg : ∀ g ∈ gens, Poly.Clean (Fin k) g ∧ Poly.den (Fin k) g ≠ (0 : MvPolynomial (Fin k) K))
    (hf : ∀ g ∈ fs, Poly.Clean (Fin k) g ∧ Poly.den (Fin k) g ≠ (0 : MvPolynomial (Fin k) K)) :
    Spec (PolyPanic F) (sameSolutions O k gens fs) (fun b => b = true ↔
      zeros K k gens = zeros K k fs) := by
  refine (C219_include (K := K) hO gens fs hg fun f h => (hf f h).1).bind fun a ha => ?_
  refine (C219_include (K := K) hO fs gens hf fun f h => (hg f h).1).bind fun b hb => ?_
  change _ ↔ _
  rw [Bool.and_eq_true, ha, hb]
  exact ⟨fun h => h.1.antisymm h.2, fun h => ⟨h.le, h.ge⟩⟩

end

/-! ### Examples -/

/-- `x^2` and `x` have the same solutions, `x y` and `x` have not; dividing `x` out of `x y` leaves `y`. -/
theorem C219_run : letI := Rational.field .debug
    sameSolutions (OrdKind.grLex.order .debug) 2 [opXX] [opX] = .ok true ∧
    sameSolutions (OrdKind.grLex.order .debug) 2 [opXY] [opX] = .ok false ∧
    saturate 2 [opXY] opX = .ok [opY] := by
  let _ := Rational.field .debug
  have hyp : rabinowitsch (OrdKind.grLex.order .debug) 2 [opXX] opX = .ok [[⟨⟨1, 1⟩, []⟩]] :=
    bind_eq_ok.mpr ⟨[⟨⟨1, 1⟩, []⟩, ⟨⟨-1, 1⟩, [1, 0, 1]⟩], by decide +kernel,
      (Computer.buchbergerAlgorithmN_approx 30 _).eq (by decide +kernel) (by simp)⟩
  have hyp' : rabinowitsch (OrdKind.grLex.order .debug) 2 [opX] opXX = .ok [[⟨⟨1, 1⟩, []⟩]] :=
    bind_eq_ok.mpr ⟨[⟨⟨1, 1⟩, []⟩, ⟨⟨-1, 1⟩, [2, 0, 1]⟩], by decide +kernel,
      (Computer.buchbergerAlgorithmN_approx 30 _).eq (by decide +kernel) (by simp)⟩
  have hyp2 : rabinowitsch (OrdKind.grLex.order .debug) 2 [opXY] opX =
      .ok [[⟨⟨1, 1⟩, []⟩, ⟨⟨-1, 1⟩, [1, 0, 1]⟩], opY] :=
    bind_eq_ok.mpr ⟨[⟨⟨1, 1⟩, []⟩, ⟨⟨-1, 1⟩, [1, 0, 1]⟩], by decide +kernel,
      (Computer.buchbergerAlgorithmN_approx 30 _).eq (by decide +kernel) (by simp)⟩
  have hyp2' : rabinowitsch (OrdKind.grLex.order .debug) 2 [opX] opXY = .ok [[⟨⟨1, 1⟩, []⟩]] :=
    bind_eq_ok.mpr ⟨[⟨⟨1, 1⟩, []⟩, ⟨⟨-1, 1⟩, [1, 1, 1]⟩], by decide +kernel,
      (Computer.buchbergerAlgorithmN_approx 30 _).eq (by decide +kernel) (by simp)⟩
  refine ⟨?_, ?_, bind_eq_ok.mpr ⟨[[⟨⟨1, 1⟩, []⟩, ⟨⟨-1, 1⟩, [1, 0, 1]⟩], opY],
    bind_eq_ok.mpr ⟨[⟨⟨1, 1⟩, []⟩, ⟨⟨-1, 1⟩, [1, 0, 1]⟩], by decide +kernel,
      (Computer.buchbergerAlgorithmN_approx 30 _).eq (by decide +kernel) (by simp)⟩, by decide +kernel⟩⟩
  · unfold sameSolutions solutionsInclude vanishesOn
    simp only [List.mapM_cons, List.mapM_nil, hyp, hyp']
    rfl
  · unfold sameSolutions solutionsInclude vanishesOn
    simp only [List.mapM_cons, List.mapM_nil, hyp2, hyp2']
    rfl

example : letI := Rational.field .debug
    letI := Rational.lawful
    ∀ g ∈ [opX, opY, opXY, opXX], Poly.Clean (Fin 2) g ∧
      Poly.den (Fin 2) g ≠ (0 : MvPolynomial (Fin 2) ℚ) := by
  exact sampleGens (by decide)

end Verif
