import Verif.Props.IdealOps
import Mathlib.RingTheory.Polynomial.UniqueFactorization
import Mathlib.Algebra.GCDMonoid.Basic

/-!
# Property C236: greatest common divisors and least common multiples in several variables

The programs use `intersect` of C135; `x_k` is a variable that does not occur in `f` and `g`.
-/

namespace Verif
open Res MvPolynomial LawfulRField

section
variable {F : Type} [RField F]

/-- The basis of the ideal of the common multiples. -/
def polyLcm (O : MOrder) (k : ℕ) (f g : Poly F) : Res (List (Poly F)) := do
  let H ← intersect k [f] [g]
  Computer.buchbergerAlgorithm O H

/-- The product divided by that basis. -/
def polyGcd (O : MOrder) (k : ℕ) (f g : Poly F) : Res (List (Poly F)) := do
  let L ← polyLcm O k f g
  let fg ← Poly.mul f g
  let (_, qs) ← Computer.divide O fg L
  pure qs

end

section
variable {F : Type} [RField F] {K : Type} [Field K] [LawfulRField F K] {k : ℕ} {O : MOrder}
  {m : MonomialOrder (Fin k)}

/-- **C236** If all generators are multiples of an element of their ideal, the result is a single polynomial with the
same multiples. -/
theorem C236_principal (hO : Implements O m) (gens : List (Poly F))
    (hg : ∀ g ∈ gens, Poly.Clean (Fin k) g ∧ Poly.den (Fin k) g ≠ (0 : MvPolynomial (Fin k) K))
    (p : MvPolynomial (Fin k) K) (hp : p ≠ 0) (hI : Ideal.span (dens (Fin k) gens) = Ideal.span {p}) :
    Spec (PolyPanic F) (Computer.buchbergerAlgorithm O gens) (fun G => ∃ d, G = [d] ∧ Poly.Clean (Fin k) d ∧
      Associated p (Poly.den (Fin k) d)) := by
  refine (algorithm_spec hO gens hg (fun _ => True) trivial fun _ _ => trivial).imp fun G h => ?_
  obtain ⟨hok, hGr, -, hinc, -⟩ := h
  have hspan := hGr.span_eq
  rw [hI] at hGr hspan
  obtain ⟨_, ⟨d, hd, rfl⟩, -, hdp⟩ := hGr.2 p (Ideal.mem_span_singleton_self p) hp
  have hall : ∀ g ∈ G, m.degree (Poly.den (Fin k) d : MvPolynomial (Fin k) K) ≤ m.degree (Poly.den (Fin k) g) := by
    intro g hgm
    obtain ⟨c, hc⟩ := Ideal.mem_span_singleton.mp (hGr.1 (mem_dens hgm))
    have h0 := hok.den_ne (K := K) hgm
    have hc0 : c ≠ 0 := fun h => h0 (by rw [hc, h, mul_zero])
    rw [hc, m.degree_mul hp hc0]
    exact hdp.trans le_self_add
  have hG : G = [d] := by
    obtain ⟨s, t, rfl⟩ := List.append_of_mem hd
    unfold LeadsIncomparable at hinc
    rw [List.pairwise_append, List.pairwise_cons] at hinc
    have hs : s = [] := List.eq_nil_iff_forall_not_mem.mpr fun g hgs =>
      (hinc.2.2 g hgs d (by simp)).2 (hall g (by simp [hgs]))
    have ht : t = [] := List.eq_nil_iff_forall_not_mem.mpr fun g hgt =>
      (hinc.2.1.1 g hgt).1 (hall g (by simp [hgt]))
    rw [hs, ht]; rfl
  refine ⟨d, hG, (hok d hd).1, ?_⟩
  rw [hG, dens_singleton] at hspan
  exact Ideal.span_singleton_eq_span_singleton.mp hspan.symm

/-- **C236** The result is a single polynomial, a least common multiple. -/
theorem C236_lcm (hO : Implements O m) (f g : Poly F)
    (hf : Poly.Clean (Fin k) f ∧ Poly.den (Fin k) f ≠ (0 : MvPolynomial (Fin k) K))
    (hg : Poly.Clean (Fin k) g ∧ Poly.den (Fin k) g ≠ (0 : MvPolynomial (Fin k) K)) :
    Spec (PolyPanic F) (polyLcm O k f g) (fun L => ∃ l, L = [l] ∧ Poly.Clean (Fin k) l ∧
      Poly.den (Fin k) l ≠ (0 : MvPolynomial (Fin k) K) ∧
      ∀ p : MvPolynomial (Fin k) K, Poly.den (Fin k) l ∣ p ↔ Poly.den (Fin k) f ∣ p ∧ Poly.den (Fin k) g ∣ p) := by
  classical
  refine (intersect_spec [f] [g] (by simpa using hf) (by simpa using hg)).bind fun H hH => ?_
  let _ : GCDMonoid (MvPolynomial (Fin k) K) := UniqueFactorizationMonoid.toGCDMonoid _
  have hl : lcm (Poly.den (Fin k) f : MvPolynomial (Fin k) K) (Poly.den (Fin k) g) ≠ 0 := lcm_ne_zero_iff.mpr ⟨hf.2, hg.2⟩
  refine (C236_principal hO H hH.1 _ hl ?_).imp ?_
  · rw [hH.2, dens_singleton, dens_singleton]
    ext p
    rw [Ideal.mem_inf, Ideal.mem_span_singleton, Ideal.mem_span_singleton, Ideal.mem_span_singleton, lcm_dvd_iff]
  · rintro L ⟨l, rfl, hc, ha⟩
    refine ⟨l, rfl, hc, fun h0 => hl (ha.eq_zero_iff.mpr h0), fun p => ?_⟩
    rw [← ha.dvd_iff_dvd_left, lcm_dvd_iff]

/-- **C236** The result is a single polynomial, a greatest common divisor. -/
theorem C236_gcd (hO : Implements O m) (f g : Poly F)
    (hf : Poly.Clean (Fin k) f ∧ Poly.den (Fin k) f ≠ (0 : MvPolynomial (Fin k) K))
    (hg : Poly.Clean (Fin k) g ∧ Poly.den (Fin k) g ≠ (0 : MvPolynomial (Fin k) K)) :
    Spec (PolyPanic F) (polyGcd O k f g) (fun D => ∃ d, D = [d] ∧ Poly.Clean (Fin k) d ∧
      ∀ p : MvPolynomial (Fin k) K, p ∣ Poly.den (Fin k) d ↔ p ∣ Poly.den (Fin k) f ∧ p ∣ Poly.den (Fin k) g) := by
  refine (C236_lcm hO f g hf hg).bind ?_
  rintro L ⟨l, rfl, hlc, hl0, hl⟩
  refine (Poly.mul_spec (E := PolyPanic F) hf.1.oks hg.1 polyPanic_allowed (Or.inl (Or.inr rfl))).bind fun fg hfg => ?_
  refine (C136_divide_one hO fg l hfg.1 hlc hl0).bind ?_
  rintro ⟨r, qs⟩ ⟨d, rfl, hdc, hrc, hr, he, -⟩
  refine ⟨d, rfl, hdc, ?_⟩
  have hr0 := hr.mpr ((hl _).mpr ⟨hfg.2 ▸ dvd_mul_right _ _, hfg.2 ▸ dvd_mul_left _ _⟩)
  rw [hr0, Poly.den_nil, add_zero, hfg.2] at he
  obtain ⟨⟨a, ha⟩, ⟨b, hb⟩⟩ := (hl _).mp (dvd_refl _)
  generalize (Poly.den (Fin k) f : MvPolynomial (Fin k) K) = f at *
  generalize (Poly.den (Fin k) g : MvPolynomial (Fin k) K) = g at *
  generalize (Poly.den (Fin k) d : MvPolynomial (Fin k) K) = d at *
  generalize (Poly.den (Fin k) l : MvPolynomial (Fin k) K) = l at *
  intro p
  constructor
  · intro hp
    constructor
    · exact hp.trans ⟨b, mul_right_cancel₀ hg.2 (by rw [he, hb]; ring)⟩
    · exact hp.trans ⟨a, mul_left_cancel₀ hf.2 (by rw [he, ha]; ring)⟩
  · rintro ⟨⟨f', hf'⟩, ⟨g', hg'⟩⟩
    obtain ⟨c, hc⟩ := (hl (p * f' * g')).mpr ⟨⟨g', by rw [hf']⟩, ⟨f', by rw [hg']; ring⟩⟩
    refine ⟨c, mul_right_cancel₀ hl0 ?_⟩
    rw [← he, mul_assoc, mul_comm c, ← hc, hf', hg']
    ring

/-- **C236** So the polynomials are coprime exactly if the result is a constant. -/
theorem C236_coprime (hO : Implements O m) (f g : Poly F)
    (hf : Poly.Clean (Fin k) f ∧ Poly.den (Fin k) f ≠ (0 : MvPolynomial (Fin k) K))
    (hg : Poly.Clean (Fin k) g ∧ Poly.den (Fin k) g ≠ (0 : MvPolynomial (Fin k) K)) :
    Spec (PolyPanic F) (polyGcd O k f g) (fun D => (∃ c : F, D = [[⟨c, []⟩]]) ↔
      IsRelPrime (Poly.den (Fin k) f : MvPolynomial (Fin k) K) (Poly.den (Fin k) g)) := by
  refine (C236_gcd hO f g hf hg).imp ?_
  rintro D ⟨d, rfl, hdc, hd⟩
  have hd' := (hd _).mp (dvd_refl _)
  have hd0 : Poly.den (Fin k) d ≠ (0 : MvPolynomial (Fin k) K) := fun h0 =>
    hf.2 (zero_dvd_iff.mp (h0 ▸ hd'.1))
  constructor
  · rintro ⟨c, hc⟩
    rw [List.cons.injEq] at hc
    obtain rfl := hc.1
    intro p hpf hpg
    have h1 := (hd p).mpr ⟨hpf, hpg⟩
    have e : (Poly.den (Fin k) [(⟨c, []⟩ : Term F)] : MvPolynomial (Fin k) K) = C (val c) := by
      rw [Poly.den_cons, Poly.den_nil, add_zero, Term.den]
      show monomial (MDeg.toF (Fin k) []) (val c : K) = _
      have : MDeg.toF (Fin k) [] = 0 := by ext i; rfl
      rw [this]; rfl
    rw [e] at h1 hd0
    exact isUnit_of_dvd_unit h1 ((isUnit_iff_ne_zero.mpr fun h => hd0 (by rw [h, map_zero])).map C)
  · intro h
    obtain ⟨u, hu⟩ := (h hd'.1 hd'.2).exists_right_inv
    have hu0 : u ≠ 0 := fun h => by rw [h, mul_zero] at hu; exact zero_ne_one hu
    have hz := m.degree_mul hd0 hu0
    rw [hu, m.degree_one] at hz
    obtain ⟨c, -, rfl⟩ := clean_const hdc hd0 (add_eq_zero.mp hz.symm).1
    exact ⟨c, rfl⟩

end

/-- `x^2 - y^2` and `x^2 - x y`: the least common multiple `x y^2 - x^3`, the greatest common divisor `-x + y`. -/
theorem C236_run : letI := Rational.field .debug
    letI := Rational.lawful
    let f : Poly Rational := [⟨⟨1, 1⟩, [2]⟩, ⟨⟨-1, 1⟩, [0, 2]⟩]
    let g : Poly Rational := [⟨⟨1, 1⟩, [2]⟩, ⟨⟨-1, 1⟩, [1, 1]⟩]
    (∀ p ∈ [f, g], Poly.Clean (Fin 2) p ∧ Poly.den (Fin 2) p ≠ (0 : MvPolynomial (Fin 2) ℚ)) ∧
    polyLcm (OrdKind.lex.order .debug) 2 f g = .ok [[⟨⟨1, 1⟩, [1, 2]⟩, ⟨⟨-1, 1⟩, [3]⟩]] ∧
    polyGcd (OrdKind.lex.order .debug) 2 f g = .ok [[⟨⟨-1, 1⟩, [1]⟩, ⟨⟨1, 1⟩, [0, 1]⟩]] := by
  let _ := Rational.field .debug
  intro f g
  have hl : polyLcm (OrdKind.lex.order .debug) 2 f g = .ok [[⟨⟨1, 1⟩, [1, 2]⟩, ⟨⟨-1, 1⟩, [3]⟩]] := by
    refine bind_eq_ok.mpr ⟨[[⟨⟨1, 1⟩, [1, 2]⟩, ⟨⟨-1, 1⟩, [3]⟩]],
      bind_eq_ok.mpr ⟨[[⟨⟨1, 1⟩, [2, 0, 1]⟩, ⟨⟨-1, 1⟩, [0, 2, 1]⟩]], by decide +kernel,
        bind_eq_ok.mpr ⟨[[⟨⟨1, 1⟩, [2]⟩, ⟨⟨-1, 1⟩, [1, 1]⟩, ⟨⟨-1, 1⟩, [2, 0, 1]⟩, ⟨⟨1, 1⟩, [1, 1, 1]⟩]], by decide +kernel,
          bind_eq_ok.mpr ⟨[[⟨⟨1, 1⟩, [2, 0, 1]⟩, ⟨⟨-1, 1⟩, [0, 2, 1]⟩],
            [⟨⟨1, 1⟩, [2]⟩, ⟨⟨-1, 1⟩, [1, 1]⟩, ⟨⟨-1, 1⟩, [2, 0, 1]⟩, ⟨⟨1, 1⟩, [1, 1, 1]⟩],
            [⟨⟨1, 1⟩, [1, 2]⟩, ⟨⟨-1, 1⟩, [3]⟩]],
            (Computer.buchbergerAlgorithmN_approx 60 _).eq (by decide +kernel) (by simp), by decide +kernel⟩⟩⟩, ?_⟩
    exact (Computer.buchbergerAlgorithmN_approx 60 _).eq (by decide +kernel) (by simp)
  refine ⟨sampleGens (k := 2) (by decide), hl, bind_eq_ok.mpr ⟨_, hl,
    bind_eq_ok.mpr ⟨[⟨⟨1, 1⟩, [4]⟩, ⟨⟨-1, 1⟩, [3, 1]⟩, ⟨⟨-1, 1⟩, [2, 2]⟩, ⟨⟨1, 1⟩, [1, 3]⟩], by decide +kernel,
      bind_eq_ok.mpr ⟨([], [[⟨⟨-1, 1⟩, [1]⟩, ⟨⟨1, 1⟩, [0, 1]⟩]]),
        (Computer.divideN_approx 60 _ _).eq (by decide +kernel) (by simp), rfl⟩⟩⟩⟩

end Verif
