import Verif.Props.ZeroSets
import Mathlib.RingTheory.Ideal.Colon

/-!
# Property C238: quotients and saturations by ideals, differences of sets of solutions

The programs use those of C134, C135 and C137; `x_k` is a variable that does not occur in the arguments.
-/

namespace Verif
open Res MvPolynomial LawfulRField

section
variable {F : Type} [RField F]

/-- Generators of the quotient of the ideal of `gens` by the ideal of the second list. -/
def quotientAll (O : MOrder) (k : ℕ) (gens : List (Poly F)) : List (Poly F) → Res (List (Poly F))
  | [] => pure [Poly.one]
  | g :: gs => do
    let A ← quotientBy O k gens g
    let B ← quotientAll O k gens gs
    intersect k A B

/-- Generators of the saturation of the ideal of `gens` by the ideal of the second list. -/
def saturateAll (k : ℕ) (gens : List (Poly F)) : List (Poly F) → Res (List (Poly F))
  | [] => pure [Poly.one]
  | g :: gs => do
    let A ← saturate k gens g
    let B ← saturateAll k gens gs
    intersect k A B

end

section
variable {F : Type} [RField F] {K : Type} [Field K] [LawfulRField F K] {k : ℕ}

theorem saturate_ne (gens : List (Poly F)) (f : Poly F)
    (hg : ∀ g ∈ gens, Poly.Clean (Fin k) g ∧ Poly.den (Fin k) g ≠ (0 : MvPolynomial (Fin k) K))
    (hf : Poly.Clean (Fin k) f) :
    Spec (PolyPanic F) (saturate k gens f) (fun H => ∀ h ∈ H, Poly.den (Fin k) h ≠ (0 : MvPolynomial (Fin k) K)) := by
  unfold saturate rabinowitsch
  rw [bind_assoc]
  refine (rabinowitsch_gens hg hf).bind fun h hh => ?_
  exact (eliminate_last _ hh.1).bind fun G hG => hG.2.2

theorem quotientBy_ne {O : MOrder} {m : MonomialOrder (Fin k)} (hO : Implements O m)
    (gens : List (Poly F)) (f : Poly F)
    (hg : ∀ g ∈ gens, Poly.Clean (Fin k) g ∧ Poly.den (Fin k) g ≠ (0 : MvPolynomial (Fin k) K))
    (hf : Poly.Clean (Fin k) f ∧ Poly.den (Fin k) f ≠ (0 : MvPolynomial (Fin k) K)) :
    Spec (PolyPanic F) (quotientBy O k gens f) (fun Q => ∀ q ∈ Q, Poly.den (Fin k) q ≠ (0 : MvPolynomial (Fin k) K)) := by
  refine (intersect_spec gens [f] hg (by simpa using hf)).bind fun H hH => ?_
  refine (mapM_spec (P := fun h q => Poly.den (Fin k) q ≠ (0 : MvPolynomial (Fin k) K))
    fun h hm => ?_).imp fun Q hQ q hq => ?_
  · have hdvd : (Poly.den (Fin k) f : MvPolynomial (Fin k) K) ∣ Poly.den (Fin k) h := by
      have : (Poly.den (Fin k) h : MvPolynomial (Fin k) K) ∈ Ideal.span (dens (Fin k) H) :=
        Ideal.subset_span ⟨h, hm, rfl⟩
      rw [hH.2, Ideal.mem_inf, dens_singleton, Ideal.mem_span_singleton] at this
      exact this.2
    refine (C136_divide_one hO h f (hH.1 h hm).1 hf.1 hf.2).bind ?_
    rintro ⟨r, qs⟩ ⟨q, hqs, hq, hr, hz, he, -⟩
    subst hqs
    intro h0
    refine (hH.1 h hm).2 ?_
    rw [he, h0, zero_mul, zero_add, hz.mpr hdvd, Poly.den_nil]
  · obtain ⟨h, -, hq⟩ := forall₂_mem_right hQ hq
    exact hq

theorem mem_span_one (p : MvPolynomial (Fin k) K) :
    p ∈ Ideal.span (dens (Fin k) [(Poly.one : Poly F)] : Set (MvPolynomial (Fin k) K)) := by
  rw [dens_singleton, one_clean_den.2, Ideal.span_singleton_one]
  trivial

theorem one_ok : ∀ h ∈ [(Poly.one : Poly F)], Poly.Clean (Fin k) h ∧
    Poly.den (Fin k) h ≠ (0 : MvPolynomial (Fin k) K) := by
  intro h hh
  rw [List.mem_singleton.mp hh, one_clean_den.2]
  exact ⟨one_clean_den (K := K).1, one_ne_zero⟩

theorem quotientAll_spec {O : MOrder} {m : MonomialOrder (Fin k)} (hO : Implements O m)
    (gens gs : List (Poly F))
    (hg : ∀ g ∈ gens, Poly.Clean (Fin k) g ∧ Poly.den (Fin k) g ≠ (0 : MvPolynomial (Fin k) K))
    (hgs : ∀ g ∈ gs, Poly.Clean (Fin k) g ∧ Poly.den (Fin k) g ≠ (0 : MvPolynomial (Fin k) K)) :
    Spec (PolyPanic F) (quotientAll O k gens gs) (fun H => (∀ h ∈ H, Poly.Clean (Fin k) h ∧
        Poly.den (Fin k) h ≠ (0 : MvPolynomial (Fin k) K)) ∧
      ∀ p : MvPolynomial (Fin k) K, p ∈ Ideal.span (dens (Fin k) H) ↔
        ∀ g ∈ gs, Poly.den (Fin k) g * p ∈ Ideal.span (dens (Fin k) gens)) := by
  induction gs with
  | nil => exact ⟨one_ok, fun p => ⟨fun _ g hg => (by cases hg), fun _ => mem_span_one p⟩⟩
  | cons g gs ih =>
    refine ((C137_quotient hO gens g hg (hgs g (by simp))).and (quotientBy_ne hO gens g hg (hgs g (by simp)))).bind ?_
    rintro A ⟨⟨hA1, hA⟩, hA2⟩
    refine (ih fun g h => hgs g (by simp [h])).bind fun B ⟨hB1, hB⟩ => ?_
    refine (intersect_spec A B (fun h hh => ⟨hA1 h hh, hA2 h hh⟩) hB1).imp fun H ⟨hH1, hH⟩ => ⟨hH1, fun p => ?_⟩
    rw [hH, Ideal.mem_inf, hA, hB, List.forall_mem_cons]

/-- **C238** The result generates the quotient of the ideals. -/
theorem C238_quotient {O : MOrder} {m : MonomialOrder (Fin k)} (hO : Implements O m)
    (gens gs : List (Poly F))
    (hg : ∀ g ∈ gens, Poly.Clean (Fin k) g ∧ Poly.den (Fin k) g ≠ (0 : MvPolynomial (Fin k) K))
    (hgs : ∀ g ∈ gs, Poly.Clean (Fin k) g ∧ Poly.den (Fin k) g ≠ (0 : MvPolynomial (Fin k) K)) :
    Spec (PolyPanic F) (quotientAll O k gens gs) (fun H => (∀ h ∈ H, Poly.Clean (Fin k) h) ∧
      ∀ p : MvPolynomial (Fin k) K, p ∈ Ideal.span (dens (Fin k) H) ↔
        ∀ q ∈ Ideal.span (dens (Fin k) gs), q * p ∈ Ideal.span (dens (Fin k) gens)) := by
  refine (quotientAll_spec hO gens gs hg hgs).imp fun H hH => ⟨fun h hh => (hH.1 h hh).1, fun p => ?_⟩
  rw [hH.2]
  constructor
  · intro h q hq
    induction hq using Submodule.span_induction with
    | mem x hx => obtain ⟨g, hgm, rfl⟩ := hx; exact h g hgm
    | zero => rw [zero_mul]; exact Ideal.zero_mem _
    | add x y _ _ hx hy => rw [add_mul]; exact Ideal.add_mem _ hx hy
    | smul a x _ hx => rw [smul_eq_mul, mul_assoc]; exact Ideal.mul_mem_left _ _ hx
  · exact fun h g hgm => h _ (Ideal.subset_span (mem_dens hgm))

theorem saturateAll_spec (gens gs : List (Poly F))
    (hg : ∀ g ∈ gens, Poly.Clean (Fin k) g ∧ Poly.den (Fin k) g ≠ (0 : MvPolynomial (Fin k) K))
    (hgs : ∀ g ∈ gs, Poly.Clean (Fin k) g) :
    Spec (PolyPanic F) (saturateAll k gens gs) (fun H => (∀ h ∈ H, Poly.Clean (Fin k) h ∧
        Poly.den (Fin k) h ≠ (0 : MvPolynomial (Fin k) K)) ∧
      ∀ p : MvPolynomial (Fin k) K, p ∈ Ideal.span (dens (Fin k) H) ↔
        ∀ g ∈ gs, ∃ N : ℕ, Poly.den (Fin k) g ^ N * p ∈ Ideal.span (dens (Fin k) gens)) := by
  induction gs with
  | nil => exact ⟨one_ok, fun p => ⟨fun _ g hg => (by cases hg), fun _ => mem_span_one p⟩⟩
  | cons g gs ih =>
    refine ((C134_saturation gens g hg (hgs g (by simp))).and (saturate_ne gens g hg (hgs g (by simp)))).bind ?_
    rintro A ⟨⟨hA1, hA⟩, hA2⟩
    refine (ih fun g h => hgs g (by simp [h])).bind fun B ⟨hB1, hB⟩ => ?_
    refine (intersect_spec A B (fun h hh => ⟨hA1 h hh, hA2 h hh⟩) hB1).imp fun H ⟨hH1, hH⟩ => ⟨hH1, fun p => ?_⟩
    rw [hH, Ideal.mem_inf, hA, hB, List.forall_mem_cons]

/-- **C238** The result generates the saturation: the polynomials whose product with every element of some power of the
second ideal lies in the first. -/
theorem C238_saturation (gens gs : List (Poly F))
    (hg : ∀ g ∈ gens, Poly.Clean (Fin k) g ∧ Poly.den (Fin k) g ≠ (0 : MvPolynomial (Fin k) K))
    (hgs : ∀ g ∈ gs, Poly.Clean (Fin k) g) :
    Spec (PolyPanic F) (saturateAll k gens gs) (fun H => (∀ h ∈ H, Poly.Clean (Fin k) h) ∧
      ∀ p : MvPolynomial (Fin k) K, p ∈ Ideal.span (dens (Fin k) H) ↔
        ∃ N : ℕ, ∀ q ∈ Ideal.span (dens (Fin k) gs) ^ N, q * p ∈ Ideal.span (dens (Fin k) gens)) := by
  refine (saturateAll_spec gens gs hg hgs).imp fun H hH => ⟨fun h hh => (hH.1 h hh).1, fun p => ?_⟩
  rw [hH.2]
  constructor
  · intro h
    let J : Ideal (MvPolynomial (Fin k) K) := 
      Submodule.comap (LinearMap.mulRight (MvPolynomial (Fin k) K) p) (Ideal.span (dens (Fin k) gens))
    have hJ : Ideal.span (dens (Fin k) gs) ≤ J.radical := by
      rw [Ideal.span_le]
      rintro _ ⟨g, hgm, rfl⟩
      exact h g hgm
    obtain ⟨N, hN⟩ := Ideal.exists_pow_le_of_le_radical_of_fg hJ (IsNoetherian.noetherian _)
    exact ⟨N, fun q hq => hN hq⟩
  · rintro ⟨N, hN⟩ g hgm
    exact ⟨N, hN _ (Ideal.pow_mem_pow (Ideal.subset_span (mem_dens hgm)) N)⟩

/-- **C238** The solutions of the result are the smallest set given by equations over the field that contains the
solutions of `gens` that do not solve `gs`. -/
theorem C238_difference (gens gs : List (Poly F))
    (hg : ∀ g ∈ gens, Poly.Clean (Fin k) g ∧ Poly.den (Fin k) g ≠ (0 : MvPolynomial (Fin k) K))
    (hgs : ∀ g ∈ gs, Poly.Clean (Fin k) g) :
    Spec (PolyPanic F) (saturateAll k gens gs) (fun H => ∀ c : Fin k → AlgebraicClosure K, c ∈ zeros K k H ↔
      ∀ q : MvPolynomial (Fin k) K, (∀ a ∈ zeros K k gens \ zeros K k gs, aeval a q = 0) → aeval c q = 0) := by
  refine (saturateAll_spec gens gs hg hgs).imp fun H hH c => ?_
  rw [zeros_eq H, zeros_eq gens]
  constructor
  · intro hc q hq
    have hI : ∀ g ∈ gs, Poly.den (Fin k) g * q ∈
        (Ideal.span (dens (Fin k) gens : Set (MvPolynomial (Fin k) K))).radical := by
      intro g hgm
      rw [← vanishingIdeal_zeroLocus_eq_radical (K := AlgebraicClosure K), mem_vanishingIdeal_iff]
      intro a ha
      rw [map_mul]
      by_cases h0 : aeval a (Poly.den (Fin k) g : MvPolynomial (Fin k) K) = 0
      · rw [h0, zero_mul]
      · rw [hq a ⟨ha, fun h => h0 (h g hgm)⟩, mul_zero]
    have hN : ∃ N : ℕ, ∀ g ∈ gs, ∃ M : ℕ, Poly.den (Fin k) g ^ M * q ^ N ∈
        Ideal.span (dens (Fin k) gens : Set (MvPolynomial (Fin k) K)) := by
      clear hq hH hgs
      induction gs with
      | nil => exact ⟨0, fun g hg => by cases hg⟩
      | cons g gs ih =>
        obtain ⟨N, hN⟩ := ih fun g h => hI g (by simp [h])
        obtain ⟨M, hM⟩ := hI g (by simp)
        rw [mul_pow] at hM
        refine ⟨M + N, fun g' hg' => ?_⟩
        rcases List.mem_cons.mp hg' with rfl | hg'
        · exact ⟨M, by rw [pow_add, ← mul_assoc]; exact Ideal.mul_mem_right _ _ hM⟩
        · obtain ⟨M', h'⟩ := hN g' hg'
          exact ⟨M', by rw [pow_add, mul_left_comm]; exact Ideal.mul_mem_left _ _ h'⟩
    obtain ⟨N, hN⟩ := hN
    have := hc _ ((hH.2 (q ^ N)).mpr hN)
    rw [map_pow] at this
    exact eq_zero_of_pow_eq_zero this
  · intro h p hp
    refine h p fun a ha => ?_
    obtain ⟨ha, hna⟩ := ha
    obtain ⟨g, hgm, h0⟩ : ∃ g ∈ gs, aeval a (Poly.den (Fin k) g : MvPolynomial (Fin k) K) ≠ 0 := by
      by_contra hc
      push Not at hc
      exact hna hc
    obtain ⟨N, hN⟩ := (hH.2 p).mp hp g hgm
    have := ha _ hN
    rw [map_mul, map_pow] at this
    exact (mul_eq_zero.mp this).resolve_left (pow_ne_zero N h0)

end

/-! ### Runs -/

section
variable {F : Type} [RField F]

/-- `intersect`, `saturate` and `saturateAll` with loops of at most `N` iterations, for computing. -/
def intersectN (N k : ℕ) (gens₁ gens₂ : List (Poly F)) : Res (List (Poly F)) := do
  let a ← gens₁.mapM fun g => Poly.mul (Poly.var k 1) g
  let b ← gens₂.mapM fun g => do
    let tg ← Poly.mul (Poly.var k 1) g
    Poly.sub g tg
  let G ← Computer.buchbergerAlgorithmN N (OrdKind.revLex.order .debug) (a ++ b)
  pure (withoutVar k G)

def saturateAllN (N k : ℕ) (gens : List (Poly F)) : List (Poly F) → Res (List (Poly F))
  | [] => pure [Poly.one]
  | g :: gs => do
    let h ← oneMinusVarMul k g
    let G ← Computer.buchbergerAlgorithmN N (OrdKind.revLex.order .debug) (gens ++ [h])
    let B ← saturateAllN N k gens gs
    intersectN N k (withoutVar k G) B

theorem intersectN_eq {N k : ℕ} {A B H : List (Poly F)} (h : intersectN N k A B = .ok H) : intersect k A B = .ok H := by
  obtain ⟨a, ha, h⟩ := bind_eq_ok.mp h
  obtain ⟨b, hb, h⟩ := bind_eq_ok.mp h
  obtain ⟨G, hG, h⟩ := bind_eq_ok.mp h
  exact bind_eq_ok.mpr ⟨a, ha, bind_eq_ok.mpr ⟨b, hb, bind_eq_ok.mpr ⟨G,
    (Computer.buchbergerAlgorithmN_approx N _).eq hG (by simp), h⟩⟩⟩

theorem saturateAllN_eq {N k : ℕ} {gens gs H : List (Poly F)} (h : saturateAllN N k gens gs = .ok H) :
    saturateAll k gens gs = .ok H := by
  induction gs generalizing H with
  | nil => exact h
  | cons g gs ih =>
    obtain ⟨t, ht, h⟩ := bind_eq_ok.mp h
    obtain ⟨G, hG, h⟩ := bind_eq_ok.mp h
    obtain ⟨B, hB, h⟩ := bind_eq_ok.mp h
    exact bind_eq_ok.mpr ⟨withoutVar k G, bind_eq_ok.mpr ⟨G, bind_eq_ok.mpr ⟨t, ht,
      (Computer.buchbergerAlgorithmN_approx N _).eq hG (by simp)⟩, rfl⟩, bind_eq_ok.mpr ⟨B, ih hB, intersectN_eq h⟩⟩

end

/-- The solutions of `x^2 y` and `x y^2` without the origin, and without those with `x = 0`: the ideals `(x y)` and
`(y)`. -/
theorem C238_run : letI := Rational.field .debug
    letI := Rational.lawful
    let gens : List (Poly Rational) := [[⟨⟨1, 1⟩, [2, 1]⟩], [⟨⟨1, 1⟩, [1, 2]⟩]]
    (∀ g ∈ gens ++ [opX, opY], Poly.Clean (Fin 2) g ∧ Poly.den (Fin 2) g ≠ (0 : MvPolynomial (Fin 2) ℚ)) ∧
    saturateAll 2 gens [opX, opY] = .ok [opXY] ∧ saturateAll 2 gens [opX] = .ok [opY] := by
  let _ := Rational.field .debug
  exact ⟨sampleGens (k := 2) (by decide), saturateAllN_eq (N := 60) (by decide +kernel),
    saturateAllN_eq (N := 60) (by decide +kernel)⟩

end Verif
