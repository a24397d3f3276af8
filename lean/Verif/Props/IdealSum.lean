import Verif.Props.IdealOps
import Verif.Proofs.Run

/-!
# Property C215: sums, products and powers of ideals
-/

namespace Verif
open Res MvPolynomial LawfulRField MOrder

section
variable {F : Type} [RField F]

/-- The products of the elements of two lists, each computed with `*`. -/
def products (fs gs : List (Poly F)) : Res (List (Poly F)) := do
  let l ← fs.mapM fun f => gs.mapM fun g => Poly.mul f g
  pure l.flatten

/-- A basis of the sum of two ideals. -/
def idealSum (O : MOrder) (fs gs : List (Poly F)) : Res (List (Poly F)) :=
  Computer.buchbergerAlgorithm O (fs ++ gs)

/-- A basis of the product of two ideals. -/
def idealMul (O : MOrder) (fs gs : List (Poly F)) : Res (List (Poly F)) := do
  let l ← products fs gs
  Computer.buchbergerAlgorithm O l

/-- A basis of the `e`-th power of an ideal. -/
def idealPow (O : MOrder) (fs : List (Poly F)) : ℕ → Res (List (Poly F))
  | 0 => Computer.buchbergerAlgorithm O [Poly.one]
  | e + 1 => do
    let l ← idealPow O fs e
    idealMul O l fs

variable {K : Type} [Field K] [LawfulRField F K] {n : ℕ} {O : MOrder} {m : MonomialOrder (Fin n)}

/-- What is proved of a basis of the ideal `I`: it generates `I` and is a Gröbner basis. -/
def IsBasisOf (m : MonomialOrder (Fin n)) (I : Ideal (MvPolynomial (Fin n) K)) (G : List (Poly F)) : Prop :=
  (∀ g ∈ G, Poly.Clean (Fin n) g ∧ Poly.den (Fin n) g ≠ (0 : MvPolynomial (Fin n) K)) ∧
  Ideal.span (dens (Fin n) G) = I ∧
  ∀ f ∈ I, f ≠ 0 → ∃ g ∈ G, m.degree (Poly.den (Fin n) g : MvPolynomial (Fin n) K) ≤ m.degree f

theorem basis_spec (hO : Implements O m) (gens : List (Poly F))
    (hg : ∀ g ∈ gens, Poly.Clean (Fin n) g ∧ Poly.den (Fin n) g ≠ (0 : MvPolynomial (Fin n) K)) :
    Spec (PolyPanic F) (Computer.buchbergerAlgorithm O gens) (IsBasisOf m (Ideal.span (dens (Fin n) gens))) :=
  (Spec.and (C43_ideal hO gens hg) (C44_groebner hO gens hg)).imp fun _ h => ⟨h.1.1, h.1.2, h.2⟩

theorem products_spec (fs gs : List (Poly F))
    (hf : ∀ g ∈ fs, Poly.Clean (Fin n) g ∧ Poly.den (Fin n) g ≠ (0 : MvPolynomial (Fin n) K))
    (hg : ∀ g ∈ gs, Poly.Clean (Fin n) g ∧ Poly.den (Fin n) g ≠ (0 : MvPolynomial (Fin n) K)) :
    Spec (PolyPanic F) (products fs gs) (fun l =>
      (∀ g ∈ l, Poly.Clean (Fin n) g ∧ Poly.den (Fin n) g ≠ (0 : MvPolynomial (Fin n) K)) ∧
      Ideal.span (dens (Fin n) l) =
        Ideal.span (dens (Fin n) fs) * Ideal.span (dens (Fin n) gs : Set (MvPolynomial (Fin n) K))) := by
  refine (mapM_spec (P := fun f => List.Forall₂ (fun g r => Poly.Clean (Fin n) r ∧
    (Poly.den (Fin n) r : MvPolynomial (Fin n) K) = Poly.den (Fin n) f * Poly.den (Fin n) g) gs)
    fun f hfm => mapM_spec fun g hgm => ?_).bind fun l hl => ?_
  · exact Poly.mul_spec (hf f hfm).1.oks (hg g hgm).1 (fun _ => Or.inl) (Or.inl (Or.inr rfl))
  · have hto : ∀ r ∈ l.flatten, ∃ f ∈ fs, ∃ g ∈ gs, Poly.Clean (Fin n) r ∧
        (Poly.den (Fin n) r : MvPolynomial (Fin n) K) = Poly.den (Fin n) f * Poly.den (Fin n) g := by
      intro r hr
      obtain ⟨a, ha, hra⟩ := List.mem_flatten.mp hr
      obtain ⟨f, hfm, h⟩ := forall₂_mem_right hl ha
      obtain ⟨g, hgm, h⟩ := forall₂_mem_right h hra
      exact ⟨f, hfm, g, hgm, h⟩
    refine ⟨fun r hr => ?_, ?_⟩
    · obtain ⟨f, hfm, g, hgm, h1, h2⟩ := hto r hr
      exact ⟨h1, h2 ▸ mul_ne_zero (hf f hfm).2 (hg g hgm).2⟩
    · rw [Ideal.span_mul_span']
      congr 1
      ext x
      constructor
      · rintro ⟨r, hr, rfl⟩
        obtain ⟨f, hfm, g, hgm, -, h2⟩ := hto r hr
        exact ⟨_, ⟨f, hfm, rfl⟩, _, ⟨g, hgm, rfl⟩, h2.symm⟩
      · rintro ⟨_, ⟨f, hfm, rfl⟩, _, ⟨g, hgm, rfl⟩, rfl⟩
        obtain ⟨a, ha, h⟩ := forall₂_mem_right hl.flip hfm
        obtain ⟨r, hr, h⟩ := forall₂_mem_right h.flip hgm
        exact ⟨r, List.mem_flatten.mpr ⟨a, ha, hr⟩, h.2.symm⟩

/-- C215, sums. -/
theorem C215_sum (hO : Implements O m) (fs gs : List (Poly F))
    (hf : ∀ g ∈ fs, Poly.Clean (Fin n) g ∧ Poly.den (Fin n) g ≠ (0 : MvPolynomial (Fin n) K))
    (hg : ∀ g ∈ gs, Poly.Clean (Fin n) g ∧ Poly.den (Fin n) g ≠ (0 : MvPolynomial (Fin n) K)) :
    Spec (PolyPanic F) (idealSum O fs gs)
      (IsBasisOf m (Ideal.span (dens (Fin n) fs) ⊔ Ideal.span (dens (Fin n) gs))) := by
  have := basis_spec hO (fs ++ gs) fun g h => (List.mem_append.mp h).elim (hf g) (hg g)
  rwa [dens_append, Ideal.span_union] at this

/-- C215, products. -/
theorem C215_product (hO : Implements O m) (fs gs : List (Poly F))
    (hf : ∀ g ∈ fs, Poly.Clean (Fin n) g ∧ Poly.den (Fin n) g ≠ (0 : MvPolynomial (Fin n) K))
    (hg : ∀ g ∈ gs, Poly.Clean (Fin n) g ∧ Poly.den (Fin n) g ≠ (0 : MvPolynomial (Fin n) K)) :
    Spec (PolyPanic F) (idealMul O fs gs)
      (IsBasisOf m (Ideal.span (dens (Fin n) fs) * Ideal.span (dens (Fin n) gs))) :=
  (products_spec fs gs hf hg).bind fun l hl => hl.2 ▸ basis_spec hO l hl.1

/-- C215, powers. -/
theorem C215_power (hO : Implements O m) (fs : List (Poly F))
    (hf : ∀ g ∈ fs, Poly.Clean (Fin n) g ∧ Poly.den (Fin n) g ≠ (0 : MvPolynomial (Fin n) K)) (e : ℕ) :
    Spec (PolyPanic F) (idealPow O fs e) (IsBasisOf m (Ideal.span (dens (Fin n) fs) ^ e)) := by
  induction e with
  | zero =>
    have hd : (Poly.den (Fin n) (Poly.one : Poly F) : MvPolynomial (Fin n) K) = 1 := by
      simp [Poly.one, Poly.termUnchecked, Poly.newUnchecked, Term.den_one]
    have := basis_spec (n := n) hO [(Poly.one : Poly F)] (by
      simp only [List.mem_singleton, forall_eq]
      exact ⟨Poly.clean_singleton.mpr Term.one_clean, by rw [hd]; exact one_ne_zero⟩)
    rw [dens_singleton, hd, Ideal.span_singleton_one] at this
    rwa [pow_zero, Ideal.one_eq_top]
  | succ e ih =>
    refine ih.bind fun G hG => ?_
    have := C215_product hO G fs hG.1 hf
    rwa [hG.2.1, ← pow_succ] at this

end

section
def xPlusOne : Poly Rational := [⟨⟨1, 1⟩, [1]⟩, ⟨⟨1, 1⟩, []⟩]
def onlyY : Poly Rational := [⟨⟨1, 1⟩, [0, 1]⟩]

/-- The square of the ideal of `x + 1` and `y`: `x² + 2 x + 1`, `x y + y` and `y²`. -/
theorem C215_run : letI := Rational.field .debug
    idealMul (OrdKind.lex.order .debug) [xPlusOne, onlyY] [xPlusOne, onlyY] =
      .ok [[⟨⟨1, 1⟩, [2]⟩, ⟨⟨2, 1⟩, [1]⟩, ⟨⟨1, 1⟩, []⟩], [⟨⟨1, 1⟩, [1, 1]⟩, ⟨⟨1, 1⟩, [0, 1]⟩], [⟨⟨1, 1⟩, [0, 2]⟩]] := by
  let _ := Rational.field .debug
  exact bind_eq_ok.mpr ⟨[[⟨⟨1, 1⟩, [2]⟩, ⟨⟨2, 1⟩, [1]⟩, ⟨⟨1, 1⟩, []⟩], [⟨⟨1, 1⟩, [1, 1]⟩, ⟨⟨1, 1⟩, [0, 1]⟩],
    [⟨⟨1, 1⟩, [1, 1]⟩, ⟨⟨1, 1⟩, [0, 1]⟩], [⟨⟨1, 1⟩, [0, 2]⟩]], by decide +kernel,
    (Computer.buchbergerAlgorithmN_approx 30 _).eq (by decide +kernel) (by simp)⟩

example : letI := Rational.field .debug
    letI := Rational.lawful
    ∀ g ∈ [xPlusOne, onlyY], Poly.Clean (Fin 2) g ∧ Poly.den (Fin 2) g ≠ (0 : MvPolynomial (Fin 2) ℚ) :=
  sampleGens (k := 2) (by decide)

end
end Verif
