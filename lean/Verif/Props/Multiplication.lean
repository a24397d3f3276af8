import Verif.Props.Count
import Mathlib.FieldTheory.Minpoly.IsConjRoot
import Mathlib.LinearAlgebra.Matrix.Charpoly.Eigs
import Mathlib.FieldTheory.IsAlgClosed.Spectrum
import Mathlib.RingTheory.Norm.Defs

/-!
# Properties C177 and C178: independent variables, multiplication matrices

Conventions as in `Props/Comp.lean`.
-/

namespace Verif
open Res MvPolynomial LawfulRField

section
variable {F : Type} [RField F] {K : Type} [Field K] [LawfulRField F K]
variable {n : ℕ} {O : MOrder} {m : MonomialOrder (Fin n)}

/-- C177. If no leading monomial of the result of `buchberger_algorithm` involves only variables from
`S`, no nonzero polynomial in these variables lies in the ideal. -/
theorem C177_independent (hO : Implements O m) (gens : List (Poly F))
    (hg : ∀ g ∈ gens, Poly.Clean (Fin n) g ∧ Poly.den (Fin n) g ≠ 0) (S : Set (Fin n)) :
    Spec (PolyPanic F) (Computer.buchbergerAlgorithm O gens) (fun G =>
      (∀ g ∈ G, ∃ i ∉ S, m.degree (Poly.den (Fin n) g : MvPolynomial (Fin n) K) i ≠ 0) →
      ∀ f ∈ Ideal.span (dens (Fin n) gens : Set (MvPolynomial (Fin n) K)), f ∈ supported K S → f = 0) := by
  refine (algorithm_spec hO gens hg (fun _ => True) trivial fun _ _ => trivial).imp fun G h hS f hf hs => ?_
  by_contra hne
  obtain ⟨_, ⟨g, hgm, rfl⟩, _, hle⟩ := h.2.1.2 _ hf hne
  obtain ⟨i, hi, h0⟩ := hS g hgm
  refine hi (mem_supported_iff.mp hs _ (m.degree_mem_support hne) i ?_)
  have := hle i
  omega

/-- C177. With `Lex` and the variables `x_k, …, x_{n-1}` this is an equivalence. -/
theorem C177_lex (gens : List (Poly F))
    (hg : ∀ g ∈ gens, Poly.Clean (Fin n) g ∧ Poly.den (Fin n) g ≠ 0) (k : ℕ) :
    Spec (PolyPanic F) (Computer.buchbergerAlgorithm (OrdKind.lex.order .debug) gens) (fun G =>
      (∀ g ∈ G, ∃ i : Fin n, i.val < k ∧
        (OrdKind.lex.mathlib n).degree (Poly.den (Fin n) g : MvPolynomial (Fin n) K) i ≠ 0) ↔
      ∀ f ∈ Ideal.span (dens (Fin n) gens : Set (MvPolynomial (Fin n) K)),
        f ∈ supported K {i : Fin n | k ≤ i.val} → f = 0) := by
  refine ((algorithm_spec (OrdKind.implements .lex n) gens hg (fun _ => True) trivial
    fun _ _ => trivial).and (C177_independent (OrdKind.implements .lex n) gens hg
      {i : Fin n | k ≤ i.val})).imp fun G ⟨h, h1⟩ => ⟨fun h2 => h1 fun g hgm => ?_, fun h2 g hgm => ?_⟩
  · obtain ⟨i, hi, h0⟩ := h2 g hgm
    exact ⟨i, by simp only [Set.mem_ofPred_eq]; omega, h0⟩
  · by_contra hno
    push Not at hno
    refine h.1.den_ne hgm (h2 _ (h.2.1.1 (mem_dens hgm)) (mem_supported_iff.mpr fun e he j hj => ?_))
    refine lex_eliminates k e _ ((OrdKind.lex.mathlib n).le_degree he) (fun i hi => ?_) j hj
    by_contra hlt
    exact hi (hno i (not_le.mp hlt))

end

/-- The ideal of `x y` has no nonzero element in `y` alone. -/
example : letI := Rational.field .debug
    letI := Rational.lawful
    ∃ gens : List (Poly Rational), (∀ g ∈ gens, Poly.Clean (Fin 2) g ∧
        Poly.den (Fin 2) g ≠ (0 : MvPolynomial (Fin 2) ℚ)) ∧
      Computer.buchbergerAlgorithm (OrdKind.lex.order .debug) gens = .ok gens ∧ gens ≠ [] ∧
      ∀ g ∈ gens, ∃ i ∉ ({1} : Set (Fin 2)),
        (OrdKind.lex.mathlib 2).degree (Poly.den (Fin 2) g : MvPolynomial (Fin 2) ℚ) i ≠ 0 := by
  let _ := Rational.field .debug
  let _ := Rational.lawful
  have h1 : (val (⟨1, 1⟩ : Rational) : ℚ) = 1 := by change ((1 : Int) : ℚ) / ((1 : Int) : ℚ) = 1; norm_num
  refine ⟨[[⟨⟨1, 1⟩, [1, 1]⟩]], sampleGens (by decide),
    (Computer.buchbergerAlgorithmN_approx 20 _).eq (by decide +kernel) (by simp), by simp, fun g hg => ?_⟩
  rw [List.mem_singleton.mp hg, Poly.den_cons, Poly.den_nil, add_zero, Term.den, h1,
    MonomialOrder.degree_monomial, if_neg one_ne_zero]
  exact ⟨0, by simp, by rw [MDeg.toF_apply]; decide⟩

/-! ### Multiplication matrices -/

/-- The values of an element of a finite algebra at the homomorphisms to an algebraic closure are the
eigenvalues of multiplication by it. -/
theorem eigenvalues_lmul {K A : Type} [Field K] [CommRing A] [Algebra K A] [Module.Finite K A] {D : ℕ}
    (B : Module.Basis (Fin D) K A) (x : A) (c : AlgebraicClosure K) :
    ((Algebra.leftMulMatrix B x).map (algebraMap K (AlgebraicClosure K))).charpoly.IsRoot c ↔
      ∃ φ : A →ₐ[K] AlgebraicClosure K, φ x = c := by
  let L := AlgebraicClosure K
  have hc : IsIntegral K c := Algebra.IsIntegral.isIntegral c
  rw [Matrix.charpoly_map]
  constructor
  · intro h
    -- the minimal polynomial of `c` at `x` is not a unit
    have hnu : ¬ IsUnit (Polynomial.aeval x (minpoly K c)) := by
      intro hu
      have h1 : IsUnit (Algebra.leftMulMatrix B (Polynomial.aeval x (minpoly K c))) := hu.map _
      rw [← Polynomial.aeval_algHom_apply] at h1
      set M := Algebra.leftMulMatrix B x
      let ι := (Algebra.ofId K L).mapMatrix (m := Fin D)
      have h2 : c ∈ spectrum L (ι M) := by
        rw [Matrix.mem_spectrum_iff_isRoot_charpoly]
        change (M.map (algebraMap K L)).charpoly.IsRoot c
        rwa [Matrix.charpoly_map]
      have h3 := spectrum.subset_polynomial_aeval (ι M) ((minpoly K c).map (algebraMap K L)) ⟨c, h2, rfl⟩
      dsimp only at h3
      rw [Polynomial.eval_map_algebraMap, minpoly.aeval, Polynomial.aeval_map_algebraMap,
        Polynomial.aeval_algHom_apply] at h3
      exact (spectrum.zero_mem_iff L).mp h3 (h1.map ι)
    obtain ⟨P, hP, hx⟩ := exists_max_ideal_of_mem_nonunits hnu
    let _ := Ideal.Quotient.field P
    have : Algebra.IsAlgebraic K (A ⧸ P) := inferInstance
    let φ : A →ₐ[K] L := (IsAlgClosed.lift (M := L) (R := K) (S := A ⧸ P)).comp (Ideal.Quotient.mkₐ K P)
    have h0 : Polynomial.aeval (φ x) (minpoly K c) = 0 := by
      rw [Polynomial.aeval_algHom_apply]
      change IsAlgClosed.lift (M := L) (R := K) (S := A ⧸ P) (Ideal.Quotient.mk P _) = 0
      rw [Ideal.Quotient.eq_zero_iff_mem.mpr hx, map_zero]
    obtain ⟨σ, hσ⟩ := isConjRoot_iff_exists_algEquiv.mp ((isConjRoot_iff_aeval_eq_zero hc).mpr h0)
    exact ⟨σ.toAlgHom.comp φ, hσ⟩
  · rintro ⟨φ, rfl⟩
    rw [Polynomial.IsRoot, Polynomial.eval_map_algebraMap, Polynomial.aeval_algHom_apply]
    have h1 := Matrix.aeval_self_charpoly (Algebra.leftMulMatrix B x)
    have h2 : Polynomial.aeval x (Algebra.leftMulMatrix B x).charpoly = 0 := by
      apply Algebra.leftMulMatrix_injective B
      rw [map_zero, ← Polynomial.aeval_algHom_apply, h1]
    rw [h2, map_zero]

section
variable {F : Type} [RField F] {K : Type} [Field K] [LawfulRField F K]
variable {n : ℕ} {O : MOrder} {m : MonomialOrder (Fin n)}

/-- `A` is the matrix computed with `*` and `divide` for `f`: its `j`-th column lists the coefficients of
the monomials `s` in the remainder of `f b_j` modulo `G`. -/
def IsMulMatrix (O : MOrder) (G : List (Poly F)) {D : ℕ} (s : Fin D → Fin n →₀ ℕ) (b : Fin D → Poly F)
    (f : Poly F) (A : Matrix (Fin D) (Fin D) K) : Prop :=
  ∀ j, ∃ (p r : Poly F) (qs : List (Poly F)), Poly.mul f (b j) = .ok p ∧
    Computer.divide O p G = .ok (r, qs) ∧
    ∀ i, A i j = coeff (s i) (Poly.den (Fin n) r : MvPolynomial (Fin n) K)

/-- The matrix with the coefficients of the remainders of the `f b_j` is the matrix of multiplication by
`f` in the quotient ring. -/
theorem mulMatrix_eq (hO : Implements O m) (gens G : List (Poly F))
    (hg : ∀ g ∈ gens, Poly.Clean (Fin n) g ∧ Poly.den (Fin n) g ≠ (0 : MvPolynomial (Fin n) K))
    (hG : Computer.buchbergerAlgorithm O gens = .ok G)
    {D : ℕ} (s : Fin D → Fin n →₀ ℕ) (hs : Function.Injective s)
    (hr : Set.range s = {e | ∀ g ∈ G, ¬ m.degree (Poly.den (Fin n) g : MvPolynomial (Fin n) K) ≤ e}) :
    ∃ B : Module.Basis (Fin D) K (MvPolynomial (Fin n) K ⧸ Ideal.span (dens (Fin n) gens)),
      ∀ (f : Poly F) (_ : Poly.Clean (Fin n) f) (b : Fin D → Poly F) (A : Matrix (Fin D) (Fin D) K)
        (_ : ∀ j, Poly.Clean (Fin n) (b j) ∧
          Poly.den (Fin n) (b j) = (monomial (s j) 1 : MvPolynomial (Fin n) K))
        (_ : IsMulMatrix O G s b f A),
        Algebra.leftMulMatrix B (Ideal.Quotient.mk _ (Poly.den (Fin n) f)) = A := by
  classical
  have h := (algorithm_spec (K := K) hO gens hg (fun _ => True) trivial fun _ _ => trivial).of_ok hG
  obtain ⟨hli, hsp⟩ := (C106_macaulay (K := K) hO gens hg).of_ok hG
  let I := Ideal.span (dens (Fin n) gens : Set (MvPolynomial (Fin n) K))
  let e : Fin D ≃ Standard m G := (Equiv.ofInjective s hs).trans (Equiv.setCongr hr)
  have he : ∀ i, (e i).1 = s i := fun i => rfl
  let B₀ := Module.Basis.mk hli hsp.ge
  let B := B₀.reindex e.symm
  have hB : ∀ i, B i = Ideal.Quotient.mk I (monomial (s i) 1) := by
    intro i
    simp only [B, Module.Basis.reindex_apply, Equiv.symm_symm, B₀, Module.Basis.mk_apply, he]
    rfl
  refine ⟨B, fun f hf b A hb hA => ?_⟩
  ext i j
  obtain ⟨p, r, qs, hp, hd, hA⟩ := hA j
  rw [Algebra.leftMulMatrix_eq_repr_mul, hB, hA i]
  have hp' := (Poly.mul_spec (E := fun _ => True) hf.oks (hb j).1 (fun _ _ => trivial)
    (Or.inl trivial)).of_ok hp
  have hd' := (divide_gens hO.poly polyPanic_allowed (fun g hgm => (h.1 g hgm).1) hp'.1).of_ok hd
  simp only at hd'
  have h1 : Ideal.Quotient.mk I (Poly.den (Fin n) f) * Ideal.Quotient.mk I (monomial (s j) 1) =
      Ideal.Quotient.mk I (Poly.den (Fin n) r) := by
    rw [← map_mul, Ideal.Quotient.eq, ← (hb j).2, ← hp'.2]
    change _ ∈ Ideal.span (dens (Fin n) gens)
    rw [← h.2.1.span_eq]
    exact hd'.2.2.1
  have h2 : Ideal.Quotient.mk I (Poly.den (Fin n) r) =
      ∑ i, coeff (s i) (Poly.den (Fin n) r : MvPolynomial (Fin n) K) • B i := by
    have h3 : (Poly.den (Fin n) r : MvPolynomial (Fin n) K) =
        ∑ i, monomial (s i) (coeff (s i) (Poly.den (Fin n) r)) := by
      ext u
      rw [coeff_sum]
      simp only [coeff_monomial]
      by_cases hu : u ∈ Set.range s
      · obtain ⟨i, rfl⟩ := hu
        rw [Finset.sum_eq_single i (fun k _ hk => if_neg fun h => hk (hs h)) (by simp), if_pos rfl]
      · rw [Finset.sum_eq_zero fun k _ => if_neg fun h => hu ⟨k, h⟩]
        by_contra h0
        refine hu (hr ▸ fun g hgm => ?_)
        exact (hd'.2.1 u (mem_support_iff.mpr h0)).2 _ (mem_dens hgm) (h.1.den_ne hgm)
    conv_lhs => rw [h3]
    rw [map_sum]
    refine Finset.sum_congr rfl fun i _ => ?_
    rw [hB, ← mul_one (coeff (s i) _), ← smul_eq_mul, ← smul_monomial, smul_eq_mul, mul_one]
    exact map_smul (Ideal.Quotient.mkₐ K I) _ _
  rw [h1, h2, Module.Basis.repr_sum_self]

/-- C178. Let `s` list the monomials divisible by no leading monomial of the result of
`buchberger_algorithm`.  The numbers `f(a)`, for the solutions `a` of the equations in an algebraic
closure, are the eigenvalues of the matrix whose columns are the coefficients of the remainders of the
products of `f` and these monomials. -/
theorem C178_eigenvalues (hO : Implements O m) (gens G : List (Poly F))
    (hg : ∀ g ∈ gens, Poly.Clean (Fin n) g ∧ Poly.den (Fin n) g ≠ (0 : MvPolynomial (Fin n) K))
    (hG : Computer.buchbergerAlgorithm O gens = .ok G)
    {D : ℕ} (s : Fin D → Fin n →₀ ℕ) (hs : Function.Injective s)
    (hr : Set.range s = {e | ∀ g ∈ G, ¬ m.degree (Poly.den (Fin n) g : MvPolynomial (Fin n) K) ≤ e})
    (f : Poly F) (hf : Poly.Clean (Fin n) f) (b : Fin D → Poly F)
    (hb : ∀ j, Poly.Clean (Fin n) (b j) ∧
      Poly.den (Fin n) (b j) = (monomial (s j) 1 : MvPolynomial (Fin n) K))
    (A : Matrix (Fin D) (Fin D) K) (hA : IsMulMatrix O G s b f A) (c : AlgebraicClosure K) :
    (A.map (algebraMap K (AlgebraicClosure K))).charpoly.IsRoot c ↔
    ∃ a : Fin n → AlgebraicClosure K,
      (∀ g ∈ gens, aeval a (Poly.den (Fin n) g : MvPolynomial (Fin n) K) = 0) ∧
      aeval a (Poly.den (Fin n) f : MvPolynomial (Fin n) K) = c := by
  obtain ⟨B, hB⟩ := mulMatrix_eq (K := K) hO gens G hg hG s hs hr
  have : Module.Finite K (MvPolynomial (Fin n) K ⧸ Ideal.span (dens (Fin n) gens)) := .of_basis B
  have hz := zeros_eq (K := K) (n := n) gens
  have h := eigenvalues_lmul B (Ideal.Quotient.mk _ (Poly.den (Fin n) f)) c
  rw [hB f hf b A hb hA] at h
  refine Iff.trans h ⟨?_, ?_⟩
  · rintro ⟨φ, rfl⟩
    obtain ⟨⟨a, ha⟩, rfl⟩ := (zerosEquiv _).surjective φ
    rw [← hz] at ha
    exact ⟨a, ha, rfl⟩
  · rintro ⟨a, ha, rfl⟩
    have ha' : a ∈ zeros K n gens := ha
    rw [hz] at ha'
    exact ⟨zerosEquiv _ ⟨a, ha'⟩, rfl⟩

/-- C178. These matrices multiply and add like the polynomials. -/
theorem C178_ring (hO : Implements O m) (gens G : List (Poly F))
    (hg : ∀ g ∈ gens, Poly.Clean (Fin n) g ∧ Poly.den (Fin n) g ≠ (0 : MvPolynomial (Fin n) K))
    (hG : Computer.buchbergerAlgorithm O gens = .ok G)
    {D : ℕ} (s : Fin D → Fin n →₀ ℕ) (hs : Function.Injective s)
    (hr : Set.range s = {e | ∀ g ∈ G, ¬ m.degree (Poly.den (Fin n) g : MvPolynomial (Fin n) K) ≤ e})
    (b : Fin D → Poly F) (hb : ∀ j, Poly.Clean (Fin n) (b j) ∧
      Poly.den (Fin n) (b j) = (monomial (s j) 1 : MvPolynomial (Fin n) K))
    (f g h : Poly F) (hf : Poly.Clean (Fin n) f) (hg' : Poly.Clean (Fin n) g)
    (A₁ A₂ A : Matrix (Fin D) (Fin D) K) (h₁ : IsMulMatrix O G s b f A₁) (h₂ : IsMulMatrix O G s b g A₂)
    (h₃ : IsMulMatrix O G s b h A) :
    (Poly.add f g = .ok h → A = A₁ + A₂) ∧ (Poly.mul f g = .ok h → A = A₁ * A₂) ∧
    (A₁ = A₂ ↔ Poly.den (Fin n) f - Poly.den (Fin n) g ∈
      Ideal.span (dens (Fin n) gens : Set (MvPolynomial (Fin n) K))) := by
  obtain ⟨B, hB⟩ := mulMatrix_eq (K := K) hO gens G hg hG s hs hr
  have e₁ := hB f hf b A₁ hb h₁
  have e₂ := hB g hg' b A₂ hb h₂
  refine ⟨fun hh => ?_, fun hh => ?_, ?_⟩
  · have := (Poly.add_spec (K := K) hf hg'.oks).of_ok hh
    rw [← e₁, ← e₂, ← hB h this.1 b A hb h₃, this.2, map_add, map_add]
  · have := (Poly.mul_spec (K := K) (E := fun _ => True) hf.oks hg' (fun _ _ => trivial)
      (Or.inl trivial)).of_ok hh
    rw [← e₁, ← e₂, ← hB h this.1 b A hb h₃, this.2, map_mul, map_mul]
  · rw [← e₁, ← e₂, (Algebra.leftMulMatrix_injective B).eq_iff, Ideal.Quotient.eq]

end

/-- In the ring of polynomials in `x` modulo `x²`, multiplication by `x + 1` has the matrix
`[1, 0; 1, 1]`. -/
example : letI := Rational.field .debug
    letI := Rational.lawful
    ∃ (gens : List (Poly Rational)) (f : Poly Rational) (b : Fin 2 → Poly Rational)
      (s : Fin 2 → Fin 1 →₀ ℕ), (∀ g ∈ gens, Poly.Clean (Fin 1) g ∧ Poly.den (Fin 1) g ≠ (0 : MvPolynomial (Fin 1) ℚ)) ∧
      Computer.buchbergerAlgorithm (OrdKind.lex.order .debug) gens = .ok gens ∧
      Function.Injective s ∧ Set.range s = {e | ∀ g ∈ gens, ¬ (OrdKind.lex.mathlib 1).degree
        (Poly.den (Fin 1) g : MvPolynomial (Fin 1) ℚ) ≤ e} ∧ Poly.Clean (Fin 1) f ∧
      (∀ j, Poly.Clean (Fin 1) (b j) ∧ Poly.den (Fin 1) (b j) = (monomial (s j) 1 : MvPolynomial (Fin 1) ℚ)) ∧
      IsMulMatrix (OrdKind.lex.order .debug) gens s b f !![1, 0; 1, 1] := by
  let _ := Rational.field .debug
  let _ := Rational.lawful
  have h1 : (val (⟨1, 1⟩ : Rational) : ℚ) = 1 := by change ((1 : Int) : ℚ) / ((1 : Int) : ℚ) = 1; norm_num
  have hden : ∀ a : MDeg, (Poly.den (Fin 1) ([⟨⟨1, 1⟩, a⟩] : Poly Rational) : MvPolynomial (Fin 1) ℚ) =
      monomial (MDeg.toF (Fin 1) a) 1 := by
    intro a
    rw [Poly.den_cons, Poly.den_nil, add_zero, Term.den, h1]
  have hsing : ∀ d : ℕ, MDeg.toF (Fin 1) [d] = Finsupp.single 0 d := by
    intro d
    refine Finsupp.ext fun i => ?_
    rw [Subsingleton.elim i 0, Finsupp.single_eq_same]
    rfl
  have hnil : MDeg.toF (Fin 1) [] = Finsupp.single 0 0 := by
    refine Finsupp.ext fun i => ?_
    rw [Subsingleton.elim i 0, Finsupp.single_eq_same]
    rfl
  have hc : ∀ p ∈ [[⟨⟨1, 1⟩, [2]⟩], [⟨⟨1, 1⟩, [1]⟩, ⟨⟨1, 1⟩, []⟩], [⟨⟨1, 1⟩, []⟩], [⟨⟨1, 1⟩, [1]⟩]],
      Poly.Clean (Fin 1) (p : Poly Rational) ∧ Poly.den (Fin 1) p ≠ (0 : MvPolynomial (Fin 1) ℚ) :=
    sampleGens (by decide)
  refine ⟨[[⟨⟨1, 1⟩, [2]⟩]], [⟨⟨1, 1⟩, [1]⟩, ⟨⟨1, 1⟩, []⟩], ![[⟨⟨1, 1⟩, []⟩], [⟨⟨1, 1⟩, [1]⟩]],
    fun j => Finsupp.single 0 j.val, ?_, ?_, ?_, ?_, ?_, ?_, ?_⟩
  · intro g hg
    rw [List.mem_singleton.mp hg]
    exact hc _ (by simp)
  · exact (Computer.buchbergerAlgorithmN_approx 20 _).eq (by decide +kernel) (by simp)
  · intro i j h
    exact Fin.ext (Finsupp.single_injective 0 h)
  · ext e
    simp only [Set.mem_range, Set.mem_ofPred_eq, List.mem_singleton, forall_eq, hden,
      MonomialOrder.degree_monomial, one_ne_zero, if_false, hsing]
    have he : e = Finsupp.single 0 (e 0) := by
      refine Finsupp.ext fun i => ?_
      rw [Subsingleton.elim i 0, Finsupp.single_eq_same]
    constructor
    · rintro ⟨j, rfl⟩ h
      have := h 0
      simp only [Finsupp.single_eq_same] at this
      omega
    · intro h
      have h2 : e 0 < 2 := by
        by_contra h2
        apply h
        rw [he]
        exact Finsupp.single_le_single.mpr (by omega)
      exact ⟨⟨e 0, h2⟩, he.symm⟩
  · exact (hc _ (by simp)).1
  · intro j
    fin_cases j
    · exact ⟨(hc _ (by simp)).1, (hden _).trans (by rw [hnil])⟩
    · exact ⟨(hc _ (by simp)).1, (hden _).trans (by rw [hsing])⟩
  · have hne : (Finsupp.single 0 1 : Fin 1 →₀ ℕ) ≠ 0 := by
      intro h
      have := DFunLike.congr_fun h 0
      simp at this
    intro j
    fin_cases j
    · refine ⟨[⟨⟨1, 1⟩, [1]⟩, ⟨⟨1, 1⟩, []⟩], [⟨⟨1, 1⟩, [1]⟩, ⟨⟨1, 1⟩, []⟩], [[]], by decide +kernel,
        (Computer.divideN_approx 20 _ _).eq (by decide +kernel) (by simp), fun i => ?_⟩
      rw [Poly.den_cons, hden, Term.den, h1, hnil, hsing]
      fin_cases i <;> simp [coeff_monomial, coeff_one, hne, Ne.symm hne]
    · refine ⟨[⟨⟨1, 1⟩, [2]⟩, ⟨⟨1, 1⟩, [1]⟩], [⟨⟨1, 1⟩, [1]⟩], [[⟨⟨1, 1⟩, []⟩]], by decide +kernel,
        (Computer.divideN_approx 20 _ _).eq (by decide +kernel) (by simp), fun i => ?_⟩
      rw [hden, hsing]
      fin_cases i <;> simp [coeff_monomial, hne]

end Verif
