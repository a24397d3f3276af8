import Verif.Props.ZeroSets
import Verif.Props.PolyMap
import Mathlib.Algebra.MvPolynomial.Funext

/-!
# Property C235: projections and images of sets of solutions
-/

namespace Verif
open Res MvPolynomial LawfulRField

section
variable {K : Type} [Field K] {n : ℕ} {m : MonomialOrder (Fin n)}

theorem aeval_congr_supported {L : Type} [Field L] [Algebra K L] {S : Set (Fin n)} {a b : Fin n → L}
    (h : ∀ i ∈ S, a i = b i) {q : MvPolynomial (Fin n) K} (hq : q ∈ supported K S) : aeval a q = aeval b q :=
  eval₂Hom_congr' rfl (fun i hi _ => h i (mem_supported.mp hq hi)) rfl

/-- The equations without the eliminated variables define the smallest set that contains the projection. -/
theorem closure_of_projection {S : Set (Fin n)} (hS : Eliminates m S) {I : Ideal (MvPolynomial (Fin n) K)}
    {G : Set (MvPolynomial (Fin n) K)} (hG : IsGroebner m I G) (c : Fin n → AlgebraicClosure K) :
    (∀ g ∈ G, g ∈ supported K S → aeval c g = 0) ↔
      ∀ q ∈ supported K S, (∀ a ∈ zeroLocus (AlgebraicClosure K) I, aeval a q = 0) → aeval c q = 0 := by
  constructor
  · intro h q hq hv
    have hrad : q ∈ I.radical := by
      rw [← vanishingIdeal_zeroLocus_eq_radical (K := AlgebraicClosure K), mem_vanishingIdeal_iff]
      exact hv
    obtain ⟨N, hN⟩ := hrad
    have := (elimination hS hG (q ^ N)).mp ⟨hN, Subalgebra.pow_mem _ hq N⟩
    have h0 : aeval c (q ^ N) = 0 := by
      generalize q ^ N = x at this
      induction this using Submodule.span_induction with
      | mem x hx => exact h x hx.1 hx.2
      | zero => exact map_zero _
      | add x y _ _ hx hy => rw [map_add, hx, hy, add_zero]
      | smul a x _ hx => rw [Subalgebra.smul_def, smul_eq_mul, map_mul, hx, mul_zero]
    rw [map_pow] at h0
    exact eq_zero_of_pow_eq_zero h0
  · intro h g hg hgS
    exact h g hgS fun a ha => ha g (hG.1 hg)

/-- Points of an algebraic closure at which the same polynomials vanish are conjugate. -/
theorem exists_conjugate {S : Set (Fin n)} (a c : Fin n → AlgebraicClosure K)
    (h : ∀ q ∈ supported K S, aeval a q = 0 → aeval c q = 0) :
    ∃ σ : AlgebraicClosure K →ₐ[K] AlgebraicClosure K, ∀ i ∈ S, σ (a i) = c i := by
  let f : supported K S →ₐ[K] AlgebraicClosure K := (aeval a).comp (supported K S).val
  let φ : supported K S →ₐ[K] AlgebraicClosure K := (aeval c).comp (supported K S).val
  obtain ⟨ψ, hψ⟩ := extend_hom f φ fun r hr => h r.1 r.2 hr
  exact ⟨ψ, fun i hi => by
    have := hψ ⟨X i, X_mem_supported.mpr hi⟩
    simpa [f, φ] using this⟩

/-- If the projection is finite, it is the set defined by the equations without the eliminated variables. -/
theorem finite_projection {S : Set (Fin n)} (hS : Eliminates m S) {I : Ideal (MvPolynomial (Fin n) K)}
    {G : Set (MvPolynomial (Fin n) K)} (hG : IsGroebner m I G)
    (hfin : ((fun a : Fin n → AlgebraicClosure K => S.domRestrict a) '' zeroLocus (AlgebraicClosure K) I).Finite)
    (c : Fin n → AlgebraicClosure K) (hc : ∀ g ∈ G, g ∈ supported K S → aeval c g = 0) :
    ∃ x ∈ zeroLocus (AlgebraicClosure K) I, ∀ i ∈ S, x i = c i := by
  classical
  rw [closure_of_projection hS hG] at hc
  have key : ∃ a ∈ zeroLocus (AlgebraicClosure K) I, ∀ q ∈ supported K S, aeval a q = 0 → aeval c q = 0 := by
    by_contra hno
    push Not at hno
    have hq : ∀ b ∈ hfin.toFinset, ∃ q ∈ supported K S, aeval c q ≠ 0 ∧
        ∀ a : Fin n → AlgebraicClosure K, S.domRestrict a = b → aeval a q = 0 := by
      intro b hb
      obtain ⟨a, ha, rfl⟩ := hfin.mem_toFinset.mp hb
      obtain ⟨q, hqS, h0, h1⟩ := hno a ha
      refine ⟨q, hqS, h1, fun a' h' => ?_⟩
      rw [aeval_congr_supported (b := a) (fun i hi => congrFun h' ⟨i, hi⟩) hqS, h0]
    choose! q hqS hqc hqa using hq
    have h1 := hc (∏ b ∈ hfin.toFinset, q b) (Subalgebra.prod_mem _ fun b hb => hqS b hb) fun a ha => by
      have hb := hfin.mem_toFinset.mpr ⟨a, ha, rfl⟩
      rw [map_prod]
      exact Finset.prod_eq_zero hb (hqa _ hb a rfl)
    rw [map_prod, Finset.prod_eq_zero_iff] at h1
    obtain ⟨b, hb, h0⟩ := h1
    exact hqc b hb h0
  obtain ⟨a, ha, h⟩ := key
  obtain ⟨σ, hσ⟩ := exists_conjugate a c h
  refine ⟨fun i => σ (a i), fun f hf => ?_, hσ⟩
  have : aeval (fun i => σ (a i)) f = σ (aeval a f) := by
    rw [← AlgHom.comp_apply, comp_aeval]
  rw [this, ha f hf, map_zero]

end

section
variable {F : Type} [RField F] {K : Type} [Field K] [LawfulRField F K] {n : ℕ}

/-- The order and the variables kept: all from `x_k` on with `Lex`, all before `x_k` with `RevLex`. -/
def kept (n : ℕ) : OrdKind → ℕ → Set (Fin n)
  | .lex, k => {i | k ≤ i.val}
  | _, k => {i | i.val < k}

/-- **C235** With `Lex` or `RevLex`: the solutions of the elements of the result that are free of the other variables are
the smallest set given by equations over the field in the variables kept that contains all solutions. -/
theorem C235_closure {o : OrdKind} (ho : o = .lex ∨ o = .revLex) (gens : List (Poly F))
    (hg : ∀ g ∈ gens, Poly.Clean (Fin n) g ∧ Poly.den (Fin n) g ≠ (0 : MvPolynomial (Fin n) K)) :
    Spec (PolyPanic F) (Computer.buchbergerAlgorithm (o.order .debug) gens) (fun G =>
      ∀ (k : ℕ) (c : Fin n → AlgebraicClosure K),
        (∀ g ∈ G, (Poly.den (Fin n) g : MvPolynomial (Fin n) K) ∈ supported K (kept n o k) →
          aeval c (Poly.den (Fin n) g : MvPolynomial (Fin n) K) = 0) ↔
        ∀ q ∈ supported K (kept n o k), (∀ a ∈ zeros K n gens, aeval a q = 0) → aeval c q = 0) := by
  refine (algorithm_spec (OrdKind.implements o n) gens hg (fun _ => True) trivial fun _ _ => trivial).imp
    fun G h k c => ?_
  have hel : Eliminates (o.mathlib n) (kept n o k) := by
    rcases ho with rfl | rfl
    · exact lex_eliminates k
    · exact revLex_eliminates k
  rw [zeros_eq, ← closure_of_projection hel h.2.1]
  constructor
  · rintro h _ ⟨g, hgm, rfl⟩
    exact h g hgm
  · exact fun h g hgm => h _ (mem_dens hgm)

/-- **C235** If the solutions take only finitely many values in the variables kept, these values are exactly the
solutions of the elements of the result in these variables, even if there are infinitely many solutions. -/
theorem C235_finite {o : OrdKind} (ho : o = .lex ∨ o = .revLex) (gens : List (Poly F))
    (hg : ∀ g ∈ gens, Poly.Clean (Fin n) g ∧ Poly.den (Fin n) g ≠ (0 : MvPolynomial (Fin n) K)) :
    Spec (PolyPanic F) (Computer.buchbergerAlgorithm (o.order .debug) gens) (fun G =>
      ∀ k : ℕ, ((fun a => (kept n o k).domRestrict a) '' zeros K n gens).Finite →
      ∀ c : Fin n → AlgebraicClosure K,
        (∀ g ∈ G, (Poly.den (Fin n) g : MvPolynomial (Fin n) K) ∈ supported K (kept n o k) →
          aeval c (Poly.den (Fin n) g : MvPolynomial (Fin n) K) = 0) ↔
        ∃ x ∈ zeros K n gens, ∀ i ∈ kept n o k, x i = c i) := by
  refine ((algorithm_spec (OrdKind.implements o n) gens hg (fun _ => True) trivial fun _ _ => trivial).and
    (C235_closure (K := K) ho gens hg)).imp fun G ⟨h, h'⟩ k hfin c => ?_
  have hel : Eliminates (o.mathlib n) (kept n o k) := by
    rcases ho with rfl | rfl
    · exact lex_eliminates k
    · exact revLex_eliminates k
  constructor
  · intro hc
    rw [zeros_eq] at hfin ⊢
    refine finite_projection hel h.2.1 hfin c ?_
    rintro _ ⟨g, hgm, rfl⟩
    exact hc g hgm
  · rintro ⟨x, hx, hxc⟩
    rw [h' k c]
    intro q hq hv
    rw [← aeval_congr_supported hxc hq]
    exact hv x hx

/-- **C235** No element of the result is free of the other variables exactly if no equation over the field in the
variables kept holds for all solutions. -/
theorem C235_dense {o : OrdKind} (ho : o = .lex ∨ o = .revLex) (gens : List (Poly F))
    (hg : ∀ g ∈ gens, Poly.Clean (Fin n) g ∧ Poly.den (Fin n) g ≠ (0 : MvPolynomial (Fin n) K)) :
    Spec (PolyPanic F) (Computer.buchbergerAlgorithm (o.order .debug) gens) (fun G => ∀ k : ℕ,
      (∀ g ∈ G, (Poly.den (Fin n) g : MvPolynomial (Fin n) K) ∉ supported K (kept n o k)) ↔
      ∀ q ∈ supported K (kept n o k), (∀ a ∈ zeros K n gens, aeval a q = 0) → q = 0) := by
  refine ((algorithm_spec (OrdKind.implements o n) gens hg (fun _ => True) trivial fun _ _ => trivial).and
    (C235_closure (K := K) ho gens hg)).imp fun G ⟨h, h'⟩ k => ?_
  constructor
  · intro hno q hq hv
    have : ∀ c : Fin n → AlgebraicClosure K, aeval c q = 0 := fun c =>
      (h' k c).mp (fun g hgm hgS => absurd hgS (hno g hgm)) q hq hv
    refine MvPolynomial.map_injective _ (FaithfulSMul.algebraMap_injective K (AlgebraicClosure K)) ?_
    rw [map_zero]
    refine MvPolynomial.funext fun c => ?_
    rw [eval_map, map_zero]
    exact this c
  · intro hd g hgm hgS
    refine h.1.den_ne hgm (hd _ hgS fun a ha => ?_)
    rw [zeros_eq] at ha
    exact ha _ (h.2.1.1 (mem_dens hgm))

/-- **C235** The solutions of the relations between polynomials are the smallest set given by equations over the field
that contains all points `(f_1(x), …, f_r(x))`. -/
theorem C235_image (fs : List (Poly F)) (hf : ∀ f ∈ fs, Poly.Clean (Fin n) f) :
    Spec (PolyPanic F) (relations n fs) (fun H => ∀ c : Fin fs.length → AlgebraicClosure K,
      (∀ h ∈ H, aeval (Fin.append (0 : Fin n → AlgebraicClosure K) c)
        (Poly.den (Fin (n + fs.length)) h : MvPolynomial (Fin (n + fs.length)) K) = 0) ↔
      ∀ q : MvPolynomial (Fin fs.length) K, (∀ x : Fin n → AlgebraicClosure K,
        aeval (fun j => aeval x (Poly.den (Fin n) fs[j] : MvPolynomial (Fin n) K)) q = 0) → aeval c q = 0) := by
  refine (C143_relations (K := K) fs hf).imp ?_
  rintro H ⟨S, hS, hrel⟩ c
  have hren : ∀ p : MvPolynomial (Fin fs.length) K,
      aeval (Fin.append (0 : Fin n → AlgebraicClosure K) c) (rename (Fin.natAdd n) p) = aeval c p := by
    intro p
    rw [aeval_rename]
    congr 1
    congr 1
    funext j
    simp
  have hcomp : ∀ (x : Fin n → AlgebraicClosure K) (q : MvPolynomial (Fin fs.length) K),
      aeval (fun j => aeval x (Poly.den (Fin n) fs[j] : MvPolynomial (Fin n) K)) q =
        aeval x (aeval (fun j : Fin fs.length => (Poly.den (Fin n) fs[j] : MvPolynomial (Fin n) K)) q) := by
    intro x q
    rw [← AlgHom.comp_apply, comp_aeval]
  constructor
  · intro h q hq
    have h0 : aeval (fun j : Fin fs.length => (Poly.den (Fin n) fs[j] : MvPolynomial (Fin n) K)) q = 0 := by
      refine MvPolynomial.map_injective _ (FaithfulSMul.algebraMap_injective K (AlgebraicClosure K)) ?_
      rw [map_zero]
      refine MvPolynomial.funext fun x => ?_
      rw [eval_map, map_zero]
      exact (hcomp x q).symm.trans (hq x)
    have hle : Ideal.span S ≤ RingHom.ker (aeval c : MvPolynomial (Fin fs.length) K →ₐ[K] AlgebraicClosure K) := by
      rw [Ideal.span_le]
      intro s hs
      have : rename (Fin.natAdd n) s ∈ (dens (Fin (n + fs.length)) H : Set (MvPolynomial (Fin (n + fs.length)) K)) :=
        hS ▸ ⟨s, hs, rfl⟩
      obtain ⟨g, hg, he⟩ := this
      have := h g hg
      rw [← he, hren] at this
      exact this
    exact hle ((hrel q).mp h0)
  · intro h g hg
    have : (Poly.den (Fin (n + fs.length)) g : MvPolynomial (Fin (n + fs.length)) K) ∈
        rename (Fin.natAdd n) '' S := hS ▸ mem_dens hg
    obtain ⟨s, hs, he⟩ := this
    rw [← he, hren]
    refine h s fun x => ?_
    rw [hcomp, (hrel s).mpr (Ideal.subset_span hs), map_zero]

end

/-- `x y` and `y^2 - y`: infinitely many solutions, but `y` is 0 or 1, as the element without `x` says.  The other
generator, `x y - 1`, leaves no equation for `y`, although `y = 0` is not part of a solution. -/
theorem C235_run : letI := Rational.field .debug
    Computer.buchbergerAlgorithm (OrdKind.lex.order .debug)
      ([[⟨⟨1, 1⟩, [1, 1]⟩], [⟨⟨1, 1⟩, [0, 2]⟩, ⟨⟨-1, 1⟩, [0, 1]⟩]] : List (Poly Rational)) =
    ok [[⟨⟨1, 1⟩, [1, 1]⟩], [⟨⟨1, 1⟩, [0, 2]⟩, ⟨⟨-1, 1⟩, [0, 1]⟩]] ∧
    Computer.buchbergerAlgorithm (OrdKind.lex.order .debug)
      ([[⟨⟨1, 1⟩, [1, 1]⟩, ⟨⟨-1, 1⟩, []⟩]] : List (Poly Rational)) = ok [[⟨⟨1, 1⟩, [1, 1]⟩, ⟨⟨-1, 1⟩, []⟩]] := by
  let _ := Rational.field .debug
  exact ⟨(Computer.buchbergerAlgorithmN_approx 60 _).eq (by decide +kernel) (by simp),
    (Computer.buchbergerAlgorithmN_approx 60 _).eq (by decide +kernel) (by simp)⟩

/-- The hypotheses of `C235_finite` hold for these polynomials: the values of `y` are finitely many, though the solutions
are not. -/
theorem C235_sample : letI := Rational.field .debug
    letI := Rational.lawful
    let gens : List (Poly Rational) := [[⟨⟨1, 1⟩, [1, 1]⟩], [⟨⟨1, 1⟩, [0, 2]⟩, ⟨⟨-1, 1⟩, [0, 1]⟩]]
    (∀ g ∈ gens, Poly.Clean (Fin 2) g ∧ Poly.den (Fin 2) g ≠ (0 : MvPolynomial (Fin 2) ℚ)) ∧
    ((fun a => (kept 2 .lex 1).domRestrict a) '' zeros ℚ 2 gens).Finite ∧ ¬ (zeros ℚ 2 gens).Finite := by
  let _ := Rational.field .debug
  let _ := Rational.lawful
  have hv : ∀ k : ℤ, (val (⟨k, 1⟩ : Rational) : ℚ) = k := fun k => by
    change Rational.val _ = _
    unfold Rational.val
    simp
  have e1 : MDeg.toF (Fin 2) [1, 1] = Finsupp.single 0 1 + Finsupp.single 1 1 := by ext i; fin_cases i <;> simp <;> rfl
  have e2 : MDeg.toF (Fin 2) [0, 2] = Finsupp.single 1 2 := by ext i; fin_cases i <;> simp <;> rfl
  have e3 : MDeg.toF (Fin 2) [0, 1] = Finsupp.single 1 1 := by ext i; fin_cases i <;> simp <;> rfl
  have h1 : ∀ (L : Type) [Field L] (A : Algebra ℚ L) (a : Fin 2 → L),
      aeval a (Poly.den (Fin 2) ([⟨⟨1, 1⟩, [1, 1]⟩] : Poly Rational) : MvPolynomial (Fin 2) ℚ) = a 0 * a 1 := by
    intro L _ A a
    rw [Poly.den_cons, Poly.den_nil, add_zero, Term.den]
    simp only [hv, e1, aeval_monomial]
    simp
  have h2 : ∀ (L : Type) [Field L] (A : Algebra ℚ L) (a : Fin 2 → L),
      aeval a (Poly.den (Fin 2) ([⟨⟨1, 1⟩, [0, 2]⟩, ⟨⟨-1, 1⟩, [0, 1]⟩] : Poly Rational) : MvPolynomial (Fin 2) ℚ) =
        a 1 ^ 2 - a 1 := by
    intro L _ A a
    rw [Poly.den_cons, Poly.den_cons, Poly.den_nil, add_zero, Term.den, Term.den, map_add]
    simp only [hv, e2, e3, aeval_monomial]
    simp [sub_eq_add_neg]
  refine ⟨sampleGens (k := 2) (by decide), ?_, ?_⟩
  · refine Set.Finite.subset (Set.toFinite {fun _ => (0 : AlgebraicClosure ℚ), fun _ => 1}) ?_
    rintro _ ⟨a, ha, rfl⟩
    have h0 := ha [⟨⟨1, 1⟩, [0, 2]⟩, ⟨⟨-1, 1⟩, [0, 1]⟩] (by simp)
    rw [h2 _ _ a, sq, ← mul_sub_one, mul_eq_zero, sub_eq_zero] at h0
    have hi : ∀ i : kept 2 .lex 1, i.1 = 1 := by
      rintro ⟨i, hi⟩
      have hi : 1 ≤ i.val := hi
      apply Fin.ext
      have := i.2
      show i.val = 1
      omega
    rcases h0 with h0 | h0
    · left; funext i; show a i.1 = 0; rw [hi i, h0]
    · right; funext i; show a i.1 = 1; rw [hi i, h0]
  · refine Set.infinite_of_injective_forall_mem (f := fun t : AlgebraicClosure ℚ => ![t, 0])
      (fun s t h => congrFun h 0) fun t g hg => ?_
    rcases List.mem_cons.mp hg with rfl | hg
    · rw [h1 _ _ ![t, 0]]; simp
    · rw [List.mem_singleton.mp hg, h2 _ _ ![t, 0]]; simp

end Verif
