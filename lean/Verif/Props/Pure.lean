import Verif.Proofs.Pure
import Verif.Props.IntDivide
import Verif.Props.Binomial
import Verif.Props.Raw

/-!
# C187: monomials and differences of two monomials

Equations between words, toric ideals, reachability between states of a vector addition system: the
polynomials `x^a - x^b`.  Their coefficients stay `1` and `-1` however long the computation is.
-/

namespace Verif
open Res LawfulRField LinAlg Computer MvPolynomial

namespace IntData
variable {F : Type} [RField F] [LawfulRField F ℚ] {D : IntData F} {n : ℕ}

/-- One term with coefficient `±1`, or two terms with coefficients `±1` and `∓1`. -/
def IsPure (D : IntData F) (p : Poly F) : Prop :=
  ∃ c : ℤ, (c = 1 ∨ c = -1) ∧ ((∃ s : Term F, p = [s] ∧ D.isInt s.coef c) ∨
    ∃ s t : Term F, p = [s, t] ∧ D.isInt s.coef c ∧ D.isInt t.coef (-c))

theorem IsPure.purePoly {p : Poly F} (h : D.IsPure p) (hp : Poly.Clean (Fin n) p) : D.PurePoly (Fin n) p := by
  obtain ⟨c, hc, h⟩ := h
  have hsg : Sgn (c : ℚ) := by
    rcases hc with rfl | rfl
    · left; simp
    · right; simp
  obtain ⟨s, rfl, hs⟩ | ⟨s, t, rfl, hs, ht⟩ := h
  · refine ⟨hp, ?_, ?_⟩
    · intro u hu; rw [List.mem_singleton.mp hu]; exact ⟨c, hs⟩
    · rw [Poly.den_cons, Poly.den_nil, add_zero]
      unfold Term.den
      rw [D.val_eq hs]
      exact PureBin.monomial hsg _
  · refine ⟨hp, ?_, ?_⟩
    · intro u hu
      rcases List.mem_cons.mp hu with rfl | hu
      · exact ⟨c, hs⟩
      · rw [List.mem_singleton.mp hu]; exact ⟨_, ht⟩
    · rw [Poly.den_cons, Poly.den_cons, Poly.den_nil, add_zero]
      unfold Term.den
      rw [D.val_eq hs, D.val_eq ht]
      exact ⟨_, c, _, hsg, Or.inr ⟨_, by push_cast; rfl⟩, rfl⟩

theorem PurePoly.isPure {p : Poly F} (h : D.PurePoly (Fin n) p) (h0 : p ≠ []) : D.IsPure p := by
  have hlen := length_card h.clean
  have hcard := h.shape.card
  have hc : ∀ t ∈ p, ∃ c : ℤ, (c = 1 ∨ c = -1) ∧ D.isInt t.coef c := by
    intro t ht
    rcases h.coef ht with h | h
    · exact ⟨1, Or.inl rfl, h⟩
    · exact ⟨-1, Or.inr rfl, h⟩
  rcases p with _ | ⟨s, _ | ⟨t, _ | ⟨u, p⟩⟩⟩
  · exact absurd rfl h0
  · obtain ⟨c, h1, h2⟩ := hc s (by simp)
    exact ⟨c, h1, Or.inl ⟨s, rfl, h2⟩⟩
  · obtain ⟨c, h1, h2⟩ := hc s (by simp)
    obtain ⟨d, -, h4⟩ := hc t (by simp)
    refine ⟨c, h1, Or.inr ⟨s, t, rfl, h2, ?_⟩⟩
    have hd : d = -c := by
      obtain ⟨e, a, T, ha, rfl | ⟨b, rfl⟩, hden⟩ := h.shape
      · rw [hden, add_zero] at hlen
        have := Finset.card_le_card (support_monomial_subset (s := e) (a := a))
        simp at hlen this
        omega
      · have := congrArg (eval fun _ => (1 : ℚ)) hden
        simp only [Poly.den_cons, Poly.den_nil, Term.den, add_zero, map_add, eval_monomial, one_pow,
          Finsupp.prod, Finset.prod_const_one, mul_one, add_neg_cancel] at this
        rw [D.val_eq h2, D.val_eq h4] at this
        have h5 : c + d = 0 := by exact_mod_cast this
        omega
    rw [← hd]; exact h4
  · simp only [List.length_cons] at hlen
    omega

theorem isPure_or {p : Poly F} (h : p = [] ∨ D.IsPure p) (hp : Poly.Clean (Fin n) p) : D.PurePoly (Fin n) p := by
  rcases h with rfl | h
  · exact PurePoly.nil
  · exact h.purePoly hp

theorem PurePoly.or {p : Poly F} (h : D.PurePoly (Fin n) p) : p = [] ∨ D.IsPure p := by
  by_cases h0 : p = []
  · exact Or.inl h0
  · exact Or.inr (h.isPure h0)

/-- Division with a graded order or in one variable does not even overflow in the exponents. -/
theorem divide_pure_total (hu : D.Units) (hal : ¬ allowed F .overflowU8) (k : OrdKind) (hk : k.graded = true ∨ n = 1)
    {f : Poly F} {divs : List (Poly F)} (hf : D.PurePoly (Fin n) f) (hd : ∀ g ∈ divs, D.PurePoly (Fin n) g)
    (hfd : ∀ t ∈ f, t.mdeg.sum ≤ 255) (hgd : ∀ g ∈ divs, ∀ t ∈ g, t.mdeg.sum ≤ 255) :
    ∃ x, divide (k.order .debug) f divs = .ok x ∧ D.PurePoly (Fin n) x.1 ∧
      ∀ q ∈ x.2, Poly.Clean (Fin n) q ∧ ∀ t ∈ q, D.IsSgn t.coef := by
  have hO : ∃ B : (Fin n →₀ ℕ) → Prop, LawfulOrder (k.order .debug) (k.mathlib n) B (allowed F) ∧
      ∀ e, B e ↔ ∑ s, e s ≤ 255 := by
    rcases hk with hk | rfl
    · exact ⟨_, OrdKind.lawful_graded k hk n, fun e => Iff.rfl⟩
    · exact ⟨_, OrdKind.lawful_one k, fun e => by simp⟩
  obtain ⟨B, hO, hB⟩ := hO
  have hin : ∀ {p : Poly F}, Poly.Clean (Fin n) p → (∀ t ∈ p, t.mdeg.sum ≤ 255) → Poly.In B p :=
    fun hp h t ht => (hB _).mpr (in_degree hp h t ht)
  have h1 := divide_spec hO (fun _ h => h) hf.clean (hin hf.clean hfd)
    fun g h => ⟨(hd g h).clean, hin (hd g h).clean (hgd g h)⟩
  have h2 := divide_safe (E := (· = .overflowU8)) (OrdKind.lawful k n rfl) hu rfl hf hd
  cases hx : divide (k.order .debug) f divs with
  | ok x => exact ⟨x, rfl, h2.1 x hx⟩
  | panic p =>
    rw [hx] at h1
    have := h2.2 p hx
    subst this
    exact absurd h1 hal
  | diverge => rw [hx] at h1; exact h1.elim

end IntData

/-! ## `Rational` -/

namespace Rational
variable (b : Build)

theorem IsInt.recip_unit {x : Rational} {i : ℤ} (hx : IsInt x i) (hi : i = 1 ∨ i = -1) :
    ∃ z, recip b x = .ok z ∧ IsInt z i := by
  obtain ⟨rfl, -⟩ := hx
  rcases hi with rfl | rfl
  · exact ⟨⟨1, 1⟩, by cases b <;> decide, rfl, by decide⟩
  · exact ⟨⟨-1, 1⟩, by cases b <;> decide, rfl, by decide⟩

theorem units : @IntData.Units Rational (field .debug) lawful intData := by
  let _ := field .debug
  let _ := lawful
  refine ⟨by decide, ⟨rfl, by decide⟩, ?_, ?_, ?_⟩
  · rintro x y (hx | hx) (hy | hy)
    · obtain ⟨z, h1, h2⟩ := IsInt.div_unit .debug hx hy (Or.inl rfl); exact ⟨z, h1, Or.inl h2⟩
    · obtain ⟨z, h1, h2⟩ := IsInt.div_unit .debug hx hy (Or.inr rfl); exact ⟨z, h1, Or.inr h2⟩
    · obtain ⟨z, h1, h2⟩ := IsInt.div_unit .debug hx hy (Or.inl rfl); exact ⟨z, h1, Or.inr h2⟩
    · obtain ⟨z, h1, h2⟩ := IsInt.div_unit .debug hx hy (Or.inr rfl); exact ⟨z, h1, Or.inl h2⟩
  · rintro x (hx | hx)
    · obtain ⟨z, h1, h2⟩ := IsInt.recip_unit .debug hx (Or.inl rfl); exact ⟨z, h1, Or.inl h2⟩
    · obtain ⟨z, h1, h2⟩ := IsInt.recip_unit .debug hx (Or.inr rfl); exact ⟨z, h1, Or.inr h2⟩
  · rintro x y (hx | hx) (hy | hy)
    all_goals obtain ⟨z, h1, h2⟩ := intData.mul_ok hx hy (by decide)
    · exact ⟨z, h1, Or.inl h2⟩
    · exact ⟨z, h1, Or.inr h2⟩
    · exact ⟨z, h1, Or.inr h2⟩
    · exact ⟨z, h1, Or.inl h2⟩

/-- `± x^s` or `± (x^s - x^t)`, with coefficients written `1/1` and `-1/1`. -/
def IsPure (p : Poly Rational) : Prop :=
  (∃ s, p = [⟨⟨1, 1⟩, s⟩] ∨ p = [⟨⟨-1, 1⟩, s⟩]) ∨
    ∃ s t, p = [⟨⟨1, 1⟩, s⟩, ⟨⟨-1, 1⟩, t⟩] ∨ p = [⟨⟨-1, 1⟩, s⟩, ⟨⟨1, 1⟩, t⟩]

theorem isPure_iff (p : Poly Rational) : IsPure p ↔ @IntData.IsPure _ (field .debug) lawful intData p := by
  let _ := field .debug
  let _ := lawful
  constructor
  · rintro (⟨s, rfl | rfl⟩ | ⟨s, t, rfl | rfl⟩)
    · exact ⟨1, Or.inl rfl, Or.inl ⟨_, rfl, rfl, by decide⟩⟩
    · exact ⟨-1, Or.inr rfl, Or.inl ⟨_, rfl, rfl, by decide⟩⟩
    · exact ⟨1, Or.inl rfl, Or.inr ⟨_, _, rfl, ⟨rfl, by decide⟩, rfl, by decide⟩⟩
    · exact ⟨-1, Or.inr rfl, Or.inr ⟨_, _, rfl, ⟨rfl, by decide⟩, rfl, by decide⟩⟩
  · rintro ⟨c, rfl | rfl, ⟨⟨s, e⟩, rfl, rfl, -⟩ | ⟨⟨s, e⟩, ⟨t, e'⟩, rfl, ⟨rfl, -⟩, rfl, -⟩⟩
    · exact Or.inl ⟨_, Or.inl rfl⟩
    · exact Or.inr ⟨_, _, Or.inl rfl⟩
    · exact Or.inl ⟨_, Or.inr rfl⟩
    · exact Or.inr ⟨_, _, Or.inr rfl⟩

/-- C187: dividing `± x^a` or `± (x^a - x^b)` by such polynomials, only the exponents can overflow, in
however many steps: no `i64` operation does.  The remainder is again of this form (or zero), the quotients
have coefficients `1` and `-1`; the release build returns the same. -/
theorem C187_divide {n : ℕ} (k : OrdKind) (f : Poly Rational) (divs : List (Poly Rational)) :
    letI := field .debug
    letI := lawful
    Poly.Clean (Fin n) f → (∀ g ∈ divs, Poly.Clean (Fin n) g) → (f = [] ∨ IsPure f) →
    (∀ g ∈ divs, g = [] ∨ IsPure g) →
    Spec (· = .overflowU8) (divide (F := Rational) (k.order .debug) f divs) (fun x =>
      (x.1 = [] ∨ IsPure x.1) ∧ (∀ q ∈ x.2, ∀ t ∈ q, t.coef = ⟨1, 1⟩ ∨ t.coef = ⟨-1, 1⟩) ∧
      @divide _ (field .release) (k.order .release) f divs = .ok x ∧
      x.2.length = divs.length ∧
      IsDivision (k.mathlib n) (fun i : Fin divs.length => Poly.den (Fin n) (divs.get i))
        (Poly.den (Fin n) f) (fun i => Poly.den (Fin n) (x.2.getD i [])) (Poly.den (Fin n) x.1)) := by
  let _ := field .debug
  let _ := lawful
  intro hf hg hfp hgp
  simp only [isPure_iff] at hfp hgp ⊢
  have h := (IntData.divide_safe (E := (· = .overflowU8)) (OrdKind.lawful k n rfl) units rfl
    (IntData.isPure_or hfp hf) fun g h => IntData.isPure_or (hgp g h) (hg g h)).spec
    (Spec.and_eq (C120_determinate (k.implements n) f divs hf hg))
  refine h.imp fun x hx => ⟨hx.1.1.or, fun q hq t ht => ?_, ?_, hx.2.1.1, hx.2.1.2⟩
  · rcases (hx.1.2 q hq).2 t ht with h | h
    · exact Or.inl h.1
    · exact Or.inr h.1
  · exact toRelease (f := fun b => @divide _ (field b) (k.order b) f divs) .release
      (divide_refines releaseOps_refine (Flt.order_refines .release k) _ _) hx.2.2


/-- C187, with a graded order, or in one variable: if the total degrees are at most 255, nothing overflows. -/
theorem C187_total {n : ℕ} (k : OrdKind) (hk : k.graded = true ∨ n = 1) (f : Poly Rational)
    (divs : List (Poly Rational)) :
    letI := field .debug
    letI := lawful
    Poly.Clean (Fin n) f → (∀ g ∈ divs, Poly.Clean (Fin n) g) → (f = [] ∨ IsPure f) →
    (∀ g ∈ divs, g = [] ∨ IsPure g) →
    (∀ t ∈ f, t.mdeg.sum ≤ 255) → (∀ g ∈ divs, ∀ t ∈ g, t.mdeg.sum ≤ 255) →
    ∃ r qs, @divide _ (field b) (k.order b) f divs = .ok (r, qs) ∧ (r = [] ∨ IsPure r) ∧
      ∀ q ∈ qs, ∀ t ∈ q, t.coef = ⟨1, 1⟩ ∨ t.coef = ⟨-1, 1⟩ := by
  let _ := field .debug
  let _ := lawful
  intro hf hg hfp hgp hfd hgd
  simp only [isPure_iff] at hfp hgp ⊢
  obtain ⟨⟨r, qs⟩, hx, h1, h2⟩ := IntData.divide_pure_total units (fun h => by cases h) k hk
    (IntData.isPure_or hfp hf) (fun g h => IntData.isPure_or (hgp g h) (hg g h)) hfd hgd
  refine ⟨r, qs, toRelease (f := fun b => @divide _ (field b) (k.order b) f divs) b
      (divide_refines releaseOps_refine (Flt.order_refines .release k) _ _) hx, h1.or, fun q hq t ht => ?_⟩
  rcases (h2 q hq).2 t ht with h | h
  · exact Or.inl h.1
  · exact Or.inr h.1

/-- C187: on generators `± x^a` and `± (x^a - x^b)` the criterion and the algorithm of Buchberger can only
overflow in the exponents, never in the coefficients, for any number of variables, generators and steps and
any order; the basis consists of such polynomials again, and the release build returns the same. -/
theorem C187_buchberger {n : ℕ} (k : OrdKind) (gens : List (Poly Rational)) :
    letI := field .debug
    letI := lawful
    (∀ g ∈ gens, Poly.Clean (Fin n) g ∧ IsPure g) →
    Spec (· = .overflowU8) (buchbergerAlgorithm (F := Rational) (k.order .debug) gens) (fun G =>
      (∀ g ∈ G, Poly.Clean (Fin n) g ∧ IsPure g) ∧
      @buchbergerAlgorithm _ (field .release) (k.order .release) gens = .ok G ∧
      IsGroebner (k.mathlib n) (Ideal.span (dens (Fin n) gens)) (dens (Fin n) G) ∧
      LeadsIncomparable (k.mathlib n) G ∧ IsInterReduced (k.mathlib n) (dens (Fin n) G)) ∧
    Spec (· = .overflowU8) (buchbergerCriterion (F := Rational) (k.order .debug) gens) (fun a =>
      (a = true ↔ ∀ f ∈ Ideal.span (dens (Fin n) gens), f ≠ 0 →
        ∃ g ∈ gens, (k.mathlib n).degree (Poly.den (Fin n) g) ≤ (k.mathlib n).degree f) ∧
      @buchbergerCriterion _ (field .release) (k.order .release) gens = .ok a) := by
  let _ := field .debug
  let _ := lawful
  intro hg
  simp only [isPure_iff] at hg ⊢
  have hpg : IntData.PureGens intData (Fin n) gens := fun g h =>
    ⟨(hg g h).2.purePoly (hg g h).1, by
      rintro rfl
      obtain ⟨c, -, ⟨s, h, -⟩ | ⟨s, t, h, -⟩⟩ := (hg _ h).2 <;> cases h⟩
  have hok : ∀ g ∈ gens, Poly.Clean (Fin n) g ∧ (Poly.den (Fin n) g : MvPolynomial (Fin n) ℚ) ≠ 0 := fun g h =>
    ⟨(hg g h).1, hpg.ok.den_ne h⟩
  constructor
  · have h := (IntData.buchbergerAlgorithm_safe (E := (· = .overflowU8)) (OrdKind.lawful k n rfl) units rfl
      hpg).spec (Spec.and_eq (algorithm_spec (k.implements n) gens hok (fun _ => True) trivial fun _ _ => trivial))
    refine h.imp fun G hG => ⟨fun g h => ⟨(hG.1 g h).1.clean, (hG.1 g h).1.isPure (hG.1 g h).2⟩, ?_,
      hG.2.1.2.1, hG.2.1.2.2.2.1, hG.2.1.2.2.2.2⟩
    exact toRelease (f := fun b => @buchbergerAlgorithm _ (field b) (k.order b) gens) .release
      (buchbergerAlgorithm_refines releaseOps_refine (Flt.order_refines .release k) _) hG.2.2
  · have h := (IntData.criterionFor_safe (E := (· = .overflowU8)) (OrdKind.lawful k n rfl) units rfl hpg
      (pairsIter gens.length) fun x hx => ⟨(mem_pairsIter.mp hx).1, (mem_pairsIter.mp hx).2.1⟩).spec
      (Spec.and_eq (C42_criterion (k.implements n) gens hok))
    refine h.imp fun a ha => ⟨ha.2.1, ?_⟩
    exact toRelease (f := fun b => @buchbergerCriterion _ (field b) (k.order b) gens) .release
      (buchbergerCriterion_refines releaseOps_refine (Flt.order_refines .release k) _) ha.2.2

/-- The twisted cubic satisfies the hypothesis. -/
example : letI := field .debug
    letI := lawful
    ∀ g ∈ twistedCubic, Poly.Clean (Fin 3) g ∧ IsPure g := by
  let _ := field .debug
  let _ := lawful
  have hc := sampleGens (k := 3) (gens := twistedCubic) (by decide)
  intro g hg
  refine ⟨(hc g hg).1, Or.inr ?_⟩
  rcases List.mem_cons.mp hg with rfl | hg
  · exact ⟨_, _, Or.inl rfl⟩
  · rw [List.mem_singleton.mp hg]; exact ⟨_, _, Or.inl rfl⟩

/-- With other coefficients it fails: `x - 2 y` and `x^64 - 1`. -/
example : letI := field .debug
    buchbergerAlgorithm (F := Rational) (OrdKind.lex.order .debug)
      [[⟨⟨1, 1⟩, [1]⟩, ⟨⟨-2, 1⟩, [0, 1]⟩], [⟨⟨1, 1⟩, [64]⟩, ⟨⟨-1, 1⟩, []⟩]] = .panic .overflowI64 := by
  let _ := field .debug
  exact (buchbergerAlgorithmN_approx 80 _).eq (by decide +kernel) (by simp)

end Rational

/-! ## `f32` and `f64` -/

namespace Flt
open Fmt
variable [Fmt] (b : Build) (powi : Flt → Int → Flt)

theorem pmUnits : @IntData.Units Flt (exact powi) (exactF64 powi) (intData powi) := by
  let _ := exact powi
  let _ := exactF64 powi
  have hB : (4 : ℤ) ≤ 2 ^ (sig + 1) := by fmt_decide
  have hdiv : ∀ {x y : Flt} {i j : ℤ}, (intData powi).isInt x i → (intData powi).isInt y j → (i = 1 ∨ i = -1) →
      (j = 1 ∨ j = -1) → ∃ z, (RField.div x y : Res Flt) = .ok z ∧ (intData powi).isInt z (i * j) := by
    intro x y i j hx hy hi hj
    refine divUnit powi hx hy ?_ hj
    change |i| ≤ 2 ^ (sig + 1)
    rcases hi with rfl | rfl
    · rw [abs_one]; omega
    · rw [abs_neg, abs_one]; omega
  have hone : (intData powi).isInt (RField.one : Flt) 1 := isInt_one
  refine ⟨hB, hone, ?_, ?_, ?_⟩
  · rintro x y (hx | hx) (hy | hy)
    · obtain ⟨z, h1, h2⟩ := hdiv hx hy (Or.inl rfl) (Or.inl rfl); exact ⟨z, h1, Or.inl h2⟩
    · obtain ⟨z, h1, h2⟩ := hdiv hx hy (Or.inl rfl) (Or.inr rfl); exact ⟨z, h1, Or.inr h2⟩
    · obtain ⟨z, h1, h2⟩ := hdiv hx hy (Or.inr rfl) (Or.inl rfl); exact ⟨z, h1, Or.inr h2⟩
    · obtain ⟨z, h1, h2⟩ := hdiv hx hy (Or.inr rfl) (Or.inr rfl); exact ⟨z, h1, Or.inl h2⟩
  · have hinv : ∀ x : Flt, (RField.inv x : Res Flt) = RField.div RField.one x := by
      intro x
      change chk (recip x) (x.rat)⁻¹ = chk (div one x) (rat one / x.rat)
      rw [rat_one, one_div]; rfl
    rintro x (hx | hx)
    · obtain ⟨z, h1, h2⟩ := hdiv hone hx (Or.inl rfl) (Or.inl rfl); exact ⟨z, (hinv x).trans h1, Or.inl h2⟩
    · obtain ⟨z, h1, h2⟩ := hdiv hone hx (Or.inl rfl) (Or.inr rfl); exact ⟨z, (hinv x).trans h1, Or.inr h2⟩
  · rintro x y (hx | hx) (hy | hy)
    all_goals obtain ⟨z, h1, h2⟩ := (intData powi).mul_ok hx hy (by
      change _ ≤ (2 : ℤ) ^ (sig + 1)
      norm_num
      omega)
    · exact ⟨z, h1, Or.inl h2⟩
    · exact ⟨z, h1, Or.inr h2⟩
    · exact ⟨z, h1, Or.inr h2⟩
    · exact ⟨z, h1, Or.inl h2⟩

/-- `± x^s` or `± (x^s - x^t)`. -/
def IsPure (p : Poly Flt) : Prop :=
  ∃ c : ℚ, (c = 1 ∨ c = -1) ∧ ((∃ s : Term Flt, p = [s] ∧ s.coef.value = some c) ∨
    ∃ s t : Term Flt, p = [s, t] ∧ s.coef.value = some c ∧ t.coef.value = some (-c))

theorem isPure_iff (p : Poly Flt) :
    IsPure p ↔ @IntData.IsPure _ (exact powi) (exactF64 powi) (intData powi) p := by
  let _ := exact powi
  let _ := exactF64 powi
  constructor
  · rintro ⟨c, rfl | rfl, ⟨s, rfl, h⟩ | ⟨s, t, rfl, h, h'⟩⟩
    · exact ⟨1, Or.inl rfl, Or.inl ⟨s, rfl, h.trans (by simp)⟩⟩
    · exact ⟨1, Or.inl rfl, Or.inr ⟨s, t, rfl, h.trans (by simp), h'.trans (by simp)⟩⟩
    · exact ⟨-1, Or.inr rfl, Or.inl ⟨s, rfl, h.trans (by simp)⟩⟩
    · exact ⟨-1, Or.inr rfl, Or.inr ⟨s, t, rfl, h.trans (by simp), h'.trans (by simp)⟩⟩
  · rintro ⟨c, rfl | rfl, ⟨s, rfl, h⟩ | ⟨s, t, rfl, h, h'⟩⟩
    · exact ⟨1, Or.inl rfl, Or.inl ⟨s, rfl, Eq.trans h (by simp)⟩⟩
    · exact ⟨1, Or.inl rfl, Or.inr ⟨s, t, rfl, Eq.trans h (by simp), Eq.trans h' (by simp)⟩⟩
    · exact ⟨-1, Or.inr rfl, Or.inl ⟨s, rfl, Eq.trans h (by simp)⟩⟩
    · exact ⟨-1, Or.inr rfl, Or.inr ⟨s, t, rfl, Eq.trans h (by simp), Eq.trans h' (by simp)⟩⟩

/-- C187 for `f32` and `f64`: with a graded order, or in one variable, and total degrees of at most 255,
division of such polynomials returns in both builds, and is the division over `ℚ`: nothing is rounded. -/
theorem C187_divide {n : ℕ} (k : OrdKind) (hk : k.graded = true ∨ n = 1) (f : Poly Flt)
    (divs : List (Poly Flt)) :
    letI := exact powi
    letI := exactF64 powi
    Poly.Clean (Fin n) f → (∀ g ∈ divs, Poly.Clean (Fin n) g) → (f = [] ∨ IsPure f) →
    (∀ g ∈ divs, g = [] ∨ IsPure g) →
    (∀ t ∈ f, t.mdeg.sum ≤ 255) → (∀ g ∈ divs, ∀ t ∈ g, t.mdeg.sum ≤ 255) →
    ∃ r qs, @divide _ (field b powi) (k.order b) f divs = .ok (r, qs) ∧ (r = [] ∨ IsPure r) ∧
      qs.length = divs.length ∧
      IsDivision (k.mathlib n) (fun i : Fin divs.length => Poly.den (Fin n) (divs.get i))
        (Poly.den (Fin n) f) (fun i => Poly.den (Fin n) (qs.getD i [])) (Poly.den (Fin n) r) := by
  let _ := exact powi
  let _ := exactF64 powi
  intro hf hg hfp hgp hfd hgd
  simp only [isPure_iff powi] at hfp hgp ⊢
  obtain ⟨⟨r, qs⟩, hx, h1, -⟩ := IntData.divide_pure_total (pmUnits powi) (fun h => by cases h) k hk
    (IntData.isPure_or hfp hf) (fun g h => IntData.isPure_or (hgp g h) (hg g h)) hfd hgd
  obtain ⟨h3, h4⟩ := (C120_determinate (k.implements n) f divs hf hg).of_ok hx
  exact ⟨r, qs, divide_refines (ops_refine b) (order_refines b k) _ _ _ hx, h1.or, h3, h4⟩

/-- C187 for `f32` and `f64`: in the computation that checks every floating point operation, no rounding
is found, only exponents can overflow; what it returns is what the real one returns, in both builds. -/
theorem C187_buchberger {n : ℕ} (k : OrdKind) (gens : List (Poly Flt)) :
    letI := exact powi
    letI := exactF64 powi
    (∀ g ∈ gens, Poly.Clean (Fin n) g ∧ IsPure g) →
    Spec (· = .overflowU8) (buchbergerAlgorithm (F := Flt) (k.order .debug) gens) (fun G =>
      (∀ g ∈ G, Poly.Clean (Fin n) g ∧ IsPure g) ∧
      @buchbergerAlgorithm _ (field b powi) (k.order b) gens = .ok G ∧
      IsGroebner (k.mathlib n) (Ideal.span (dens (Fin n) gens)) (dens (Fin n) G) ∧
      LeadsIncomparable (k.mathlib n) G ∧ IsInterReduced (k.mathlib n) (dens (Fin n) G)) := by
  let _ := exact powi
  let _ := exactF64 powi
  intro hg
  simp only [isPure_iff powi] at hg ⊢
  have hpg : IntData.PureGens (intData powi) (Fin n) gens := fun g h =>
    ⟨(hg g h).2.purePoly (hg g h).1, by
      rintro rfl
      obtain ⟨c, -, ⟨s, h, -⟩ | ⟨s, t, h, -⟩⟩ := (hg _ h).2 <;> cases h⟩
  have hok : ∀ g ∈ gens, Poly.Clean (Fin n) g ∧ (Poly.den (Fin n) g : MvPolynomial (Fin n) ℚ) ≠ 0 := fun g h =>
    ⟨(hg g h).1, hpg.ok.den_ne h⟩
  have h := (IntData.buchbergerAlgorithm_safe (E := (· = .overflowU8)) (OrdKind.lawful k n rfl) (pmUnits powi) rfl
    hpg).spec (Spec.and_eq (algorithm_spec (k.implements n) gens hok (fun _ => True) trivial fun _ _ => trivial))
  refine h.imp fun G hG => ⟨fun g h => ⟨(hG.1 g h).1.clean, (hG.1 g h).1.isPure (hG.1 g h).2⟩, ?_,
    hG.2.1.2.1, hG.2.1.2.2.2.1, hG.2.1.2.2.2.2⟩
  exact buchbergerAlgorithm_refines (ops_refine b) (order_refines b k) _ _ hG.2.2

/-- `y^2 - 1` is such a polynomial. -/
example : @Poly.Clean Flt (exact powi) ℚ _ (exactF64 powi) (Fin 2) _ fG₂ ∧ IsPure fG₂ := by
  have h : (ofInt 1).value = some 1 ∧ (ofInt (-1)).value = some (-1) := by fmt_decide
  exact ⟨sampleOk.clean powi (by fmt_decide), 1, Or.inl rfl, Or.inr ⟨_, _, rfl, h.1, h.2⟩⟩

end Flt
end Verif
