import Verif.Props.LastVar
import Mathlib.RingTheory.MvPolynomial.Homogeneous

/-!
# Property C204: putting the last variable to one

A basis of homogeneous generators for `GRevLex` gives a basis of the affine problem: put the last variable
to one in every element.
-/

namespace Verif
open Res MvPolynomial LawfulRField ExtraVar

/-! ### The program -/

section
variable {F : Type}

/-- A polynomial with `x_k` put to one, `x_k` being the last variable. The terms are kept apart. -/
def setLast (k : ℕ) (p : Poly F) : Poly F :=
  p.map fun t => ⟨t.coef, MDeg.fromVec (t.mdeg.take k)⟩

end

section
variable {F : Type} [RField F] {K : Type} [Field K] [LawfulRField F K] {k : ℕ}

/-! ### Monomials -/

/-- The exponents of the variables but the last. -/
noncomputable def restr (e : Fin (k + 1) →₀ ℕ) : Fin k →₀ ℕ :=
  Finsupp.equivFunOnFinite.symm fun i => e i.castSucc

@[simp] theorem restr_apply (e : Fin (k + 1) →₀ ℕ) (i : Fin k) : restr e i = e i.castSucc := rfl

theorem restr_mono {a b : Fin (k + 1) →₀ ℕ} (h : a ≤ b) : restr a ≤ restr b := fun i => h i.castSucc

theorem extend_restr (e : Fin (k + 1) →₀ ℕ) (i : ℕ) (hi : i < k) : extend (restr e) i = extend e i := by
  unfold extend
  rw [dif_pos hi, dif_pos (by omega)]
  rfl

theorem tot_restr (e : Fin (k + 1) →₀ ℕ) :
    tot (k + 1) (extend e) = tot k (extend (restr e)) + extend e k := by
  unfold tot
  rw [Finset.sum_range_succ]
  congr 1
  exact Finset.sum_congr rfl fun i hi => (extend_restr e i (Finset.mem_range.mp hi)).symm

theorem extend_last (e : Fin (k + 1) →₀ ℕ) : extend e k = e (Fin.last k) := by
  simp [extend, Fin.last]

/-- Among monomials of one degree, the exponent of the last variable is determined by the others. -/
theorem restr_inj {a b : Fin (k + 1) →₀ ℕ} (ht : tot (k + 1) (extend a) = tot (k + 1) (extend b))
    (h : restr a = restr b) : a = b := by
  rw [tot_restr, tot_restr, h, extend_last, extend_last] at ht
  ext i
  refine Fin.lastCases ?_ (fun j => ?_) i
  · omega
  · exact DFunLike.congr_fun h j

/-- Among monomials of one degree, `GRevLex` compares the parts without the last variable. -/
theorem restr_lt {a b : Fin (k + 1) →₀ ℕ} (ht : tot (k + 1) (extend a) = tot (k + 1) (extend b))
    (h : (OrdKind.gRevLex.mathlib (k + 1)).toSyn a < (OrdKind.gRevLex.mathlib (k + 1)).toSyn b) :
    (OrdKind.gRevLex.mathlib k).toSyn (restr a) < (OrdKind.gRevLex.mathlib k).toSyn (restr b) := by
  rw [OrdKind.mathlib_lt] at h ⊢
  rcases h with h | ⟨-, j, hj, hlt⟩
  · exact absurd h (by omega)
  · rw [tot_restr, tot_restr] at ht
    rcases lt_trichotomy j k with hjk | rfl | hjk
    · refine Or.inr ⟨by have := hj k hjk; omega, j, fun i hi => ?_, ?_⟩
      · by_cases hik : i < k
        · rw [extend_restr _ _ hik, extend_restr _ _ hik]; exact hj i hi
        · rw [extend_vanish _ _ (by omega), extend_vanish _ _ (by omega)]
      · rw [extend_restr _ _ hjk, extend_restr _ _ hjk]; exact hlt
    · exact Or.inl (by omega)
    · rw [extend_vanish a j (by omega), extend_vanish b j (by omega)] at hlt
      exact absurd hlt (lt_irrefl _)

/-! ### Polynomials -/

/-- Putting the last variable to one. -/
noncomputable def lastToOne : MvPolynomial (Fin (k + 1)) K →ₐ[K] MvPolynomial (Fin k) K :=
  aeval (Fin.lastCases 1 fun i => X i)

@[simp] theorem lastToOne_last : lastToOne (last : MvPolynomial (Fin (k + 1)) K) = 1 := by
  unfold lastToOne last
  rw [aeval_X, Fin.lastCases_last]

theorem lastToOne_monomial (e : Fin (k + 1) →₀ ℕ) (c : K) :
    lastToOne (monomial e c) = monomial (restr e) c := by
  unfold lastToOne
  rw [aeval_monomial, monomial_eq, Finsupp.prod_fintype _ _ (fun _ => pow_zero _),
    Finsupp.prod_fintype _ _ (fun _ => pow_zero _), Fin.prod_univ_castSucc]
  simp [algebraMap_eq]

theorem lastToOne_surjective :
    Function.Surjective (lastToOne : MvPolynomial (Fin (k + 1)) K → MvPolynomial (Fin k) K) := by
  intro p
  refine ⟨rename Fin.castSucc p, ?_⟩
  unfold lastToOne
  rw [aeval_rename]
  have : (Fin.lastCases 1 fun i => X i : Fin (k + 1) → MvPolynomial (Fin k) K) ∘ Fin.castSucc = X := by
    funext i
    simp
  rw [this, aeval_X_left_apply]

theorem coeff_lastToOne (p : MvPolynomial (Fin (k + 1)) K) (a : Fin k →₀ ℕ) :
    coeff a (lastToOne p) = ∑ e ∈ p.support, if restr e = a then coeff e p else 0 := by
  classical
  conv_lhs => rw [p.as_sum, map_sum, coeff_sum]
  refine Finset.sum_congr rfl fun e _ => ?_
  rw [lastToOne_monomial, coeff_monomial]

/-- All monomials of the polynomial have the same degree. -/
def OneDegree (p : MvPolynomial (Fin (k + 1)) K) : Prop :=
  ∃ d, IsWeightedHomogeneous (fun _ => 1 : Fin (k + 1) → ℕ) p d

theorem OneDegree.tot {p : MvPolynomial (Fin (k + 1)) K} (h : OneDegree p) {a b : Fin (k + 1) →₀ ℕ}
    (ha : a ∈ p.support) (hb : b ∈ p.support) : tot (k + 1) (extend a) = tot (k + 1) (extend b) := by
  obtain ⟨d, hd⟩ := h
  have key : ∀ a ∈ p.support, Verif.tot (k + 1) (extend a) = d := by
    intro a ha
    have := hd (mem_support_iff.mp ha)
    rw [Finsupp.weight_eq_sum] at this
    rw [← this]
    unfold Verif.tot
    rw [← Fin.sum_univ_eq_sum_range]
    refine Finset.sum_congr rfl fun i _ => ?_
    have : i.val < k + 1 := i.2
    simp [extend, this]
  rw [key a ha, key b hb]

theorem OneDegree.coeff_restr {p : MvPolynomial (Fin (k + 1)) K} (h : OneDegree p)
    {a : Fin (k + 1) →₀ ℕ} (ha : a ∈ p.support) : coeff (restr a) (lastToOne p) = coeff a p := by
  rw [coeff_lastToOne, Finset.sum_eq_single_of_mem a ha, if_pos rfl]
  intro e he hne
  rw [if_neg fun heq => hne (restr_inj (h.tot he ha) heq)]

/-- The leading monomial of a homogeneous polynomial for `GRevLex` loses the last variable. -/
theorem OneDegree.degree {p : MvPolynomial (Fin (k + 1)) K} (h : OneDegree p) (hp : p ≠ 0) :
    lastToOne p ≠ 0 ∧ (OrdKind.gRevLex.mathlib k).degree (lastToOne p) =
      restr ((OrdKind.gRevLex.mathlib (k + 1)).degree p) := by
  have hD := (OrdKind.gRevLex.mathlib (k + 1)).degree_mem_support hp
  have hc : restr ((OrdKind.gRevLex.mathlib (k + 1)).degree p) ∈ (lastToOne p).support := by
    rw [mem_support_iff, h.coeff_restr hD]
    exact mem_support_iff.mp hD
  refine ⟨fun h0 => by rw [h0] at hc; simp at hc,
    (OrdKind.gRevLex.mathlib k).toSyn.injective (le_antisymm ?_ ((OrdKind.gRevLex.mathlib k).le_degree hc))⟩
  rw [(OrdKind.gRevLex.mathlib k).degree_le_iff]
  intro b hb
  rw [mem_support_iff, coeff_lastToOne] at hb
  obtain ⟨e, he, hne⟩ := Finset.exists_ne_zero_of_sum_ne_zero hb
  have hre : restr e = b := by
    by_contra hn
    exact hne (if_neg hn)
  rw [← hre]
  rcases ((OrdKind.gRevLex.mathlib (k + 1)).le_degree he).lt_or_eq with hlt | heq
  · exact (restr_lt (h.tot he hD) hlt).le
  · rw [(OrdKind.gRevLex.mathlib (k + 1)).toSyn.injective heq]

/-- Every element of the image of an ideal with homogeneous generators is the image of a homogeneous
element. -/
theorem exists_oneDegree {S : Set (MvPolynomial (Fin (k + 1)) K)} (hS : ∀ f ∈ S, OneDegree f)
    {f : MvPolynomial (Fin k) K} (hf : f ∈ Ideal.span (lastToOne '' S)) :
    ∃ p ∈ Ideal.span S, OneDegree p ∧ lastToOne p = f := by
  have : Ideal.span (lastToOne '' S) = (Ideal.span S).map (lastToOne (K := K) (k := k)) :=
    (Ideal.map_span _ _).symm
  rw [this, Ideal.mem_map_iff_of_surjective _ lastToOne_surjective] at hf
  obtain ⟨p, hp, rfl⟩ := hf
  have hX : (last : MvPolynomial (Fin (k + 1)) K).IsHomogeneous 1 := isHomogeneous_X _ _
  refine ⟨∑ i ∈ Finset.range (p.totalDegree + 1),
    last ^ (p.totalDegree - i) * homogeneousComponent i p, ?_, ⟨p.totalDegree, ?_⟩, ?_⟩
  · exact Ideal.sum_mem _ fun i _ => Ideal.mul_mem_left _ _ (component_mem hS hp i)
  · have key : (∑ i ∈ Finset.range (p.totalDegree + 1),
        last ^ (p.totalDegree - i) * homogeneousComponent i p).IsHomogeneous p.totalDegree := by
      refine IsHomogeneous.sum _ _ _ fun i hi => ?_
      have h := (hX.pow (p.totalDegree - i)).mul (homogeneousComponent_isHomogeneous i p)
      have hi' := Finset.mem_range.mp hi
      rwa [show 1 * (p.totalDegree - i) + i = p.totalDegree by omega] at h
    exact key
  · rw [map_sum]
    conv_rhs => rw [← p.sum_homogeneousComponent, map_sum]
    refine Finset.sum_congr rfl fun i _ => ?_
    rw [map_mul, map_pow, lastToOne_last, one_pow, one_mul]

/-- A Gröbner basis of homogeneous polynomials for `GRevLex`, with the last variable put to one, is one of
the image of the ideal. -/
theorem IsGroebner.lastToOne {S G : Set (MvPolynomial (Fin (k + 1)) K)} (hS : ∀ f ∈ S, OneDegree f)
    (hG : IsGroebner (OrdKind.gRevLex.mathlib (k + 1)) (Ideal.span S) G) (hG1 : ∀ g ∈ G, OneDegree g) :
    IsGroebner (OrdKind.gRevLex.mathlib k) (Ideal.span (Verif.lastToOne '' S)) (Verif.lastToOne '' G) := by
  refine ⟨?_, fun f hf hf0 => ?_⟩
  · rintro _ ⟨g, hg, rfl⟩
    have : Verif.lastToOne g ∈ (Ideal.span S).map (Verif.lastToOne (K := K) (k := k)) :=
      Ideal.mem_map_of_mem _ (hG.1 hg)
    rwa [Ideal.map_span] at this
  · obtain ⟨p, hp, hp1, rfl⟩ := exists_oneDegree hS hf
    have hp0 : p ≠ 0 := by rintro rfl; exact hf0 (map_zero _)
    obtain ⟨g, hg, hg0, hle⟩ := hG.2 p hp hp0
    refine ⟨_, ⟨g, hg, rfl⟩, ((hG1 g hg).degree hg0).1, ?_⟩
    rw [((hG1 g hg).degree hg0).2, (hp1.degree hp0).2]
    exact restr_mono hle

/-! ### Lists of terms -/

omit [RField F] in
theorem setLast_deg (m : MDeg) (i : ℕ) :
    (MDeg.fromVec (m.take k)).deg i = if i < k then m.deg i else 0 := by
  rw [MDeg.deg_fromVec]
  unfold MDeg.deg
  rw [List.getD_eq_getElem?_getD, List.getD_eq_getElem?_getD, List.getElem?_take]
  split <;> rfl

theorem setLast_toF (m : MDeg) :
    MDeg.toF (Fin k) (MDeg.fromVec (m.take k)) = restr (MDeg.toF (Fin (k + 1)) m) := by
  ext i
  rw [MDeg.toF_apply, setLast_deg, restr_apply, MDeg.toF_apply]
  exact if_pos i.2

theorem setLast_den (p : Poly F) : Poly.den (Fin k) (setLast k p) =
    lastToOne (Poly.den (Fin (k + 1)) p : MvPolynomial (Fin (k + 1)) K) := by
  induction p with
  | nil => simp [setLast]
  | cons t p ih =>
    have : setLast k (t :: p) = ⟨t.coef, MDeg.fromVec (t.mdeg.take k)⟩ :: setLast k p := rfl
    rw [this, Poly.den_cons, Poly.den_cons, map_add, ih]
    congr 1
    unfold Term.den
    rw [lastToOne_monomial, setLast_toF]

theorem setLast_clean {p : Poly F} (hp : Poly.Clean (Fin (k + 1)) p)
    (h : OneDegree (Poly.den (Fin (k + 1)) p : MvPolynomial (Fin (k + 1)) K)) :
    Poly.Clean (Fin k) (setLast k p) := by
  refine ⟨?_, ?_⟩
  · intro t ht
    obtain ⟨u, hu, rfl⟩ := List.mem_map.mp ht
    have hc := hp.terms u hu
    refine ⟨⟨hc.wf, MDeg.fromVec_clean fun d hd => hc.mdeg.lt d (List.mem_of_mem_take hd), ?_⟩, hc.ne⟩
    intro i hi
    simp only [setLast_deg] at hi
    by_cases hik : i < k
    · exact ⟨⟨i, hik⟩, rfl⟩
    · rw [if_neg hik] at hi; exact absurd rfl hi
  · unfold setLast
    rw [List.map_map]
    have e : (Term.mdeg ∘ fun t : Term F => (⟨t.coef, MDeg.fromVec (t.mdeg.take k)⟩ : Term F)) =
        (fun m => MDeg.fromVec (List.take k m)) ∘ Term.mdeg := rfl
    rw [e, ← List.map_map]
    refine List.Nodup.map_on ?_ hp.nodup
    intro a ha b hb hab
    obtain ⟨t, ht, rfl⟩ := List.mem_map.mp ha
    obtain ⟨u, hu, rfl⟩ := List.mem_map.mp hb
    have ct := hp.terms t ht
    have cu := hp.terms u hu
    refine MDeg.toF_inj ct.mdeg cu.mdeg ct.vars cu.vars ?_
    refine restr_inj (h.tot ((Poly.mem_support_den hp).mpr ⟨t, ht, rfl⟩)
      ((Poly.mem_support_den hp).mpr ⟨u, hu, rfl⟩)) ?_
    rw [← setLast_toF, ← setLast_toF]
    exact congrArg _ hab

/-- C204. What `setLast` computes: the image under the homomorphism with `x_k ↦ 1` and `x_i ↦ x_i` for the
other variables. -/
theorem C204_setLast (p : Poly F) (hp : Poly.Clean (Fin (k + 1)) p)
    (hw : ∃ d, ∀ t ∈ p, ∑ i : Fin (k + 1), t.mdeg.deg i = d) :
    Poly.Clean (Fin k) (setLast k p) ∧ (Poly.den (Fin k) (setLast k p) : MvPolynomial (Fin k) K) =
      aeval (Fin.lastCases 1 fun i => X i) (Poly.den (Fin (k + 1)) p : MvPolynomial (Fin (k + 1)) K) := by
  obtain ⟨d, hd⟩ := hw
  exact ⟨setLast_clean (K := K) hp ⟨d, total_homogeneous hp hd⟩, setLast_den p⟩

theorem setLast_dens (l : List (Poly F)) : (dens (Fin k) (l.map (setLast k)) : Set (MvPolynomial (Fin k) K)) =
    lastToOne '' (dens (Fin (k + 1)) l) := by
  ext x
  constructor
  · rintro ⟨g, hg, rfl⟩
    obtain ⟨p, hp, rfl⟩ := List.mem_map.mp hg
    exact ⟨_, mem_dens hp, (setLast_den p).symm⟩
  · rintro ⟨_, ⟨p, hp, rfl⟩, rfl⟩
    exact ⟨_, List.mem_map.mpr ⟨p, hp, rfl⟩, (setLast_den p).symm⟩

/-- C204. If in each generator all terms have the same total degree, putting the last variable to one in the
elements of the basis for `GRevLex` gives a Gröbner basis for `GRevLex`, in one variable less, of the
ideal of the generators with the last variable put to one. None of its elements is zero. -/
theorem C204_affine (gens : List (Poly F))
    (hg : ∀ g ∈ gens, Poly.Clean (Fin (k + 1)) g ∧
      Poly.den (Fin (k + 1)) g ≠ (0 : MvPolynomial (Fin (k + 1)) K))
    (hw : ∀ g ∈ gens, ∃ d, ∀ t ∈ g, ∑ i : Fin (k + 1), t.mdeg.deg i = d) :
    Spec (PolyPanic F) (Computer.buchbergerAlgorithm (OrdKind.gRevLex.order .debug) gens) (fun G =>
      (∀ h ∈ G.map (setLast k), Poly.den (Fin k) h ≠ (0 : MvPolynomial (Fin k) K)) ∧
      GroebnerList (K := K) (OrdKind.gRevLex.mathlib k) (G.map (setLast k)) ∧
      Ideal.span (dens (Fin k) (G.map (setLast k)) : Set (MvPolynomial (Fin k) K)) =
        Ideal.span (dens (Fin k) (gens.map (setLast k)))) := by
  have hO := OrdKind.implements .gRevLex (k + 1)
  have hw' : ∀ g ∈ gens, OneDegree (Poly.den (Fin (k + 1)) g : MvPolynomial (Fin (k + 1)) K) :=
    fun g h => by
      obtain ⟨d, hd⟩ := hw g h
      exact ⟨d, total_homogeneous (hg g h).1 hd⟩
  refine ((algorithm_spec hO gens hg (fun _ => True) trivial fun _ _ => trivial).and
    (C140_homogeneous (K := K) hO gens hg (fun _ => 1 : Fin (k + 1) → ℕ) hw')).imp fun G ⟨h, hh⟩ => ?_
  have hQ : IsGroebner (OrdKind.gRevLex.mathlib k)
      (Ideal.span (dens (Fin k) (gens.map (setLast k)) : Set (MvPolynomial (Fin k) K)))
      (dens (Fin k) (G.map (setLast k))) := by
    rw [setLast_dens, setLast_dens]
    refine h.2.1.lastToOne ?_ ?_
    · rintro _ ⟨g, hg, rfl⟩
      exact hw' g hg
    · rintro _ ⟨g, hg, rfl⟩
      exact hh g hg
  have hne : ∀ p ∈ G.map (setLast k), Poly.den (Fin k) p ≠ (0 : MvPolynomial (Fin k) K) := by
    intro p hp
    obtain ⟨g, hgG, rfl⟩ := List.mem_map.mp hp
    rw [setLast_den]
    exact (OneDegree.degree (hh g hgG) (h.1.den_ne hgG)).1
  refine ⟨hne, ⟨fun p hp => ?_, fun f hf hf0 => ?_⟩, hQ.span_eq⟩
  · obtain ⟨g, hgG, rfl⟩ := List.mem_map.mp hp
    exact setLast_clean (K := K) (h.1 g hgG).1 (hh g hgG)
  · rw [hQ.span_eq] at hf
    obtain ⟨_, ⟨q, hq, rfl⟩, h0, hle⟩ := hQ.2 f hf hf0
    exact ⟨q, hq, h0, hle⟩

/-- C204. Buchberger's criterion then accepts the elements with the last variable put to one. -/
theorem C204_criterion (gens : List (Poly F))
    (hg : ∀ g ∈ gens, Poly.Clean (Fin (k + 1)) g ∧
      Poly.den (Fin (k + 1)) g ≠ (0 : MvPolynomial (Fin (k + 1)) K))
    (hw : ∀ g ∈ gens, ∃ d, ∀ t ∈ g, ∑ i : Fin (k + 1), t.mdeg.deg i = d) :
    Spec (PolyPanic F) (do
      let G ← Computer.buchbergerAlgorithm (OrdKind.gRevLex.order .debug) gens
      Computer.buchbergerCriterion (OrdKind.gRevLex.order .debug) (G.map (setLast k)))
      (fun b => b = true) := by
  refine (C204_affine gens hg hw).bind fun G hG => ?_
  refine (C42_criterion (K := K) (OrdKind.implements .gRevLex k) _
    fun g h => ⟨hG.2.1.1 g h, hG.1 g h⟩).imp fun b hb => ?_
  exact hb.mpr fun f hf hf0 => by
    obtain ⟨g, hg, -, hle⟩ := hG.2.1.2 f hf hf0
    exact ⟨g, hg, hle⟩

end

/-! ### Examples -/

/-- `x^2 - y z` in the variables `x, y, z`. -/
def afP : Poly Rational := [⟨⟨1, 1⟩, [2]⟩, ⟨⟨-1, 1⟩, [0, 1, 1]⟩]
/-- `x y - z^2`. -/
def afQ : Poly Rational := [⟨⟨1, 1⟩, [1, 1]⟩, ⟨⟨-1, 1⟩, [0, 0, 2]⟩]
/-- `x z - y^2`. -/
def afR : Poly Rational := [⟨⟨1, 1⟩, [1, 0, 1]⟩, ⟨⟨-1, 1⟩, [0, 2]⟩]

/-- The hypotheses hold for `x^2 - y z` and `x y - z^2`. -/
example : letI := Rational.field .debug
    letI := Rational.lawful
    (∀ g ∈ [afP, afQ], Poly.Clean (Fin 3) g ∧ Poly.den (Fin 3) g ≠ (0 : MvPolynomial (Fin 3) ℚ)) ∧
    ∀ g ∈ [afP, afQ], ∃ d, ∀ t ∈ g, ∑ i : Fin 3, t.mdeg.deg i = d :=
  ⟨sampleGens (by decide), fun g hg => ⟨2, by revert g; decide⟩⟩

/-- Their basis has the third element `y^2 z - x z^2`; with `z` put to one the three are the basis
`x^2 - y, x y - 1, y^2 - x` of the affine problem. -/
example : letI := Rational.field .debug
    Computer.buchbergerAlgorithm (OrdKind.gRevLex.order .debug) [afP, afQ] =
      .ok [afP, afQ, [⟨⟨1, 1⟩, [0, 2, 1]⟩, ⟨⟨-1, 1⟩, [1, 0, 2]⟩]] ∧
    ([afP, afQ, [⟨⟨1, 1⟩, [0, 2, 1]⟩, ⟨⟨-1, 1⟩, [1, 0, 2]⟩]].map (setLast 2) : List (Poly Rational)) =
      [[⟨⟨1, 1⟩, [2]⟩, ⟨⟨-1, 1⟩, [0, 1]⟩], [⟨⟨1, 1⟩, [1, 1]⟩, ⟨⟨-1, 1⟩, []⟩],
        [⟨⟨1, 1⟩, [0, 2]⟩, ⟨⟨-1, 1⟩, [1]⟩]] := by
  let _ := Rational.field .debug
  exact ⟨(Computer.buchbergerAlgorithmN_approx 30 _).eq (by decide +kernel) (by simp), by decide⟩

/-- C204. With `GrLex` it is not so: the basis of `x z - y^2, x y - z^2` has the third element `y^3 - z^3`,
and Buchberger's criterion refuses the three with `z` put to one. -/
theorem C204_grLex : letI := Rational.field .debug
    ∃ G, Computer.buchbergerAlgorithm (OrdKind.grLex.order .debug) [afR, afQ] = .ok G ∧
      Computer.buchbergerCriterion (OrdKind.grLex.order .debug) (G.map (setLast 2)) = .ok false := by
  let _ := Rational.field .debug
  exact ⟨[afR, afQ, [⟨⟨1, 1⟩, [0, 3]⟩, ⟨⟨-1, 1⟩, [0, 0, 3]⟩]],
    (Computer.buchbergerAlgorithmN_approx 30 _).eq (by decide +kernel) (by simp),
    (Computer.buchbergerCriterionN_approx 30 _).eq (by decide +kernel) (by simp)⟩

end Verif
