import Verif.Props.Disjoint
import Verif.Props.Division

/-!
# Property C185: rescaled variables
-/

namespace Verif
open Res MvPolynomial LawfulRField MOrder

section
variable {σ : Type} {K : Type} [Field K] {m : MonomialOrder σ}

/-- Replace every variable `x_i` by `a_i x_i`. -/
noncomputable def rescale (a : σ → K) : MvPolynomial σ K →ₐ[K] MvPolynomial σ K :=
  aeval fun i => C (a i) * X i

theorem rescale_monomial (a : σ → K) (e : σ →₀ ℕ) (c : K) :
    rescale a (monomial e c) = monomial e ((e.prod fun i k => a i ^ k) * c) := by
  unfold rescale
  rw [aeval_monomial, ← C_mul_monomial, monomial_eq, ← mul_assoc]
  simp only [mul_pow, Finsupp.prod_mul, algebraMap_eq]
  rw [map_finsuppProd]
  simp only [map_pow]
  ring

theorem coeff_rescale (a : σ → K) (f : MvPolynomial σ K) (e : σ →₀ ℕ) :
    coeff e (rescale a f) = (e.prod fun i k => a i ^ k) * coeff e f := by
  classical
  induction f using MvPolynomial.induction_on' with
  | monomial d c =>
    rw [rescale_monomial, coeff_monomial, coeff_monomial]
    split
    · next h => rw [h]
    · rw [mul_zero]
  | add p q hp hq => rw [map_add, coeff_add, hp, hq, coeff_add, mul_add]

theorem support_rescale {a : σ → K} (ha : ∀ i, a i ≠ 0) (f : MvPolynomial σ K) :
    (rescale a f).support = f.support := by
  ext e
  rw [mem_support_iff, mem_support_iff, coeff_rescale, Ne, mul_eq_zero, not_or]
  exact ⟨fun h => h.2, fun h => ⟨Finset.prod_ne_zero_iff.mpr fun i _ => pow_ne_zero _ (ha i), h⟩⟩

theorem degree_rescale {a : σ → K} (ha : ∀ i, a i ≠ 0) (f : MvPolynomial σ K) :
    m.degree (rescale a f) = m.degree f := by
  unfold MonomialOrder.degree
  rw [support_rescale ha]

theorem rescale_ne_zero {a : σ → K} (ha : ∀ i, a i ≠ 0) {f : MvPolynomial σ K} :
    rescale a f ≠ 0 ↔ f ≠ 0 := by
  rw [← support_nonempty, support_rescale ha, support_nonempty]

theorem rescale_inv {a : σ → K} (ha : ∀ i, a i ≠ 0) (f : MvPolynomial σ K) :
    rescale a (rescale (fun i => (a i)⁻¹) f) = f := by
  ext e
  rw [coeff_rescale, coeff_rescale, ← mul_assoc, ← Finsupp.prod_mul]
  rw [Finsupp.prod, Finset.prod_eq_one, one_mul]
  intro i _
  rw [← mul_pow, mul_inv_cancel₀ (ha i), one_pow]

/-- Rescaling the variables of a Gröbner basis. -/
theorem IsGroebner.rescale {a : σ → K} (ha : ∀ i, a i ≠ 0) {S G : Set (MvPolynomial σ K)}
    (h : IsGroebner m (Ideal.span S) G) :
    IsGroebner m (Ideal.span (Verif.rescale a '' S)) (Verif.rescale a '' G) := by
  have hmap : Ideal.span (Verif.rescale a '' S) = Ideal.map (Verif.rescale a) (Ideal.span S) :=
    (Ideal.map_span _ _).symm
  rw [hmap]
  have ha' : ∀ i, (a i)⁻¹ ≠ 0 := fun i => inv_ne_zero (ha i)
  refine ⟨?_, fun f hf hf0 => ?_⟩
  · rintro _ ⟨g, hg, rfl⟩
    exact Ideal.mem_map_of_mem _ (h.1 hg)
  · have hb : Verif.rescale (fun i => (a i)⁻¹) f ∈ Ideal.span S := by
      have hle : Ideal.map (Verif.rescale a) (Ideal.span S) ≤
          Ideal.comap (Verif.rescale fun i => (a i)⁻¹) (Ideal.span S) := by
        rw [Ideal.map_le_iff_le_comap]
        intro g hg
        have e := rescale_inv ha' g
        simp only [inv_inv] at e
        change Verif.rescale (fun i => (a i)⁻¹) (Verif.rescale a g) ∈ Ideal.span S
        rw [e]
        exact hg
      exact hle hf
    obtain ⟨g, hg, hg0, hle⟩ := h.2 _ hb ((rescale_ne_zero ha').mpr hf0)
    rw [degree_rescale ha'] at hle
    exact ⟨_, ⟨g, hg, rfl⟩, (rescale_ne_zero ha).mpr hg0, by rw [degree_rescale ha]; exact hle⟩

theorem IsInterReduced.rescale {a : σ → K} (ha : ∀ i, a i ≠ 0) {G : Set (MvPolynomial σ K)}
    (h : IsInterReduced m G) : IsInterReduced m (Verif.rescale a '' G) := by
  rintro _ ⟨f, hf, rfl⟩ _ ⟨g, hg, rfl⟩ hne e he
  rw [support_rescale ha] at he
  rw [degree_rescale ha]
  exact h f hf g hg (fun hfg => hne (by rw [hfg])) e he

end

section
variable {F : Type} [RField F] {K : Type} [Field K] [LawfulRField F K] {n : ℕ} {O : MOrder}
  {m : MonomialOrder (Fin n)}

theorem dens_rescale {a : Fin n → K} {gens gens' : List (Poly F)}
    (h : gens'.map (Poly.den (Fin n)) = gens.map fun g => rescale a (Poly.den (Fin n) g)) :
    (dens (Fin n) gens' : Set (MvPolynomial (Fin n) K)) = rescale a '' dens (Fin n) gens := by
  have e : ∀ L : List (Poly F), (dens (Fin n) L : Set (MvPolynomial (Fin n) K)) =
      {p | p ∈ L.map (Poly.den (Fin n))} := by
    intro L; ext p; simp [dens, eq_comm]
  rw [e gens', h]
  ext p
  simp only [List.mem_map, Set.mem_ofPred_eq, Set.mem_image]
  constructor
  · rintro ⟨g, hg, rfl⟩; exact ⟨_, mem_dens hg, rfl⟩
  · rintro ⟨_, ⟨g, hg, rfl⟩, rfl⟩; exact ⟨g, hg, rfl⟩

/-- C185 for Gröbner bases: if the generators of the second list are those of the first with every
variable `x_i` replaced by `a_i x_i`, the `a_i` not being zero, then so are the results, up to nonzero
scalars and the order. -/
theorem C185_groebner (hO : Implements O m) (a : Fin n → K) (ha : ∀ i, a i ≠ 0) (gens gens' : List (Poly F))
    (h : ∀ g ∈ gens, Poly.Clean (Fin n) g ∧ Poly.den (Fin n) g ≠ 0)
    (h' : ∀ g ∈ gens', Poly.Clean (Fin n) g ∧ Poly.den (Fin n) g ≠ 0)
    (hr : gens'.map (Poly.den (Fin n)) = gens.map fun g => rescale a (Poly.den (Fin n) g))
    {G G' : List (Poly F)} (r : Computer.buchbergerAlgorithm O gens = .ok G)
    (r' : Computer.buchbergerAlgorithm O gens' = .ok G') :
    (fun p => (m.leadingCoeff p)⁻¹ • p) '' dens (Fin n) G' =
      (fun p => (m.leadingCoeff p)⁻¹ • p) '' (rescale a '' dens (Fin n) G) ∧
    G'.length = G.length := by
  obtain ⟨ok, gb, -, inc, red⟩ :=
    (algorithm_spec hO gens h (fun _ => True) trivial fun _ _ => trivial).of_ok r
  obtain ⟨ok', gb', -, inc', red'⟩ :=
    (algorithm_spec hO gens' h' (fun _ => True) trivial fun _ _ => trivial).of_ok r'
  have gbr := gb.rescale ha
  rw [← dens_rescale hr] at gbr
  have redr := red.rescale ha
  have key : (fun p => (m.leadingCoeff p)⁻¹ • p) '' dens (Fin n) G' =
      (fun p => (m.leadingCoeff p)⁻¹ • p) '' (rescale a '' dens (Fin n) G) := by
    apply Set.Subset.antisymm
    · rintro _ ⟨p, hp, rfl⟩
      obtain ⟨q, hq, e⟩ := gb'.reduced_unique gbr
        (by rintro ⟨g, hgm, h0⟩; exact ok'.den_ne hgm h0.symm) red' redr hp
      exact ⟨q, hq, e.symm⟩
    · rintro _ ⟨p, hp, rfl⟩
      obtain ⟨q, hq, e⟩ := gbr.reduced_unique gb'
        (by rintro ⟨_, ⟨g, hgm, rfl⟩, h0⟩; exact (rescale_ne_zero ha).mpr (ok.den_ne hgm) h0) redr red' hp
      exact ⟨q, hq, e.symm⟩
  refine ⟨key, ?_⟩
  have deg : ∀ p : MvPolynomial (Fin n) K, p ≠ 0 →
      m.degree ((m.leadingCoeff p)⁻¹ • p) = m.degree p := fun p hp =>
    m.degree_smul_of_mem_nonZeroDivisors
      (mem_nonZeroDivisors_of_ne_zero (inv_ne_zero (m.leadingCoeff_ne_zero_iff.mpr hp)))
  have nd : ∀ L : List (Poly F), LeadsIncomparable (K := K) m L →
      (L.map fun p => m.degree (Poly.den (Fin n) p : MvPolynomial (Fin n) K)).Nodup := by
    intro L hL
    rw [List.Nodup, List.pairwise_map]
    exact hL.imp fun h heq => h.1 heq.le
  have hperm := (List.perm_ext_iff_of_nodup (nd _ inc') (nd _ inc)).mpr fun d => by
    constructor
    · intro hd
      obtain ⟨p, hp, rfl⟩ := List.mem_map.mp hd
      have : (m.leadingCoeff (Poly.den (Fin n) p : MvPolynomial (Fin n) K))⁻¹ • Poly.den (Fin n) p ∈
        (fun p => (m.leadingCoeff p)⁻¹ • p) '' (rescale a '' dens (Fin n) G) := key ▸ ⟨_, mem_dens hp, rfl⟩
      obtain ⟨_, ⟨_, ⟨g, hgm, rfl⟩, rfl⟩, e⟩ := this
      refine List.mem_map.mpr ⟨g, hgm, ?_⟩
      have e' := congrArg m.degree e
      rwa [deg _ (ok'.den_ne hp), deg _ ((rescale_ne_zero ha).mpr (ok.den_ne hgm)), degree_rescale ha] at e'
    · intro hd
      obtain ⟨p, hp, rfl⟩ := List.mem_map.mp hd
      have : (m.leadingCoeff (rescale a (Poly.den (Fin n) p)))⁻¹ • rescale a (Poly.den (Fin n) p) ∈
        (fun p => (m.leadingCoeff p)⁻¹ • p) '' (dens (Fin n) G' : Set (MvPolynomial (Fin n) K)) :=
        key ▸ ⟨_, ⟨_, mem_dens hp, rfl⟩, rfl⟩
      obtain ⟨_, ⟨g, hgm, rfl⟩, e⟩ := this
      refine List.mem_map.mpr ⟨g, hgm, ?_⟩
      have e' := congrArg m.degree e
      rwa [deg _ (ok'.den_ne hgm), deg _ ((rescale_ne_zero ha).mpr (ok.den_ne hp)), degree_rescale ha] at e'
  simpa using hperm.length_eq

/-- Divisions indexed by numbers below equal bounds. -/
theorem IsDivision.congr_fin {k l : ℕ} (h : k = l) {g q : ℕ → MvPolynomial (Fin n) K}
    {f r : MvPolynomial (Fin n) K} (hd : IsDivision m (fun i : Fin k => g i) f (fun i => q i) r) :
    IsDivision m (fun i : Fin l => g i) f (fun i => q i) r := by
  subst h; exact hd

/-- Rescaling the variables of a division. -/
theorem IsDivision.rescale {ι : Type} [Fintype ι] [LinearOrder ι] {a : Fin n → K} (ha : ∀ i, a i ≠ 0)
    {g q : ι → MvPolynomial (Fin n) K} {f r : MvPolynomial (Fin n) K} (h : IsDivision m g f q r) :
    IsDivision m (fun i => Verif.rescale a (g i)) (Verif.rescale a f) (fun i => Verif.rescale a (q i))
      (Verif.rescale a r) := by
  refine ⟨?_, fun e he i hi => ?_, fun i e he => ?_⟩
  · rw [h.identity, map_add, map_sum]
    simp only [map_mul]
  · rw [support_rescale ha] at he
    rw [degree_rescale ha]
    exact h.remainder e he i ((rescale_ne_zero ha).mp hi)
  · rw [support_rescale ha] at he
    obtain ⟨h1, h2⟩ := h.quotient i e he
    refine ⟨(rescale_ne_zero ha).mpr h1, fun j hj hj0 => ?_⟩
    rw [degree_rescale ha, degree_rescale ha]
    exact h2 j hj ((rescale_ne_zero ha).mp hj0)

/-- C185 for division: the remainder and the quotients of polynomials with rescaled variables are those
of the polynomials, with rescaled variables. -/
theorem C185_divide (hO : Implements O m) (a : Fin n → K) (ha : ∀ i, a i ≠ 0) (f f' : Poly F)
    (divs divs' : List (Poly F)) (hf : Poly.Clean (Fin n) f) (hf' : Poly.Clean (Fin n) f')
    (hd : ∀ g ∈ divs, Poly.Clean (Fin n) g) (hd' : ∀ g ∈ divs', Poly.Clean (Fin n) g)
    (hrf : Poly.den (Fin n) f' = rescale a (Poly.den (Fin n) f))
    (hr : divs'.map (Poly.den (Fin n)) = divs.map fun g => rescale a (Poly.den (Fin n) g))
    {r r' : Poly F} {qs qs' : List (Poly F)} (h : Computer.divide O f divs = .ok (r, qs))
    (h' : Computer.divide O f' divs' = .ok (r', qs')) :
    Poly.den (Fin n) r' = rescale a (Poly.den (Fin n) r) ∧
    qs'.map (Poly.den (Fin n)) = qs.map fun q => rescale a (Poly.den (Fin n) q) := by
  obtain ⟨hl, hdiv⟩ := (C120_determinate (K := K) hO f divs hf hd).of_ok h
  obtain ⟨hl', hdiv'⟩ := (C120_determinate (K := K) hO f' divs' hf' hd').of_ok h'
  have hlen : divs'.length = divs.length := by simpa using congrArg List.length hr
  have e1 : ∀ i : Fin divs'.length, (Poly.den (Fin n) (divs'.get i) : MvPolynomial (Fin n) K) =
      rescale a (Poly.den (Fin n) (divs.getD i [])) := by
    intro i
    have hi : (i : ℕ) < divs.length := hlen ▸ i.2
    have := congrArg (fun l => l[(i : ℕ)]?) hr
    simp only [List.getElem?_map, List.getElem?_eq_getElem i.2, List.getElem?_eq_getElem hi,
      Option.map_some, Option.some.injEq] at this
    rw [List.get_eq_getElem, this, List.getD_eq_getElem _ _ hi]
  have e2 : ∀ i : Fin divs.length, divs.get i = divs.getD i [] := by
    intro i
    rw [List.get_eq_getElem, List.getD_eq_getElem _ _ i.2]
  simp only [e1] at hdiv'
  simp only [e2] at hdiv
  rw [hrf] at hdiv'
  have hdiv2 := IsDivision.congr_fin hlen.symm
    (g := fun i => rescale a (Poly.den (Fin n) (divs.getD i [])))
    (q := fun i => rescale a (Poly.den (Fin n) (qs.getD i []))) (hdiv.rescale ha)
  obtain ⟨hq, hrr⟩ := hdiv'.unique hdiv2
  refine ⟨hrr, List.ext_getElem (by simp [hl, hl', hlen]) fun i h1 h2 => ?_⟩
  rw [List.length_map] at h1 h2
  have := congrFun hq ⟨i, hl' ▸ h1⟩
  simp only [List.getD_eq_getElem _ _ h1, List.getD_eq_getElem _ _ h2] at this
  rw [List.getElem_map, List.getElem_map]
  exact this

end

section examples

/-- With `x` replaced by `2x` and `y` by `3y`: the remainder of `x y^2` by `x y - 1` is `y`, that of
`18 x y^2` by `6 x y - 1` is `3 y`. -/
example : letI := Rational.field .debug
    letI := Rational.lawful
    (∀ p ∈ ([[⟨⟨1, 1⟩, [1, 2]⟩], [⟨⟨18, 1⟩, [1, 2]⟩], [⟨⟨1, 1⟩, [1, 1]⟩, ⟨⟨-1, 1⟩, []⟩],
      [⟨⟨6, 1⟩, [1, 1]⟩, ⟨⟨-1, 1⟩, []⟩]] : List (Poly Rational)),
      Poly.Clean (Fin 2) p ∧ Poly.den (Fin 2) p ≠ (0 : MvPolynomial (Fin 2) ℚ)) ∧
    Computer.divide (F := Rational) (OrdKind.lex.order .debug) [⟨⟨1, 1⟩, [1, 2]⟩]
      [[⟨⟨1, 1⟩, [1, 1]⟩, ⟨⟨-1, 1⟩, []⟩]] = .ok ([⟨⟨1, 1⟩, [0, 1]⟩], [[⟨⟨1, 1⟩, [0, 1]⟩]]) ∧
    Computer.divide (F := Rational) (OrdKind.lex.order .debug) [⟨⟨18, 1⟩, [1, 2]⟩]
      [[⟨⟨6, 1⟩, [1, 1]⟩, ⟨⟨-1, 1⟩, []⟩]] = .ok ([⟨⟨3, 1⟩, [0, 1]⟩], [[⟨⟨3, 1⟩, [0, 1]⟩]]) := by
  let _ := Rational.field .debug
  let _ := Rational.lawful
  exact ⟨sampleGens (by decide), (Computer.divideN_approx 20 _ _).eq (by decide +kernel) (by simp),
    (Computer.divideN_approx 20 _ _).eq (by decide +kernel) (by simp)⟩

end examples

end Verif
