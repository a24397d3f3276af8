import Verif.Props.Disjoint
import Verif.Props.Finite
import Mathlib.Algebra.MvPolynomial.Equiv
import Mathlib.RingTheory.Polynomial.DegreeLT

/-!
# Property C226: solving with a Lex basis, one variable at a time

Conventions as in `Props/Comp.lean`.
-/

namespace Verif

section abstract
open Polynomial
variable {D L : Type} [CommRing D] [IsDomain D] [Field L] {φ : D →+* L} {S : Set D[X]}

/-- Every element of the ideal is a combination of multiples of elements of `S` of no greater degree. -/
def Represents (S : Set D[X]) : Prop :=
  ∀ f ∈ Ideal.span S, f ∈ Submodule.span D {p | ∃ g ∈ S, ∃ i : ℕ, i + g.natDegree ≤ f.natDegree ∧ p = X ^ i * g}

omit [IsDomain D] in
theorem natDegree_lt_of_cancel {f : D[X]} {N : ℕ} (hN : 0 < N) (h1 : f.natDegree ≤ N) (h2 : f.coeff N = 0) :
    f.natDegree < N := by
  refine lt_of_le_of_ne h1 fun h => ?_
  have : f.leadingCoeff = 0 := by rw [leadingCoeff, h, h2]
  rw [leadingCoeff_eq_zero.mp this, natDegree_zero] at h
  omega

/-- The `S`-polynomial with respect to the variable of `D[X]`. -/
theorem cross_degree {f g : D[X]} (hf : 0 < f.natDegree) (hle : g.natDegree ≤ f.natDegree) :
    (C g.leadingCoeff * f - C f.leadingCoeff * X ^ (f.natDegree - g.natDegree) * g).natDegree < f.natDegree := by
  refine natDegree_lt_of_cancel hf ?_ ?_
  · refine (natDegree_sub_le _ _).trans (max_le (natDegree_C_mul_le _ _) ?_)
    rw [mul_assoc]
    refine (natDegree_C_mul_le _ _).trans (natDegree_mul_le.trans ?_)
    rw [natDegree_X_pow]
    omega
  · rw [coeff_sub, coeff_C_mul, mul_assoc, coeff_C_mul, coeff_X_pow_mul']
    rw [if_pos (by omega), show f.natDegree - (f.natDegree - g.natDegree) = g.natDegree by omega,
      coeff_natDegree, coeff_natDegree]
    ring

/-- The elements of smaller degree than `g₀` vanish at the partial solution. -/
theorem small_vanish (hrep : Represents S) {g₀ : D[X]} (h₀ : g₀ ∈ S) (hc : φ g₀.leadingCoeff ≠ 0)
    (hmin : ∀ g ∈ S, φ g.leadingCoeff ≠ 0 → g₀.natDegree ≤ g.natDegree) {g : D[X]} (hg : g ∈ S)
    (hlt : g.natDegree < g₀.natDegree) : g.map φ = 0 := by
  by_contra hne
  let T : Set D[X] := {g | g ∈ S ∧ g.natDegree < g₀.natDegree ∧ g.map φ ≠ 0}
  obtain ⟨b, ⟨hb, hbl, hb0⟩, hbmin⟩ := exists_minimalFor_of_wellFoundedLT (· ∈ T)
    (fun g : D[X] => g.natDegree - (g.map φ).natDegree) ⟨g, hg, hlt, hne⟩
  have hle : ∀ g : D[X], (g.map φ).natDegree ≤ g.natDegree := fun g => natDegree_map_le
  have hcb : φ b.leadingCoeff = 0 := by
    by_contra h
    exact absurd (hmin b hb h) (by omega)
  set δ := b.natDegree - (b.map φ).natDegree with hδ
  set f : D[X] := C b.leadingCoeff * g₀ - C g₀.leadingCoeff * X ^ (g₀.natDegree - b.natDegree) * b with hf
  have hfI : f ∈ Ideal.span S :=
    Ideal.sub_mem _ (Ideal.mul_mem_left _ _ (Ideal.subset_span h₀)) (Ideal.mul_mem_left _ _ (Ideal.subset_span hb))
  have hfd : f.natDegree < g₀.natDegree := cross_degree (by omega) hbl.le
  have hmap : f.map φ = -(C (φ g₀.leadingCoeff) * X ^ (g₀.natDegree - b.natDegree) * b.map φ) := by
    rw [hf]
    simp [hcb]
  have hdeg : (f.map φ).natDegree = g₀.natDegree - b.natDegree + (b.map φ).natDegree := by
    rw [hmap, natDegree_neg, mul_assoc, natDegree_C_mul hc, natDegree_mul (pow_ne_zero _ X_ne_zero) hb0,
      natDegree_X_pow]
  have hmem : f.map φ ∈ degreeLT L (g₀.natDegree - δ) := by
    have hb' := hle b
    have : ∀ p ∈ Submodule.span D {p | ∃ g ∈ S, ∃ i : ℕ, i + g.natDegree ≤ f.natDegree ∧ p = X ^ i * g},
        p.map φ ∈ degreeLT L (g₀.natDegree - δ) := by
      intro p hp
      induction hp using Submodule.span_induction with
      | zero => rw [Polynomial.map_zero]; exact Submodule.zero_mem _
      | add p q _ _ h1 h2 => rw [Polynomial.map_add]; exact Submodule.add_mem _ h1 h2
      | smul c p _ h => rw [smul_eq_C_mul, Polynomial.map_mul, map_C, ← smul_eq_C_mul]; exact Submodule.smul_mem _ _ h
      | mem p hp =>
        obtain ⟨g, hg, i, hi, rfl⟩ := hp
        by_cases h0 : g.map φ = 0
        · simp only [Polynomial.map_mul, h0, mul_zero]; exact Submodule.zero_mem _
        have hT : g ∈ T := ⟨hg, by omega, h0⟩
        have hδg : δ ≤ g.natDegree - (g.map φ).natDegree := by
          by_contra hlt
          exact hlt (hbmin hT (by dsimp only; omega))
        have := hle g
        rw [mem_degreeLT, Polynomial.map_mul, Polynomial.map_pow, map_X]
        refine degree_le_natDegree.trans_lt (Nat.cast_lt.mpr ?_)
        rw [natDegree_mul (pow_ne_zero _ X_ne_zero) h0, natDegree_X_pow]
        omega
    exact this f (hrep f hfI)
  rw [mem_degreeLT] at hmem
  have hf0 : f.map φ ≠ 0 := by
    rw [hmap]
    exact neg_ne_zero.mpr (mul_ne_zero (mul_ne_zero (C_ne_zero.mpr hc) (pow_ne_zero _ X_ne_zero)) hb0)
  rw [degree_eq_natDegree hf0, hdeg, Nat.cast_lt] at hmem
  have := hle b
  omega

/-- All elements of the ideal are multiples of `g₀` at the partial solution. -/
theorem extension (hrep : Represents S) (h0 : ∀ g ∈ S, g.natDegree = 0 → φ (g.coeff 0) = 0) {g₀ : D[X]}
    (h₀ : g₀ ∈ S) (hc : φ g₀.leadingCoeff ≠ 0)
    (hmin : ∀ g ∈ S, φ g.leadingCoeff ≠ 0 → g₀.natDegree ≤ g.natDegree) :
    0 < g₀.natDegree ∧ ∀ f ∈ Ideal.span S, g₀.map φ ∣ f.map φ := by
  have hpos : 0 < g₀.natDegree := by
    rw [Nat.pos_iff_ne_zero]
    intro h
    have := h0 g₀ h₀ h
    rw [leadingCoeff, h] at hc
    exact hc this
  refine ⟨hpos, ?_⟩
  have key : ∀ (N : ℕ) (g : D[X]), g ∈ S → g.natDegree = N → g₀.map φ ∣ g.map φ := by
    intro N
    induction N using Nat.strong_induction_on with
    | _ N ih =>
      intro g hg hN
      by_cases hlt : g.natDegree < g₀.natDegree
      · rw [small_vanish hrep h₀ hc hmin hg hlt]
        exact dvd_zero _
      have hle : g₀.natDegree ≤ g.natDegree := by omega
      set f : D[X] := C g₀.leadingCoeff * g - C g.leadingCoeff * X ^ (g.natDegree - g₀.natDegree) * g₀ with hf
      have hfI : f ∈ Ideal.span S :=
        Ideal.sub_mem _ (Ideal.mul_mem_left _ _ (Ideal.subset_span hg)) (Ideal.mul_mem_left _ _ (Ideal.subset_span h₀))
      have hfd : f.natDegree < g.natDegree := cross_degree (by omega) hle
      have hdvd : ∀ p ∈ Submodule.span D {p | ∃ g ∈ S, ∃ i : ℕ, i + g.natDegree ≤ f.natDegree ∧ p = X ^ i * g},
          g₀.map φ ∣ p.map φ := by
        intro p hp
        induction hp using Submodule.span_induction with
        | zero => rw [Polynomial.map_zero]; exact dvd_zero _
        | add p q _ _ h1 h2 => rw [Polynomial.map_add]; exact dvd_add h1 h2
        | smul c p _ h => rw [smul_eq_C_mul, Polynomial.map_mul]; exact h.mul_left _
        | mem p hp =>
          obtain ⟨g', hg', i, hi, rfl⟩ := hp
          rw [Polynomial.map_mul]
          exact (ih g'.natDegree (by omega) g' hg' rfl).mul_left _
      have hmap : C (φ g₀.leadingCoeff) * g.map φ =
          f.map φ + C (φ g.leadingCoeff) * X ^ (g.natDegree - g₀.natDegree) * g₀.map φ := by
        rw [hf]; simp
      have h2 : g₀.map φ ∣ C (φ g₀.leadingCoeff) * g.map φ := by
        rw [hmap]
        exact dvd_add (hdvd f (hrep f hfI)) (dvd_mul_left _ _)
      exact (IsUnit.dvd_mul_left (isUnit_C.mpr hc.isUnit)).mp h2
  intro f hf
  have hle : Ideal.span S ≤ (Ideal.span {g₀.map φ}).comap (mapRingHom φ) := by
    rw [Ideal.span_le]
    intro g hg
    exact Ideal.mem_span_singleton.mpr (key _ g hg rfl)
  exact Ideal.mem_span_singleton.mp (hle hf)

end abstract

open Res MvPolynomial LawfulRField

section
variable {K : Type} [Field K] {n : ℕ}

/-- With Lex, the degree in the first variable is that of the leading monomial. -/
theorem lex_le_zero {a b : Fin (n + 1) →₀ ℕ}
    (h : (OrdKind.lex.mathlib (n + 1)).toSyn a ≤ (OrdKind.lex.mathlib (n + 1)).toSyn b) : a 0 ≤ b 0 := by
  rcases h.lt_or_eq with h | h
  · rw [OrdKind.mathlib_lt] at h
    obtain ⟨j, hj, hlt⟩ := h
    have e1 : extend a 0 = a 0 := by simp [extend]
    have e2 : extend b 0 = b 0 := by simp [extend]
    rcases Nat.eq_zero_or_pos j with rfl | hpos
    · rw [e1, e2] at hlt; exact hlt.le
    · have := hj 0 hpos
      rw [e1, e2] at this
      exact this.le
  · rw [(OrdKind.lex.mathlib (n + 1)).toSyn.injective h]

theorem lex_natDegree {f : MvPolynomial (Fin (n + 1)) K} (hf : f ≠ 0) :
    (finSuccEquiv K n f).natDegree = (OrdKind.lex.mathlib (n + 1)).degree f 0 := by
  rw [natDegree_finSuccEquiv, degreeOf_eq_sup]
  refine le_antisymm (Finset.sup_le fun e he => lex_le_zero ((OrdKind.lex.mathlib (n + 1)).le_degree he)) ?_
  exact Finset.le_sup (f := fun e : Fin (n + 1) →₀ ℕ => e 0) ((OrdKind.lex.mathlib (n + 1)).degree_mem_support hf)

theorem finSuccEquiv_monomial_one (e : Fin (n + 1) →₀ ℕ) :
    finSuccEquiv K n (monomial e 1) = Polynomial.C (monomial e.tail 1) * Polynomial.X ^ e 0 := by
  classical
  refine Polynomial.ext fun i => MvPolynomial.ext _ _ fun d => ?_
  rw [finSuccEquiv_coeff_coeff, Polynomial.coeff_C_mul_X_pow, coeff_monomial]
  have : e = d.cons i ↔ i = e 0 ∧ e.tail = d := by
    constructor
    · rintro rfl; exact ⟨(Finsupp.cons_zero _ _).symm, Finsupp.tail_cons _ _⟩
    · rintro ⟨rfl, rfl⟩; exact (Finsupp.cons_tail e).symm
  by_cases h1 : i = e 0
  · rw [if_pos h1, coeff_monomial]
    exact if_congr (this.trans (and_iff_right h1)) rfl rfl
  · rw [if_neg h1, if_neg fun h => h1 (this.mp h).1, coeff_zero]

theorem mem_span_finSucc {G : Set (MvPolynomial (Fin (n + 1)) K)} {p : MvPolynomial (Fin (n + 1)) K} :
    finSuccEquiv K n p ∈ Ideal.span (finSuccEquiv K n '' G) ↔ p ∈ Ideal.span G := by
  have := Ideal.map_span (finSuccEquiv K n) G
  rw [← this, Ideal.mem_map_of_equiv]
  constructor
  · rintro ⟨x, hx, he⟩
    rwa [← (finSuccEquiv K n).injective he]
  · exact fun h => ⟨p, h, rfl⟩

theorem represents_of_groebner {I : Ideal (MvPolynomial (Fin (n + 1)) K)} {G : Set (MvPolynomial (Fin (n + 1)) K)}
    (h : IsGroebner (OrdKind.lex.mathlib (n + 1)) I G) : Represents (finSuccEquiv K n '' G) := by
  intro f hf
  obtain ⟨p, rfl⟩ := (finSuccEquiv K n).surjective f
  rw [mem_span_finSucc, h.span_eq] at hf
  by_cases hp0 : p = 0
  · rw [hp0, map_zero]; exact Submodule.zero_mem _
  have key : ∀ q ∈ Below (OrdKind.lex.mathlib (n + 1)) G (· ≤ (OrdKind.lex.mathlib (n + 1)).toSyn
      ((OrdKind.lex.mathlib (n + 1)).degree p)), finSuccEquiv K n q ∈ Submodule.span (MvPolynomial (Fin n) K)
        {q | ∃ g ∈ finSuccEquiv K n '' G, ∃ i : ℕ, i + g.natDegree ≤ (finSuccEquiv K n p).natDegree ∧
          q = Polynomial.X ^ i * g} := by
    intro q hq
    induction hq using Submodule.span_induction with
    | zero => rw [map_zero]; exact Submodule.zero_mem _
    | add p q _ _ h1 h2 => rw [map_add]; exact Submodule.add_mem _ h1 h2
    | smul c q _ h =>
      rw [map_smul, ← algebraMap_smul (MvPolynomial (Fin n) K) c]
      exact Submodule.smul_mem _ _ h
    | mem q hq =>
      obtain ⟨g, hg, e, hg0, hle, rfl⟩ := hq
      rw [map_mul, finSuccEquiv_monomial_one, mul_assoc, ← Polynomial.smul_eq_C_mul]
      refine Submodule.smul_mem _ _ (Submodule.subset_span ⟨_, ⟨g, hg, rfl⟩, e 0, ?_, rfl⟩)
      rw [lex_natDegree hg0, lex_natDegree hp0]
      exact lex_le_zero hle
  exact key p (h.mem_below hf)

/-- The polynomial in one variable that is left of `f` when `a` is put in for all variables but the first. -/
noncomputable def slice {L : Type} [Field L] [Algebra K L] (a : Fin n → L) (f : MvPolynomial (Fin (n + 1)) K) :
    Polynomial L :=
  (finSuccEquiv K n f).map (aeval a : MvPolynomial (Fin n) K →ₐ[K] L).toRingHom

/-- The leading coefficient of `f` as a polynomial in the first variable, at `a`. -/
noncomputable def leadAt {L : Type} [Field L] [Algebra K L] (a : Fin n → L) (f : MvPolynomial (Fin (n + 1)) K) : L :=
  aeval a (finSuccEquiv K n f).leadingCoeff

theorem eval_slice {L : Type} [Field L] [Algebra K L] (a : Fin n → L) (x : L) (f : MvPolynomial (Fin (n + 1)) K) :
    (slice a f).eval x = aeval (Fin.cons x a : Fin (n + 1) → L) f := by
  rw [slice, Polynomial.eval_map]
  induction f using MvPolynomial.induction_on with
  | C c =>
    rw [show finSuccEquiv K n (C c) = Polynomial.C (C c) by
      have := RingHom.congr_fun (finSuccEquiv_comp_C_eq_C (R := K) n) c
      exact ((AlgEquiv.symm_apply_eq _).mp (by simpa using this)).symm]
    simp
  | add p q hp hq => rw [map_add, Polynomial.eval₂_add, hp, hq, map_add]
  | mul_X p i hp =>
    rw [map_mul, Polynomial.eval₂_mul, hp, map_mul]
    congr 1
    refine Fin.cases ?_ (fun j => ?_) i
    · rw [finSuccEquiv_X_zero]; simp
    · rw [finSuccEquiv_X_succ]; simp

/-- A polynomial free of the first variable. -/
theorem coeff_zero_eval {L : Type} [Field L] [Algebra K L] (a : Fin n → L) (x : L) {f : MvPolynomial (Fin (n + 1)) K}
    (h : (finSuccEquiv K n f).natDegree = 0) :
    aeval a ((finSuccEquiv K n f).coeff 0) = aeval (Fin.cons x a : Fin (n + 1) → L) f := by
  rw [← eval_slice, slice]
  conv_rhs => rw [Polynomial.eq_C_of_natDegree_eq_zero h, Polynomial.map_C, Polynomial.eval_C]
  rfl

/-- The leading coefficient in the first variable is constant exactly if the leading monomial is a power of it. -/
theorem lead_const {f : MvPolynomial (Fin (n + 1)) K} (hf : f ≠ 0) :
    (∃ c ≠ 0, (finSuccEquiv K n f).leadingCoeff = C c) ↔ ((OrdKind.lex.mathlib (n + 1)).degree f).tail = 0 := by
  classical
  set d := (OrdKind.lex.mathlib (n + 1)).degree f with hd
  have hdf : d ∈ f.support := (OrdKind.lex.mathlib (n + 1)).degree_mem_support hf
  have hcoeff : ∀ e : Fin n →₀ ℕ, coeff e (finSuccEquiv K n f).leadingCoeff = coeff (e.cons (d 0)) f := fun e => by
    rw [Polynomial.leadingCoeff, lex_natDegree hf, finSuccEquiv_coeff_coeff]
  constructor
  · rintro ⟨c, -, hlc⟩
    have := hcoeff d.tail
    rw [Finsupp.cons_tail, hlc, coeff_C] at this
    by_contra hne
    rw [if_neg (Ne.symm hne)] at this
    exact mem_support_iff.mp hdf this.symm
  · intro h0
    have hd' : d = Finsupp.cons (d 0) 0 := by rw [← h0, Finsupp.cons_tail]
    refine ⟨coeff d f, mem_support_iff.mp hdf, MvPolynomial.ext _ _ fun e => ?_⟩
    rw [hcoeff, coeff_C]
    split
    · next he => rw [← he, ← hd']
    · next he =>
      by_contra hne
      have h1 := (OrdKind.lex.mathlib (n + 1)).le_degree (mem_support_iff.mpr hne)
      have h2 : d ≤ Finsupp.cons (d 0) e := by
        intro i
        rw [hd']
        refine Fin.cases ?_ (fun j => ?_) i
        · simp
        · simp
      have h3 := (OrdKind.lex.mathlib (n + 1)).toSyn_monotone h2
      have h4 := (OrdKind.lex.mathlib (n + 1)).toSyn.injective (le_antisymm h1 h3)
      rw [← hd] at h4
      apply he
      rw [← h0, ← h4, Finsupp.tail_cons]

end

section
variable {F : Type} [RField F] {K : Type} [Field K] [LawfulRField F K] {n : ℕ}

/-- A common zero of the elements of `G` that are free of the first variable. -/
def PartialSolution (K : Type) [Field K] [LawfulRField F K] {L : Type} [Field L] [Algebra K L] (G : List (Poly F))
    (a : Fin n → L) : Prop :=
  ∀ g ∈ G, degreeOf 0 (Poly.den (Fin (n + 1)) g : MvPolynomial (Fin (n + 1)) K) = 0 →
    ∀ x, aeval (Fin.cons x a : Fin (n + 1) → L) (Poly.den (Fin (n + 1)) g : MvPolynomial (Fin (n + 1)) K) = 0

/-- A common zero of the polynomials. -/
def IsSolution (K : Type) [Field K] [LawfulRField F K] {L : Type} [Field L] [Algebra K L] (gens : List (Poly F))
    (x : Fin n → L) : Prop :=
  ∀ g ∈ gens, aeval x (Poly.den (Fin n) g : MvPolynomial (Fin n) K) = 0

/-- C226. Let `a` be a partial solution at which the leading coefficient in `x_0` of an element of the Lex basis does not
vanish, and `g` such an element of least degree in `x_0`.  This degree is positive, `g(x_0, a)` divides `f(x_0, a)` for all
consequences `f` of the equations, and its roots are the first coordinates of the solutions above `a`. -/
theorem C226_fibre (gens : List (Poly F))
    (hg : ∀ g ∈ gens, Poly.Clean (Fin (n + 1)) g ∧ Poly.den (Fin (n + 1)) g ≠ (0 : MvPolynomial (Fin (n + 1)) K)) :
    Spec (PolyPanic F) (Computer.buchbergerAlgorithm (OrdKind.lex.order .debug) gens) (fun G =>
      ∀ (L : Type) [Field L] [Algebra K L] (a : Fin n → L), PartialSolution K G a → ∀ g ∈ G,
        leadAt a (Poly.den (Fin (n + 1)) g : MvPolynomial (Fin (n + 1)) K) ≠ 0 →
        (∀ g' ∈ G, leadAt a (Poly.den (Fin (n + 1)) g' : MvPolynomial (Fin (n + 1)) K) ≠ 0 →
          degreeOf 0 (Poly.den (Fin (n + 1)) g : MvPolynomial (Fin (n + 1)) K) ≤
            degreeOf 0 (Poly.den (Fin (n + 1)) g' : MvPolynomial (Fin (n + 1)) K)) →
        (slice a (Poly.den (Fin (n + 1)) g : MvPolynomial (Fin (n + 1)) K)).natDegree =
          degreeOf 0 (Poly.den (Fin (n + 1)) g : MvPolynomial (Fin (n + 1)) K) ∧
        0 < degreeOf 0 (Poly.den (Fin (n + 1)) g : MvPolynomial (Fin (n + 1)) K) ∧
        (∀ f ∈ Ideal.span (dens (Fin (n + 1)) gens), slice a (Poly.den (Fin (n + 1)) g : MvPolynomial (Fin (n + 1)) K) ∣
          slice a f) ∧
        ∀ x, IsSolution K gens (Fin.cons x a : Fin (n + 1) → L) ↔
          (slice a (Poly.den (Fin (n + 1)) g : MvPolynomial (Fin (n + 1)) K)).IsRoot x) := by
  refine (algorithm_spec (OrdKind.implements .lex (n + 1)) gens hg (fun _ => True) trivial
    fun _ _ => trivial).imp fun G h L _ _ a ha g hgm hlead hmin => ?_
  have hrep := represents_of_groebner h.2.1
  have hext := extension (φ := (aeval a : MvPolynomial (Fin n) K →ₐ[K] L).toRingHom) hrep (by
    rintro _ ⟨_, ⟨g', hg', rfl⟩, rfl⟩ h0
    have := coeff_zero_eval a (0 : L) h0
    rw [natDegree_finSuccEquiv] at h0
    exact this.trans (ha g' hg' h0 0)) (Set.mem_image_of_mem _ (mem_dens hgm)) hlead (by
    rintro _ ⟨_, ⟨g', hg', rfl⟩, rfl⟩ h0
    rw [natDegree_finSuccEquiv, natDegree_finSuccEquiv]
    exact hmin g' hg' h0)
  rw [natDegree_finSuccEquiv] at hext
  have hdvd : ∀ f ∈ Ideal.span (dens (Fin (n + 1)) gens),
      slice a (Poly.den (Fin (n + 1)) g : MvPolynomial (Fin (n + 1)) K) ∣ slice a f := fun f hf =>
    hext.2 _ (by rw [mem_span_finSucc, h.2.1.span_eq]; exact hf)
  refine ⟨?_, hext.1, hdvd, fun x => ⟨fun hx => ?_, fun hx g' hg' => ?_⟩⟩
  · rw [slice, Polynomial.natDegree_map_of_leadingCoeff_ne_zero _ hlead, natDegree_finSuccEquiv]
  · rw [Polynomial.IsRoot, eval_slice]
    have hle : Ideal.span (dens (Fin (n + 1)) gens : Set (MvPolynomial (Fin (n + 1)) K)) ≤
        RingHom.ker (aeval (Fin.cons x a : Fin (n + 1) → L) : MvPolynomial (Fin (n + 1)) K →ₐ[K] L) := by
      rw [Ideal.span_le]
      rintro _ ⟨g', hg', rfl⟩
      exact hx g' hg'
    exact hle (h.2.1.1 (mem_dens hgm))
  · rw [← eval_slice]
    exact Polynomial.eval_eq_zero_of_dvd_of_eval_eq_zero (hdvd _ (Ideal.subset_span (mem_dens hg'))) hx

/-- C226. Over an algebraically closed field a partial solution at which the leading coefficient in `x_0` of an element of
the Lex basis does not vanish extends to a solution. -/
theorem C226_extend (gens : List (Poly F))
    (hg : ∀ g ∈ gens, Poly.Clean (Fin (n + 1)) g ∧ Poly.den (Fin (n + 1)) g ≠ (0 : MvPolynomial (Fin (n + 1)) K)) :
    Spec (PolyPanic F) (Computer.buchbergerAlgorithm (OrdKind.lex.order .debug) gens) (fun G =>
      ∀ (L : Type) [Field L] [IsAlgClosed L] [Algebra K L] (a : Fin n → L), PartialSolution K G a →
        (∃ g ∈ G, leadAt a (Poly.den (Fin (n + 1)) g : MvPolynomial (Fin (n + 1)) K) ≠ 0) →
        ∃ x, IsSolution K gens (Fin.cons x a : Fin (n + 1) → L)) := by
  refine (C226_fibre (K := K) gens hg).imp fun G h L _ _ _ a ha ⟨g, hgm, hgl⟩ => ?_
  obtain ⟨g₀, ⟨h1, h2⟩, h3⟩ := exists_minimalFor_of_wellFoundedLT
    (fun g => g ∈ G ∧ leadAt a (Poly.den (Fin (n + 1)) g : MvPolynomial (Fin (n + 1)) K) ≠ 0)
    (fun g => degreeOf 0 (Poly.den (Fin (n + 1)) g : MvPolynomial (Fin (n + 1)) K)) ⟨g, hgm, hgl⟩
  obtain ⟨hd, hpos, -, hroot⟩ := h L a ha g₀ h1 h2 fun g' hg' hl => by
    by_contra hlt
    exact hlt (h3 ⟨hg', hl⟩ (le_of_not_ge hlt))
  obtain ⟨x, hx⟩ := IsAlgClosed.exists_root (slice a (Poly.den (Fin (n + 1)) g₀ : MvPolynomial (Fin (n + 1)) K)) (Polynomial.degree_ne_of_natDegree_ne (by rw [hd]; exact hpos.ne'))
  exact ⟨x, (hroot x).mpr hx⟩

/-- C226. If a consequence of the equations, such as one of the equations, has a constant as leading coefficient in `x_0`,
then all partial solutions extend. -/
theorem C226_monic (gens : List (Poly F))
    (hg : ∀ g ∈ gens, Poly.Clean (Fin (n + 1)) g ∧ Poly.den (Fin (n + 1)) g ≠ (0 : MvPolynomial (Fin (n + 1)) K)) :
    Spec (PolyPanic F) (Computer.buchbergerAlgorithm (OrdKind.lex.order .debug) gens) (fun G =>
      (∃ f ∈ Ideal.span (dens (Fin (n + 1)) gens : Set (MvPolynomial (Fin (n + 1)) K)), ∃ c ≠ 0,
        (finSuccEquiv K n f).leadingCoeff = C c) →
      ∀ (L : Type) [Field L] [IsAlgClosed L] [Algebra K L] (a : Fin n → L),
        PartialSolution K G a ↔ ∃ x, IsSolution K gens (Fin.cons x a : Fin (n + 1) → L)) := by
  refine ((C226_extend (K := K) gens hg).and (algorithm_spec (K := K) (OrdKind.implements .lex (n + 1)) gens hg
    (fun _ => True) trivial fun _ _ => trivial)).imp fun G ⟨h, h'⟩ ⟨f, hf, c, hc, hlc⟩ L _ _ _ a => ⟨fun ha => ?_, ?_⟩
  · refine h L a ha ?_
    have hf0 : f ≠ 0 := by
      rintro rfl
      rw [map_zero, Polynomial.leadingCoeff_zero] at hlc
      exact hc (by simpa using hlc.symm)
    obtain ⟨_, ⟨g, hgm, rfl⟩, hg0, hle⟩ := h'.2.1.2 f hf hf0
    have ht := (lead_const hf0).mp ⟨c, hc, hlc⟩
    obtain ⟨c', hc', hlc'⟩ := (lead_const hg0).mpr (by
      ext i
      have h1 := hle i.succ
      have h2 := DFunLike.congr_fun ht i
      rw [Finsupp.tail_apply] at h2 ⊢
      rw [h2] at h1
      exact Nat.le_zero.mp h1)
    refine ⟨g, hgm, ?_⟩
    rw [leadAt, hlc', aeval_C]
    exact (map_ne_zero _).mpr hc'
  · rintro ⟨x, hx⟩ g hgm h0 y
    rw [← natDegree_finSuccEquiv] at h0
    rw [← coeff_zero_eval a y h0, coeff_zero_eval a x h0]
    have hle : Ideal.span (dens (Fin (n + 1)) gens : Set (MvPolynomial (Fin (n + 1)) K)) ≤
        RingHom.ker (aeval (Fin.cons x a : Fin (n + 1) → L) : MvPolynomial (Fin (n + 1)) K →ₐ[K] L) := by
      rw [Ideal.span_le]
      rintro _ ⟨g', hg', rfl⟩
      exact hx g' hg'
    exact hle (h'.2.1.1 (mem_dens hgm))

end

/-- The Lex basis of `x y - 1` and `x z - 1` consists of `x z - 1` and `y - z`. -/
theorem C226_run : letI := Rational.field .debug
    Computer.buchbergerAlgorithm (OrdKind.lex.order .debug)
      ([[⟨⟨1, 1⟩, [1, 1]⟩, ⟨⟨-1, 1⟩, []⟩], [⟨⟨1, 1⟩, [1, 0, 1]⟩, ⟨⟨-1, 1⟩, []⟩]] : List (Poly Rational)) =
    ok [[⟨⟨1, 1⟩, [1, 0, 1]⟩, ⟨⟨-1, 1⟩, []⟩], [⟨⟨1, 1⟩, [0, 1]⟩, ⟨⟨-1, 1⟩, [0, 0, 1]⟩]] := by
  let _ := Rational.field .debug
  exact (Computer.buchbergerAlgorithmN_approx 60 _).eq (by decide +kernel) (by simp)

/-- The polynomials of `C226_run`. -/
theorem C226_sample : letI := Rational.field .debug
    letI := Rational.lawful
    (∀ g ∈ ([[⟨⟨1, 1⟩, [1, 1]⟩, ⟨⟨-1, 1⟩, []⟩], [⟨⟨1, 1⟩, [1, 0, 1]⟩, ⟨⟨-1, 1⟩, []⟩]] : List (Poly Rational)),
      Poly.Clean (Fin 3) g ∧ Poly.den (Fin 3) g ≠ (0 : MvPolynomial (Fin 3) ℚ)) ∧
    Poly.den (Fin 3) ([⟨⟨1, 1⟩, [1, 1]⟩, ⟨⟨-1, 1⟩, []⟩] : Poly Rational) = (X 0 * X 1 - 1 : MvPolynomial (Fin 3) ℚ) ∧
    Poly.den (Fin 3) ([⟨⟨1, 1⟩, [1, 0, 1]⟩, ⟨⟨-1, 1⟩, []⟩] : Poly Rational) =
      (X 0 * X 2 - 1 : MvPolynomial (Fin 3) ℚ) ∧
    Poly.den (Fin 3) ([⟨⟨1, 1⟩, [0, 1]⟩, ⟨⟨-1, 1⟩, [0, 0, 1]⟩] : Poly Rational) =
      (X 1 - X 2 : MvPolynomial (Fin 3) ℚ) := by
  let _ := Rational.field .debug
  let _ := Rational.lawful
  have hv : ∀ k : ℤ, (val (⟨k, 1⟩ : Rational) : ℚ) = k := fun k => by
    change Rational.val _ = _
    unfold Rational.val
    simp
  have e0 : MDeg.toF (Fin 3) [] = 0 := by ext i; fin_cases i <;> rfl
  have e1 : MDeg.toF (Fin 3) [1, 1] = Finsupp.single 0 1 + Finsupp.single 1 1 := by ext i; fin_cases i <;> simp <;> rfl
  have e2 : MDeg.toF (Fin 3) [1, 0, 1] = Finsupp.single 0 1 + Finsupp.single 2 1 := by
    ext i; fin_cases i <;> simp <;> rfl
  have e3 : MDeg.toF (Fin 3) [0, 1] = Finsupp.single 1 1 := by ext i; fin_cases i <;> simp <;> rfl
  have e4 : MDeg.toF (Fin 3) [0, 0, 1] = Finsupp.single 2 1 := by ext i; fin_cases i <;> simp <;> rfl
  refine ⟨sampleGens (k := 3) (by decide), ?_, ?_, ?_⟩ <;>
  · rw [Poly.den_cons, Poly.den_cons, Poly.den_nil, add_zero, Term.den, Term.den]
    simp only [hv, e0, e1, e2, e3, e4, Int.cast_one, Int.cast_neg, map_neg]
    rw [← sub_eq_add_neg]
    simp [X, monomial_mul]

/-- The hypotheses of `C226_fibre` and `C226_extend` hold for these polynomials at `y = z = 1`: this is a partial solution
and the leading coefficient of `x z - 1` in `x` does not vanish there.  It does at `y = z = 0`, which is a partial solution
too, but not part of a solution, so that this condition cannot be dropped. -/
theorem C226_needed : letI := Rational.field .debug
    letI := Rational.lawful
    let gens : List (Poly Rational) := [[⟨⟨1, 1⟩, [1, 1]⟩, ⟨⟨-1, 1⟩, []⟩], [⟨⟨1, 1⟩, [1, 0, 1]⟩, ⟨⟨-1, 1⟩, []⟩]]
    let G : List (Poly Rational) := [[⟨⟨1, 1⟩, [1, 0, 1]⟩, ⟨⟨-1, 1⟩, []⟩], [⟨⟨1, 1⟩, [0, 1]⟩, ⟨⟨-1, 1⟩, [0, 0, 1]⟩]]
    ∀ (L : Type) [Field L] [Algebra ℚ L],
      (PartialSolution ℚ G (fun _ : Fin 2 => (1 : L)) ∧
        leadAt (fun _ => (1 : L)) (Poly.den (Fin 3) ([⟨⟨1, 1⟩, [1, 0, 1]⟩, ⟨⟨-1, 1⟩, []⟩] : Poly Rational) :
          MvPolynomial (Fin 3) ℚ) ≠ 0) ∧
      PartialSolution ℚ G (fun _ : Fin 2 => (0 : L)) ∧
        ¬ ∃ x, IsSolution ℚ gens (Fin.cons x (fun _ => 0) : Fin 3 → L) := by
  let _ := Rational.field .debug
  let _ := Rational.lawful
  intro gens G L _ _
  obtain ⟨-, h1, h2, h3⟩ := C226_sample
  have hs : finSuccEquiv ℚ 2 (X 0 * X 2 - 1) = Polynomial.C (X 1) * Polynomial.X + Polynomial.C (-1) := by
    rw [map_sub, map_mul, finSuccEquiv_X_zero, show (2 : Fin 3) = Fin.succ 1 from rfl, finSuccEquiv_X_succ, map_one,
      Polynomial.C_neg, Polynomial.C_1, sub_eq_add_neg, mul_comm]
  have hX : (X 1 : MvPolynomial (Fin 2) ℚ) ≠ 0 := X_ne_zero 1
  have hp : ∀ c : L, PartialSolution ℚ G (fun _ : Fin 2 => c) := by
    intro c g hg h0 x
    rcases List.mem_cons.mp hg with rfl | hg
    · exfalso
      rw [h2, ← natDegree_finSuccEquiv, hs, Polynomial.natDegree_linear hX] at h0
      exact one_ne_zero h0
    · rw [List.mem_singleton.mp hg, h3]
      simp only [map_sub, aeval_X]
      exact sub_self c
  refine ⟨⟨hp 1, ?_⟩, hp 0, ?_⟩
  · rw [h2, leadAt, hs, Polynomial.leadingCoeff_linear hX, aeval_X]
    exact one_ne_zero
  · rintro ⟨x, hx⟩
    have := hx _ (List.mem_cons_self)
    rw [h1] at this
    simp only [map_sub, map_mul, aeval_X, map_one] at this
    rw [show (Fin.cons x (fun _ => 0) : Fin 3 → L) 1 = 0 from rfl, mul_zero, zero_sub, neg_eq_zero] at this
    exact one_ne_zero this

end Verif
