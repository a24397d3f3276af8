import Verif.Proofs.Elts
import Verif.Proofs.Num
import Verif.Props.MDeg
import Mathlib.Algebra.MvPolynomial.Division

/-!
# Properties C24–C33: terms and polynomials

The statements hold for every coefficient type `F` that is a lawful field in an overflow-checked
build (`LawfulRField F K`): `Rational` with `K = ℚ` (allowed panic: `i64` overflow) and any exact
field (no panic allowed).  Polynomials live in `K[x_0, x_1, ...] = MvPolynomial ℕ K`;
`Poly.den ℕ p` is the element denoted by `p`, `Poly.Clean ℕ p` says `p` is canonical: every
coefficient well-formed and not zero, every multidegree canonical, multidegrees pairwise distinct.
`Spec E x P`: `x` terminates, a returned value satisfies `P`, a panic satisfies `E`.
-/

namespace Verif
open Res MvPolynomial LawfulRField

variable {F : Type} [RField F] {K : Type} [Field K] [LawfulRField F K]

/-- The panics polynomial arithmetic may raise: those of the coefficients, and `u8` overflow of an
exponent. -/
def PolyPanic (F : Type) [RField F] {K : Type} [Field K] [LawfulRField F K] (p : Panic) : Prop :=
  allowed F p ∨ p = .overflowU8

/-! ## C24 canonical form is an invariant of every history -/

/-- An expression built from the public constructors and operators. -/
inductive PExpr (F : Type) where
  | zero
  | one
  | var (idx deg : Nat)
  | coef (c : F)
  | term (t : Term F)
  | add (e₁ e₂ : PExpr F)
  | sub (e₁ e₂ : PExpr F)
  | mul (e₁ e₂ : PExpr F)
  | neg (e : PExpr F)
  | addTerm (e : PExpr F) (t : Term F)
  | subTerm (e : PExpr F) (t : Term F)
  | termSub (t : Term F) (e : PExpr F)
  | mulTerm (e : PExpr F) (t : Term F)
  | termAddTerm (s t : Term F)
  | termSubTerm (s t : Term F)
  | mulCoef (e : PExpr F) (c : F)
  | divCoef (e : PExpr F) (c : F)

namespace PExpr

/-- Run the expression with the code's operations. -/
def run : PExpr F → Res (Poly F)
  | zero => pure Poly.zero
  | one => pure Poly.one
  | var i d => pure (Poly.var i d)
  | coef c => pure (Poly.ofCoef c)
  | term t => pure (Poly.ofTerm t)
  | add e₁ e₂ => do Poly.add (← e₁.run) (← e₂.run)
  | sub e₁ e₂ => do Poly.sub (← e₁.run) (← e₂.run)
  | mul e₁ e₂ => do Poly.mul (← e₁.run) (← e₂.run)
  | neg e => do Poly.neg (← e.run)
  | addTerm e t => do Poly.addTerm (← e.run) t
  | subTerm e t => do Poly.subTerm (← e.run) t
  | termSub t e => do Poly.termSub t (← e.run)
  | mulTerm e t => do Poly.mulTerm (← e.run) t
  | termAddTerm s t => Poly.termAddTerm s t
  | termSubTerm s t => Poly.termSubTerm s t
  | mulCoef e c => do Poly.mulCoef (← e.run) c
  | divCoef e c => do Poly.divCoef (← e.run) c

/-- The mathematical value of the expression. -/
noncomputable def value : PExpr F → MvPolynomial ℕ K
  | zero => 0
  | one => 1
  | var i d => X i ^ d
  | coef c => C (val c)
  | term t => t.den ℕ
  | add e₁ e₂ => e₁.value + e₂.value
  | sub e₁ e₂ => e₁.value - e₂.value
  | mul e₁ e₂ => e₁.value * e₂.value
  | neg e => - e.value
  | addTerm e t => e.value + t.den ℕ
  | subTerm e t => e.value - t.den ℕ
  | termSub t e => t.den ℕ - e.value
  | mulTerm e t => e.value * t.den ℕ
  | termAddTerm s t => s.den ℕ + t.den ℕ
  | termSubTerm s t => s.den ℕ - t.den ℕ
  | mulCoef e c => C (val c) * e.value
  | divCoef e c => C (val c)⁻¹ * e.value

/-- Inputs are legitimate: coefficients well-formed (terms may have coefficient zero),
multidegrees canonical, degrees are `u8`, no division by zero. -/
def Valid : PExpr F → Prop
  | zero | one => True
  | var _ d => d < 256
  | coef c => wf c
  | term t => t.Ok ℕ
  | add e₁ e₂ | sub e₁ e₂ | mul e₁ e₂ => e₁.Valid ∧ e₂.Valid
  | neg e => e.Valid
  | addTerm e t | subTerm e t | mulTerm e t | termSub t e => e.Valid ∧ t.Ok ℕ
  | termAddTerm s t | termSubTerm s t => s.Ok ℕ ∧ t.Ok ℕ
  | mulCoef e c => e.Valid ∧ wf c
  | divCoef e c => e.Valid ∧ wf c ∧ val c ≠ (0 : K)

end PExpr

theorem toF_var (i d : ℕ) : MDeg.toF ℕ (MDeg.var i d) = Finsupp.single i d := by
  ext j
  rw [MDeg.toF_apply, Finsupp.single_apply]
  change MDeg.deg (MDeg.var i d) j = _
  rw [MDeg.deg_var]
  exact if_congr eq_comm rfl rfl

/-- C33. `Term::var`: the monomial `x_i^d`. -/
theorem C33_term_var (i d : ℕ) (hd : d < 256) :
    (Term.var i d : Term F).Clean ℕ ∧ (Term.var i d : Term F).den ℕ = X i ^ d := by
  unfold Term.var
  split
  · rename_i h
    subst h
    exact ⟨Term.one_clean, by rw [Term.den_one, pow_zero]⟩
  · refine ⟨Term.monic_clean (MDeg.var_clean i d hd) (MDeg.inVars_nat _), ?_⟩
    rw [Term.den_monic, toF_var, X_pow_eq_monomial]

/-- C24 (with C25–C28). Whatever sequence of public operations is run, from whatever inputs: if it
returns, the result is canonical and denotes the value of the expression; otherwise it panicked
with coefficient or exponent overflow. -/
theorem C24_history (e : PExpr F) (h : e.Valid) :
    Spec (PolyPanic F) e.run (fun p => Poly.Clean ℕ p ∧ Poly.den ℕ p = e.value) := by
  have hE : ∀ p, allowed F p → PolyPanic F p := fun p h => Or.inl h
  have hov : PolyPanic F .overflowU8 := Or.inr rfl
  induction e with
  | zero => exact ⟨Poly.clean_nil, rfl⟩
  | one => exact ⟨Poly.clean_singleton.mpr Term.one_clean, by
      simp [Poly.one, Poly.termUnchecked, Poly.newUnchecked, Term.den_one, PExpr.value]⟩
  | var i d =>
    obtain ⟨h1, h2⟩ := C33_term_var (F := F) i d h
    exact ⟨Poly.clean_singleton.mpr h1, by
      simp [Poly.var, Poly.termUnchecked, Poly.newUnchecked, h2, PExpr.value]⟩
  | coef c => exact Poly.ofCoef_spec h
  | term t => exact Poly.ofTerm_spec h
  | add e₁ e₂ ih₁ ih₂ =>
    refine (ih₁ h.1).bind fun p hp => (ih₂ h.2).bind fun q hq => ?_
    exact (Poly.add_spec hp.1 hq.1.oks).mono hE fun r hr =>
      ⟨hr.1, by rw [hr.2, hp.2, hq.2, PExpr.value]⟩
  | sub e₁ e₂ ih₁ ih₂ =>
    refine (ih₁ h.1).bind fun p hp => (ih₂ h.2).bind fun q hq => ?_
    exact (Poly.sub_spec hp.1 hq.1).mono hE fun r hr =>
      ⟨hr.1, by rw [hr.2, hp.2, hq.2, PExpr.value]⟩
  | mul e₁ e₂ ih₁ ih₂ =>
    refine (ih₁ h.1).bind fun p hp => (ih₂ h.2).bind fun q hq => ?_
    exact (Poly.mul_spec hp.1.oks hq.1 hE (Or.inl hov)).imp fun r hr =>
      ⟨hr.1, by rw [hr.2, hp.2, hq.2, PExpr.value]⟩
  | neg e ih =>
    refine (ih h).bind fun p hp => ?_
    exact (Poly.neg_spec hp.1).mono hE fun r hr => ⟨hr.1, by rw [hr.2, hp.2, PExpr.value]⟩
  | addTerm e t ih =>
    refine (ih h.1).bind fun p hp => ?_
    exact (Poly.addTerm_spec hp.1 h.2).mono hE fun r hr => ⟨hr.1, by rw [hr.2, hp.2, PExpr.value]⟩
  | subTerm e t ih =>
    refine (ih h.1).bind fun p hp => ?_
    exact (Poly.subTerm_spec hp.1 h.2).mono hE fun r hr => ⟨hr.1, by rw [hr.2, hp.2, PExpr.value]⟩
  | termSub t e ih =>
    refine (ih h.1).bind fun p hp => ?_
    exact (Poly.termSub_spec h.2 hp.1).mono hE fun r hr => ⟨hr.1, by rw [hr.2, hp.2, PExpr.value]⟩
  | mulTerm e t ih =>
    refine (ih h.1).bind fun p hp => ?_
    exact (Poly.mulTerm_spec hp.1 h.2 hE (Or.inl hov)).imp fun r hr =>
      ⟨hr.1, by rw [hr.2, hp.2, PExpr.value]⟩
  | termAddTerm s t => exact (Poly.termAddTerm_spec h.1 h.2).mono hE fun r hr => hr
  | termSubTerm s t => exact (Poly.termSubTerm_spec h.1 h.2).mono hE fun r hr => hr
  | mulCoef e c ih =>
    refine (ih h.1).bind fun p hp => ?_
    exact (Poly.mulCoef_spec hp.1 h.2).mono hE fun r hr => ⟨hr.1, by rw [hr.2, hp.2, PExpr.value]⟩
  | divCoef e c ih =>
    refine (ih h.1).bind fun p hp => ?_
    exact (Poly.divCoef_spec hp.1 h.2.1 h.2.2).mono hE fun r hr =>
      ⟨hr.1, by rw [hr.2, hp.2, PExpr.value]⟩

/-! ### Sample polynomials used in the examples -/

/-- `1/2 x + 3` -/
def sampleP : Poly Rational := [⟨⟨1, 2⟩, [1]⟩, ⟨⟨3, 1⟩, []⟩]
/-- `y^2 - 3` -/
def sampleQ : Poly Rational := [⟨⟨1, 1⟩, [0, 2]⟩, ⟨⟨-3, 1⟩, []⟩]

section
attribute [local instance] Rational.lawful

theorem sampleTerm_clean (n d : Int) (m : MDeg) (hn : n ≠ 0) (hd : 0 < d) (hm : m.Clean) :
    @Term.Clean Rational (Rational.field .debug) ℚ _ Rational.lawful ℕ _ ⟨⟨n, d⟩, m⟩ := by
  let _ := Rational.field .debug
  refine ⟨⟨⟨hd, fun h => absurd h hn⟩, hm, MDeg.inVars_nat _⟩, ?_⟩
  change (n : ℚ) / d ≠ 0
  have : (d : ℚ) ≠ 0 := by exact_mod_cast hd.ne'
  have : (n : ℚ) ≠ 0 := by exact_mod_cast hn
  positivity

theorem sampleP_clean : @Poly.Clean Rational (Rational.field .debug) ℚ _ Rational.lawful ℕ _ sampleP := by
  let _ := Rational.field .debug
  refine ⟨?_, by decide⟩
  intro t ht
  simp only [sampleP, List.mem_cons, List.not_mem_nil, or_false] at ht
  rcases ht with rfl | rfl
  · exact sampleTerm_clean _ _ _ (by decide) (by decide) (by decide)
  · exact sampleTerm_clean _ _ _ (by decide) (by decide) (by decide)

theorem sampleQ_clean : @Poly.Clean Rational (Rational.field .debug) ℚ _ Rational.lawful ℕ _ sampleQ := by
  let _ := Rational.field .debug
  refine ⟨?_, by decide⟩
  intro t ht
  simp only [sampleQ, List.mem_cons, List.not_mem_nil, or_false] at ht
  rcases ht with rfl | rfl
  · exact sampleTerm_clean _ _ _ (by decide) (by decide) (by decide)
  · exact sampleTerm_clean _ _ _ (by decide) (by decide) (by decide)

end

/-- A valid expression: `(x^2 + 1/2) * (x^2 - 1/2) / 3`, run on rationals. -/
def sampleExpr : PExpr Rational :=
  .divCoef (.mul (.add (.var 0 2) (.coef ⟨1, 2⟩)) (.sub (.var 0 2) (.coef ⟨1, 2⟩))) ⟨3, 1⟩

example :
    letI := Rational.field .debug
    letI := Rational.lawful
    sampleExpr.Valid ∧
    sampleExpr.run = .ok [⟨⟨1, 3⟩, [4]⟩, ⟨⟨-1, 12⟩, []⟩] := by
  let _ := Rational.field .debug
  let _ := Rational.lawful
  refine ⟨⟨⟨⟨?_, ?_⟩, ?_, ?_⟩, ?_, ?_⟩, by decide⟩
  · change 2 < 256; decide
  · exact ⟨by decide, by decide⟩
  · change 2 < 256; decide
  · exact ⟨by decide, by decide⟩
  · exact ⟨by decide, by decide⟩
  · change ((3 : Int) : ℚ) / (1 : Int) ≠ 0; norm_num

/-! ## C25 addition -/

/-- C25. All four operand combinations of `+` denote the sum. -/
theorem C25_add (p q : Poly F) (s t : Term F) (hp : Poly.Clean ℕ p) (hq : Poly.Clean ℕ q)
    (hs : s.Ok ℕ) (ht : t.Ok ℕ) :
    Spec (allowed F) (Poly.add p q) (fun r => Poly.Clean ℕ r ∧
      Poly.den ℕ r = Poly.den ℕ p + Poly.den ℕ q) ∧
    Spec (allowed F) (Poly.addTerm p t) (fun r => Poly.Clean ℕ r ∧
      Poly.den ℕ r = Poly.den ℕ p + t.den ℕ) ∧
    Spec (allowed F) (Poly.termAddTerm s t) (fun r => Poly.Clean ℕ r ∧
      Poly.den ℕ r = s.den ℕ + t.den ℕ) :=
  ⟨Poly.add_spec hp hq.oks, Poly.addTerm_spec hp ht, Poly.termAddTerm_spec hs ht⟩

example : letI := Rational.field .debug
    Poly.add sampleP sampleQ = .ok [⟨⟨1, 2⟩, [1]⟩, ⟨⟨1, 1⟩, [0, 2]⟩] := by decide

/-! ## C26 negation and subtraction -/

/-- C26. -/
theorem C26_sub (p q : Poly F) (s t : Term F) (hp : Poly.Clean ℕ p) (hq : Poly.Clean ℕ q)
    (hs : s.Ok ℕ) (ht : t.Ok ℕ) :
    Spec (allowed F) (Poly.neg p) (fun r => Poly.Clean ℕ r ∧ Poly.den ℕ r = - Poly.den ℕ p) ∧
    Spec (allowed F) (Term.neg t) (fun r => r.Ok ℕ ∧ r.den ℕ = - t.den ℕ) ∧
    Spec (allowed F) (Poly.sub p q) (fun r => Poly.Clean ℕ r ∧
      Poly.den ℕ r = Poly.den ℕ p - Poly.den ℕ q) ∧
    Spec (allowed F) (Poly.subTerm p t) (fun r => Poly.Clean ℕ r ∧
      Poly.den ℕ r = Poly.den ℕ p - t.den ℕ) ∧
    Spec (allowed F) (Poly.termSub s q) (fun r => Poly.Clean ℕ r ∧
      Poly.den ℕ r = s.den ℕ - Poly.den ℕ q) ∧
    Spec (allowed F) (Poly.termSubTerm s t) (fun r => Poly.Clean ℕ r ∧
      Poly.den ℕ r = s.den ℕ - t.den ℕ) :=
  ⟨Poly.neg_spec hp, (Term.neg_spec ht).imp fun _ h => ⟨h.1, h.2.2.2⟩, Poly.sub_spec hp hq,
    Poly.subTerm_spec hp ht, Poly.termSub_spec hs hq, Poly.termSubTerm_spec hs ht⟩

example : letI := Rational.field .debug
    Poly.sub sampleP sampleP = .ok [] ∧
    Poly.sub sampleP sampleQ = .ok [⟨⟨1, 2⟩, [1]⟩, ⟨⟨6, 1⟩, []⟩, ⟨⟨-1, 1⟩, [0, 2]⟩] := by decide

/-! ## C27 multiplication -/

/-- C27. All operand combinations of `*` denote the product; a `u8` overflow panic happens only if
some sum of exponents of two multiplied terms exceeds 255. -/
theorem C27_mul (p q : Poly F) (s t : Term F) (c : F) (hp : Poly.Clean ℕ p) (hq : Poly.Clean ℕ q)
    (hs : s.Ok ℕ) (ht : t.Ok ℕ) (hc : wf c) :
    Spec (fun e => allowed F e ∨ e = .overflowU8 ∧
        ∃ u ∈ p, ∃ v ∈ q, ∃ i, 255 < u.mdeg.deg i + v.mdeg.deg i)
      (Poly.mul p q) (fun r => Poly.Clean ℕ r ∧ Poly.den ℕ r = Poly.den ℕ p * Poly.den ℕ q) ∧
    Spec (fun e => allowed F e ∨ e = .overflowU8 ∧ ∃ u ∈ p, ∃ i, 255 < u.mdeg.deg i + t.mdeg.deg i)
      (Poly.mulTerm p t) (fun r => Poly.Clean ℕ r ∧ Poly.den ℕ r = Poly.den ℕ p * t.den ℕ) ∧
    Spec (fun e => allowed F e ∨ e = .overflowU8 ∧ ∃ i, 255 < s.mdeg.deg i + t.mdeg.deg i)
      (Term.mul s t) (fun r => r.Ok ℕ ∧ r.den ℕ = s.den ℕ * t.den ℕ) ∧
    Spec (allowed F) (Poly.mulCoef p c) (fun r => Poly.Clean ℕ r ∧
      Poly.den ℕ r = C (val c) * Poly.den ℕ p) := by
  refine ⟨?_, ?_, ?_, Poly.mulCoef_spec hp hc⟩
  · refine Poly.mul_spec hp.oks hq (fun _ h => Or.inl h) ?_
    by_cases h : ∃ u ∈ p, ∃ v ∈ q, ∃ i, 255 < u.mdeg.deg i + v.mdeg.deg i
    · exact Or.inl (Or.inr ⟨rfl, h⟩)
    · push Not at h
      exact Or.inr fun u hu v hv i => by have := h u hu v hv i; omega
  · refine Poly.mulTerm_spec hp ht (fun _ h => Or.inl h) ?_
    by_cases h : ∃ u ∈ p, ∃ i, 255 < u.mdeg.deg i + t.mdeg.deg i
    · exact Or.inl (Or.inr ⟨rfl, h⟩)
    · push Not at h
      exact Or.inr fun u hu i => by have := h u hu i; omega
  · refine (Term.mul_spec hs ht (fun _ h => Or.inl h) ?_).imp fun r hr => ⟨hr.1, hr.2.1⟩
    by_cases h : ∃ i, 255 < s.mdeg.deg i + t.mdeg.deg i
    · exact Or.inl (Or.inr ⟨rfl, h⟩)
    · push Not at h
      exact Or.inr fun i => by have := h i; omega

example : letI := Rational.field .debug
    Poly.mul sampleP sampleQ =
      .ok [⟨⟨1, 2⟩, [1, 2]⟩, ⟨⟨-3, 2⟩, [1]⟩, ⟨⟨3, 1⟩, [0, 2]⟩, ⟨⟨-9, 1⟩, []⟩] := by decide

/-! ## C28 division by a scalar -/

/-- C28. -/
theorem C28_div (p : Poly F) (c : F) (hp : Poly.Clean ℕ p) (hc : wf c) (h0 : val c ≠ (0 : K)) :
    Spec (allowed F) (Poly.divCoef p c) (fun r => Poly.Clean ℕ r ∧
      Poly.den ℕ r = C (val c)⁻¹ * Poly.den ℕ p) :=
  Poly.divCoef_spec hp hc h0

/-- C28. Dividing a nonzero rational polynomial by zero panics, in both builds. -/
theorem C28_div_zero (b : Build) (p : Poly Rational) (hp : p ≠ []) (t0 : (p.head hp).coef.numer ≠ 0) :
    letI := Rational.field b
    Poly.divCoef p Rational.ZERO = .panic (.explicit "denominator cannot be zero") := by
  let _ := Rational.field b
  obtain ⟨t, p, rfl⟩ := List.exists_cons_of_ne_nil hp
  simp only [List.head_cons] at t0
  have hrec : (RField.inv Rational.ZERO : Res Rational) = .ok ⟨0, 0⟩ := by
    change Rational.recip b Rational.ZERO = _
    cases b <;> decide
  unfold Poly.divCoef Poly.mulCoef Poly.mulTerm
  rw [hrec]
  have hz : (Term.constantUnchecked (⟨0, 0⟩ : Rational)).isZero = false := by
    change decide ((⟨0, 0⟩ : Rational) = Rational.ZERO) = false
    decide
  have ht : t.isZero = false := by
    change decide (t.coef = Rational.ZERO) = false
    refine decide_eq_false fun h => t0 ?_
    rw [h]; rfl
  simp only [bind_ok, hz, Bool.false_or, Poly.isZero, List.isEmpty_cons, Bool.false_eq_true, if_false,
    List.mapM_cons]
  have hm : t.mul (Term.constantUnchecked (⟨0, 0⟩ : Rational)) =
      .panic (.explicit "denominator cannot be zero") := by
    unfold Term.mul
    rw [hz, ht]
    have : (RField.mul t.coef (Term.constantUnchecked (⟨0, 0⟩ : Rational)).coef : Res Rational) =
        .panic (.explicit "denominator cannot be zero") := by
      change Rational.mul b t.coef ⟨0, 0⟩ = _
      unfold Rational.mul Integer.mul
      simp only [mul_zero]
      have : I64.norm b 0 = .ok 0 := I64.norm_eq (by decide)
      rw [this]; rfl
    simp only [Bool.or_self, Bool.false_eq_true, if_false, this, bind_panic]
  rw [hm]; rfl

example : letI := Rational.field .debug
    Poly.divCoef sampleP ⟨3, 2⟩ = .ok [⟨⟨1, 3⟩, [1]⟩, ⟨⟨2, 1⟩, []⟩] ∧
    Poly.divCoef sampleP Rational.ZERO = .panic (.explicit "denominator cannot be zero") ∧
    Poly.divCoef ([] : Poly Rational) Rational.ZERO = .ok [] := by decide

/-! ## C29 canonical polynomials are determined by what they denote -/

/-- The same terms up to order and coefficient representation. -/
def SameTerms (p q : Poly F) : Prop :=
  (p.map fun t => (t.mdeg, (val t.coef : K))).Perm (q.map fun t => (t.mdeg, (val t.coef : K)))

/-- C29. -/
theorem C29_unique (p q : Poly F) (hp : Poly.Clean ℕ p) (hq : Poly.Clean ℕ q) :
    Poly.den ℕ p = Poly.den ℕ q ↔ SameTerms p q :=
  ⟨Poly.den_inj hp hq, Poly.den_eq_of_perm⟩

/-- C29. Every element of `K[x_0, ...]` with exponents below 256 and representable coefficients is
denoted by a canonical polynomial (so the denotation is onto the representable polynomials). -/
theorem C29_onto (f : MvPolynomial ℕ K) (hd : ∀ e ∈ f.support, ∀ i, e i < 256)
    (hc : ∀ e ∈ f.support, ∃ c : F, wf c ∧ val c = f.coeff e) :
    ∃ p : Poly F, Poly.Clean ℕ p ∧ Poly.den ℕ p = f := by
  classical
  have key : ∀ S : Finset (ℕ →₀ ℕ), S ⊆ f.support → ∃ p : Poly F, Poly.Clean ℕ p ∧
      Poly.den ℕ p = ∑ e ∈ S, monomial e (f.coeff e) := by
    intro S
    induction S using Finset.induction_on with
    | empty => intro _; exact ⟨[], Poly.clean_nil, by simp⟩
    | insert e S he ih =>
      intro hS
      obtain ⟨p, hp, hpd⟩ := ih fun x hx => hS (Finset.mem_insert_of_mem hx)
      have hes := hS (Finset.mem_insert_self e S)
      obtain ⟨m, hm, hmv, hme⟩ := MDeg.exists_toF (σ := ℕ) e (hd e hes)
      obtain ⟨c, hcw, hcv⟩ := hc e hes
      have htd : (⟨c, m⟩ : Term F).den ℕ = monomial e (f.coeff e) := by
        unfold Term.den; rw [hme, hcv]
      refine ⟨⟨c, m⟩ :: p, Poly.clean_cons.mpr ⟨⟨⟨hcw, hm, hmv⟩, ?_⟩, hp, ?_⟩, ?_⟩
      · rw [hcv]; exact mem_support_iff.mp hes
      · intro u hu hum
        have : e ∈ (Poly.den ℕ p).support := (Poly.mem_support_den hp).mpr ⟨u, hu, by rw [hum, hme]⟩
        rw [mem_support_iff, hpd, coeff_sum, Finset.sum_eq_zero] at this
        · exact this rfl
        · intro x hx
          rw [coeff_monomial, if_neg]
          rintro rfl; exact he hx
      · rw [Poly.den_cons, htd, hpd, Finset.sum_insert he]
  obtain ⟨p, hp, hpd⟩ := key f.support (fun _ h => h)
  exact ⟨p, hp, by rw [hpd]; exact support_sum_monomial_coeff f⟩

/-- C29. Ring laws of the results: any two valid expressions with equal mathematical value that
both return give the same terms. -/
theorem C29_ring_laws (e₁ e₂ : PExpr F) (h₁ : e₁.Valid) (h₂ : e₂.Valid)
    (h : e₁.value = (e₂.value : MvPolynomial ℕ K)) (p q : Poly F)
    (hp : e₁.run = .ok p) (hq : e₂.run = .ok q) : SameTerms p q := by
  obtain ⟨c1, d1⟩ := (C24_history e₁ h₁).of_ok hp
  obtain ⟨c2, d2⟩ := (C24_history e₂ h₂).of_ok hq
  exact (C29_unique p q c1 c2).mp (by rw [d1, d2, h])

/-- Instances: commutativity, associativity, distributivity. -/
example (a b c : PExpr F) (ha : a.Valid) (hb : b.Valid) (hc : c.Valid) (p q : Poly F)
    (hp : (PExpr.mul a (.add b c)).run = .ok p)
    (hq : (PExpr.add (.mul b a) (.mul a c)).run = .ok q) : SameTerms p q :=
  C29_ring_laws (.mul a (.add b c)) (.add (.mul b a) (.mul a c)) ⟨ha, hb, hc⟩ ⟨⟨hb, ha⟩, ha, hc⟩ (by simp only [PExpr.value]; ring) p q hp hq

/-! ## C30 `is_zero` -/

/-- C30. -/
theorem C30_is_zero (p q : Poly F) (hp : Poly.Clean ℕ p) (hq : Poly.Clean ℕ q) :
    (Poly.isZero p = true ↔ Poly.den ℕ p = 0) ∧
    Spec (allowed F) (Poly.sub p q) (fun r => Poly.isZero r = true ↔ Poly.den ℕ p = Poly.den ℕ q) :=
  ⟨Poly.isZero_iff hp, (Poly.sub_spec hp hq).imp fun r hr => by
    rw [Poly.isZero_iff hr.1, hr.2, sub_eq_zero]⟩

/-! ## C31 evaluation -/

/-- C31. `eval(x)` is the value of the denoted polynomial at `x`; it panics with the documented
message only if `x` is shorter than the multidegree of some term, and whenever `x` is, it does not
return. -/
theorem C31_eval (p : Poly F) (hp : Poly.Clean ℕ p) (x : List F) (hx : ∀ a ∈ x, wf a) :
    Spec (fun e => allowed F e ∨
        e = .explicit "incorrectly sized argument passed to term" ∧
          ∃ t ∈ p, x.length < t.mdeg.length)
      (Poly.eval p x)
      (fun c => (∀ t ∈ p, t.mdeg.length ≤ x.length) ∧ wf c ∧
        val c = MvPolynomial.eval (fun i => (val (x.getD i RField.zero) : K)) (Poly.den ℕ p)) := by
  by_cases hl : ∀ t ∈ p, t.mdeg.length ≤ x.length
  · exact (Poly.eval_spec (σ := ℕ) hp.oks hx hl).mono (fun _ h => Or.inl h) fun c hc => ⟨hl, hc⟩
  · have hE : ∃ t ∈ p, x.length < t.mdeg.length := by push Not at hl; exact hl
    have hs := sum_spec (F := F) (fun e => allowed F e ∨
        e = .explicit "incorrectly sized argument passed to term" ∧
          ∃ t ∈ p, x.length < t.mdeg.length) (fun _ h => Or.inl h)
        (p.map fun t => t.eval x)
        (p.map fun t => MvPolynomial.eval (fun i => (val (x.getD i RField.zero) : K)) (t.den ℕ)) (by
      rw [List.forall₂_map_left_iff, List.forall₂_map_right_iff]
      refine List.forall₂_same.mpr fun t ht => ?_
      by_cases h : t.mdeg.length ≤ x.length
      · exact (Term.eval_spec (σ := ℕ) (hp.oks t ht) hx h).mono (fun _ h => Or.inl h) fun _ h => h
      · unfold Term.eval MDeg.len
        rw [if_pos (by omega)]
        exact Or.inr ⟨rfl, hE⟩)
    cases hr : Poly.eval p x with
    | ok c =>
      obtain ⟨t, ht, hlt⟩ := hE
      obtain ⟨a, ha⟩ := sum_strict (K := K) _ c hr (t.eval x) (List.mem_map.mpr ⟨t, ht, rfl⟩)
      unfold Term.eval MDeg.len at ha
      rw [if_pos hlt] at ha
      exact absurd ha (by simp)
    | panic e =>
      unfold Poly.eval at hr
      rw [hr] at hs; exact hs
    | diverge =>
      unfold Poly.eval at hr
      rw [hr] at hs; exact hs

/-- C31. Evaluation commutes with the operations of any history of operations. -/
theorem C31_eval_hom (e : PExpr F) (h : e.Valid) (p : Poly F) (hr : e.run = .ok p) (x : List F)
    (hx : ∀ a ∈ x, wf a) (c : F) (hc : Poly.eval p x = .ok c) :
    val c = MvPolynomial.eval (fun i => (val (x.getD i RField.zero) : K)) e.value := by
  obtain ⟨h1, h2⟩ := (C24_history e h).of_ok hr
  obtain ⟨-, -, h3⟩ := (C31_eval p h1 x hx).of_ok hc
  rw [h3, h2]

example : letI := Rational.field .debug
    Poly.eval sampleQ [⟨7, 1⟩, ⟨5, 2⟩] = .ok ⟨13, 4⟩ ∧
    Poly.eval sampleQ [⟨7, 1⟩] = .panic (.explicit "incorrectly sized argument passed to term") := by
  decide

/-! ## C32 division of terms -/

/-- C32. For a nonzero term `s`: `s.try_div(t)` is `Some` exactly when `t.divides(s)`, and then
the quotient times `t` is `s`. For a zero term it is `Some(0)`. -/
theorem C32_try_div (s t : Term F) (hs : s.Ok ℕ) (ht : t.Ok ℕ) :
    (val s.coef ≠ (0 : K) → Spec (allowed F) (s.tryDiv t) (fun o => o.isSome = t.divides s ∧
      ∀ q, o = some q → q.Clean ℕ ∧ q.den ℕ * t.den ℕ = s.den ℕ)) ∧
    (val s.coef = (0 : K) → s.tryDiv t = .ok (some Term.zero)) ∧
    (val s.coef ≠ (0 : K) → (t.divides s = true ↔ t.den ℕ ∣ s.den ℕ)) := by
  have hdvd : val s.coef ≠ (0 : K) → val t.coef ≠ (0 : K) →
      (t.den ℕ ∣ s.den ℕ ↔ t.mdeg.toF ℕ ≤ s.mdeg.toF ℕ) := by
    intro h1 h2
    unfold Term.den
    rw [monomial_dvd_monomial]
    constructor
    · rintro ⟨h | h, _⟩
      · exact absurd h h1
      · exact h
    · intro h; exact ⟨Or.inr h, (isUnit_iff_ne_zero.mpr h2).dvd⟩
  refine ⟨fun h1 => ?_, fun h0 => ?_, fun h1 => ?_⟩
  · by_cases h2 : val t.coef = (0 : K)
    · unfold Term.tryDiv
      rw [Term.isZero_false hs.wf h1, (Term.isZero_iff ht.wf).mpr h2]
      refine ⟨?_, by simp⟩
      unfold Term.divides
      rw [(Term.isZero_iff ht.wf).mpr h2]; rfl
    · refine (Term.tryDiv_spec ⟨hs, h1⟩ ⟨ht, h2⟩).imp fun o ho => ?_
      cases o with
      | none =>
        refine ⟨?_, by simp⟩
        rw [Option.isSome_none, eq_comm, ← Bool.not_eq_true, Term.divides_iff ⟨ht, h2⟩]
        exact ho
      | some q =>
        refine ⟨?_, ?_⟩
        · rw [Option.isSome_some, eq_comm, Term.divides_iff ⟨ht, h2⟩, ho.2.2]
          exact le_add_self
        · rintro _ ⟨⟩
          refine ⟨ho.1, ?_⟩
          unfold Term.den
          rw [monomial_mul, ho.2.1, ho.2.2, div_mul_cancel₀ _ h2]
  · unfold Term.tryDiv
    rw [(Term.isZero_iff hs.wf).mpr h0]; rfl
  · by_cases h2 : val t.coef = (0 : K)
    · unfold Term.divides
      rw [(Term.isZero_iff ht.wf).mpr h2, Term.den_eq_zero.mpr h2, zero_dvd_iff, Term.den_eq_zero]
      simp [h1]
    · rw [Term.divides_iff ⟨ht, h2⟩, hdvd h1 h2]

example : letI := Rational.field .debug
    Term.tryDiv (⟨⟨3, 1⟩, [2, 1]⟩ : Term Rational) ⟨⟨2, 1⟩, [1, 1]⟩ = .ok (some ⟨⟨3, 2⟩, [1]⟩) ∧
    Term.tryDiv (⟨⟨3, 1⟩, [2]⟩ : Term Rational) ⟨⟨2, 1⟩, [1, 1]⟩ = .ok none := by decide

/-! ## C33 constructors -/

/-- C33. What the constructors of terms denote. -/
theorem C33_terms (c : F) (m : MDeg) (hc : wf c) (hm : m.Clean) :
    ((Term.new c m).Ok ℕ ∧ (Term.new c m).den ℕ = monomial (m.toF ℕ) (val c) ∧
      (val c = (0 : K) → Term.new c m = (Term.zero : Term F))) ∧
    ((Term.monic m : Term F).Clean ℕ ∧ (Term.monic m : Term F).den ℕ = monomial (m.toF ℕ) 1) ∧
    ((Term.one : Term F).den ℕ = 1 ∧ (Term.zero : Term F).den ℕ = 0) ∧
    ((Term.new c m).isZero = true ↔ val c = (0 : K)) := by
  have hz : val c = (0 : K) → Term.new c m = (Term.zero : Term F) := fun h => by
    unfold Term.new; rw [if_pos (beq_zero c hc h)]
  obtain ⟨h1, h2⟩ := Term.new_ok (σ := ℕ) hc hm (MDeg.inVars_nat _)
  refine ⟨⟨h1, h2, hz⟩, ⟨Term.monic_clean hm (MDeg.inVars_nat _), Term.den_monic m⟩,
    ⟨Term.den_one, Term.den_zero⟩, ?_⟩
  rw [Term.isZero_iff h1.wf, ← Term.den_eq_zero (σ := ℕ), h2, monomial_eq_zero]

/-- C33. What the constructors of polynomials denote. -/
theorem C33_polys (c : F) (t : Term F) (hc : wf c) (ht : t.Ok ℕ) (i d : ℕ) (hd : d < 256) :
    (Poly.Clean ℕ (Poly.ofCoef c) ∧ Poly.den ℕ (Poly.ofCoef c) = C (val c)) ∧
    (Poly.Clean ℕ (Poly.ofTerm t) ∧ Poly.den ℕ (Poly.ofTerm t) = t.den ℕ) ∧
    (Poly.Clean ℕ (Poly.var i d : Poly F) ∧ Poly.den ℕ (Poly.var i d : Poly F) = X i ^ d) ∧
    (Poly.Clean ℕ (Poly.one : Poly F) ∧ Poly.den ℕ (Poly.one : Poly F) = 1) ∧
    (Poly.Clean ℕ (Poly.zero : Poly F) ∧ Poly.den ℕ (Poly.zero : Poly F) = 0) := by
  refine ⟨Poly.ofCoef_spec hc, Poly.ofTerm_spec ht, ?_, ?_, ?_⟩
  · obtain ⟨h1, h2⟩ := C33_term_var (F := F) i d hd
    exact ⟨Poly.clean_singleton.mpr h1, by simp [Poly.var, Poly.termUnchecked, Poly.newUnchecked, h2]⟩
  · exact ⟨Poly.clean_singleton.mpr Term.one_clean, by
      simp [Poly.one, Poly.termUnchecked, Poly.newUnchecked, Term.den_one]⟩
  · exact ⟨Poly.clean_nil, rfl⟩

/-- C33. `Polynomial::new` denotes the sum of the terms and drops exactly the zero terms; the
result is canonical exactly when the remaining multidegrees are distinct (duplicates are not
merged). -/
theorem C33_poly_new (ts : List (Term F)) (h : ∀ t ∈ ts, t.Ok ℕ) :
    Poly.den ℕ (Poly.new ts) = (ts.map (Term.den ℕ)).sum ∧
    (∀ t, t ∈ Poly.new ts ↔ t ∈ ts ∧ val t.coef ≠ (0 : K)) ∧
    (Poly.Clean ℕ (Poly.new ts) ↔ ((Poly.new ts).map Term.mdeg).Nodup) := by
  have hmem : ∀ t, t ∈ Poly.new ts ↔ t ∈ ts ∧ val t.coef ≠ (0 : K) := by
    intro t
    unfold Poly.new Poly.newUnchecked
    rw [List.mem_filter]
    refine and_congr_right fun ht => ?_
    rw [Bool.not_eq_true', ← Bool.not_eq_true, Term.isZero_iff (h t ht).wf]
  refine ⟨?_, hmem, fun hc => hc.nodup, fun hn => ⟨fun t ht => ?_, hn⟩⟩
  · clear hmem
    induction ts with
    | nil => rfl
    | cons t ts ih =>
      have ih := ih fun t ht => h t (by simp [ht])
      unfold Poly.new Poly.newUnchecked at ih ⊢
      rw [List.filter_cons]
      split
      · rw [Poly.den_cons, ih]; simp
      · rename_i hz
        simp only [Bool.not_eq_true, Bool.not_eq_false'] at hz
        rw [Term.isZero_iff (h t (by simp)).wf] at hz
        rw [ih, List.map_cons, List.sum_cons, Term.den_eq_zero.mpr hz, zero_add]
  · obtain ⟨h1, h2⟩ := (hmem t).mp ht
    exact ⟨h t h1, h2⟩

/-- `Polynomial::new` does not merge terms: `x + x` built with `new` has two terms. -/
theorem C33_new_duplicates : letI := Rational.field .debug
    Poly.new [⟨⟨1, 1⟩, [1]⟩, ⟨⟨0, 1⟩, []⟩, ⟨⟨1, 1⟩, [1]⟩] =
      ([⟨⟨1, 1⟩, [1]⟩, ⟨⟨1, 1⟩, [1]⟩] : Poly Rational) := by decide

example : letI := Rational.field .debug
    (Poly.var 1 3 : Poly Rational) = [⟨⟨1, 1⟩, [0, 3]⟩] ∧
    (Term.new ⟨0, 1⟩ [0, 3] : Term Rational) = ⟨⟨0, 1⟩, []⟩ := by decide

end Verif
