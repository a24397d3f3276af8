import Verif.Proofs.Alike
import Verif.Props.F64Poly
import Verif.Props.F64Exact
import Verif.Props.Elts
import Verif.Proofs.Run

/-!
# C199 and C200: the order of the terms of a polynomial

C199: which terms a polynomial has decides what the routines return, the order in which they are stored does
not.  Nothing is assumed of the arithmetic of the coefficients.

C200: for products and values this is different.
-/

namespace Verif
open Res LawfulRField Computer

section
variable {F : Type}

/-- The same terms in another order; no multidegree occurs twice. -/
def Poly.Reordered (p q : Poly F) : Prop := p.Perm q ∧ (p.map (·.mdeg)).Nodup

theorem Poly.Reordered.symm {p q : Poly F} (h : p.Reordered q) : q.Reordered p :=
  ⟨h.1.symm, (h.1.map _).nodup_iff.mp h.2⟩

theorem Poly.Reordered.alike {p q : Poly F} (h : p.Reordered q) : p.Alike q := alike_of_perm h.1 h.2

/-- The same terms in another order, for polynomials in canonical form: no zero coefficients, no multidegree
twice, no multidegree with a zero at its end. -/
def Poly.ReorderedGen [RField F] (p q : Poly F) : Prop :=
  p.Perm q ∧ p.Canonical ∧ ∀ t ∈ p, t.mdeg.getLast? ≠ some 0

theorem Poly.ReorderedGen.like [RField F] {p q : Poly F} (h : p.ReorderedGen q) : p.Like q :=
  .inr ⟨alike_of_perm h.1 h.2.1.nodup, fun t ht => ⟨h.2.1.ne t ht, h.2.2 t ht⟩⟩

theorem Poly.ReorderedGen.symm [RField F] {p q : Poly F} (h : p.ReorderedGen q) : q.ReorderedGen p :=
  ⟨h.1.symm, ⟨fun t ht => h.2.1.ne t (h.1.mem_iff.mpr ht), (h.1.map _).nodup_iff.mp h.2.1.nodup⟩,
    fun t ht => h.2.2 t (h.1.mem_iff.mpr ht)⟩

theorem forall₂_gens_symm [RField F] {l l' : List (Poly F)} (h : List.Forall₂ Poly.ReorderedGen l l') :
    List.Forall₂ Poly.ReorderedGen l' l := (h.imp fun _ _ h => h.symm).flip

theorem Ret.eq_iff {α : Type} {x y : Res α} (h : Ret (· = ·) x y) (h' : Ret (· = ·) y x) (a : α) :
    x = .ok a ↔ y = .ok a :=
  ⟨fun e => by obtain ⟨_, e', rfl⟩ := h a e; exact e', fun e => by obtain ⟨_, e', rfl⟩ := h' a e; exact e'⟩

/-- C199. `leading_term`, `leading_coef` and `sort_terms` return exactly the same, in both builds. -/
theorem C199_leading (k : OrdKind) (b : Build) (f f' : Poly F) (h : f.Reordered f') :
    (∀ x, leadingTerm (k.order b) f = .ok x ↔ leadingTerm (k.order b) f' = .ok x) ∧
    (∀ x, leadingCoef (k.order b) f = .ok x ↔ leadingCoef (k.order b) f' = .ok x) ∧
    (∀ x, sortTerms (k.order b) f = .ok x ↔ sortTerms (k.order b) f' = .ok x) :=
  ⟨(leadingTerm_alike h.alike).eq_iff (leadingTerm_alike h.symm.alike),
    (leadingCoef_alike h.alike).eq_iff (leadingCoef_alike h.symm.alike),
    (sortTerms_alike h.alike).eq_iff (sortTerms_alike h.symm.alike)⟩

variable [RField F]

/-- C199. Sums, differences and opposites have the same terms, in both builds. -/
theorem C199_sums (p p' q q' : Poly F) (hp : p.Reordered p') (hq : q.Reordered q') :
    (∀ r, p.add q = .ok r → ∃ r', p'.add q' = .ok r' ∧ r.Perm r') ∧
    (∀ r, p.sub q = .ok r → ∃ r', p'.sub q' = .ok r' ∧ r.Perm r') ∧
    (∀ r, p.neg = .ok r → ∃ r', p'.neg = .ok r' ∧ r.Perm r') := by
  have H : ∀ {x y : Res (Poly F)}, Ret Poly.Alike x y → ∀ r, x = .ok r → ∃ r', y = .ok r' ∧ r.Perm r' :=
    fun h r hr => (h r hr).imp fun _ h => ⟨h.1, h.2.perm⟩
  exact ⟨H (Poly.add_alike hp.alike hq.alike), H (Poly.sub_alike hp.alike hq.alike),
    H (Poly.neg_alike hp.alike)⟩

variable (hb : RField.build F = .debug)
include hb

/-- C199. Products with a term, and products in which the terms of the second factor are reordered, have the
same terms. -/
theorem C199_products (p q q' : Poly F) (t : Term F) (hq : q.ReorderedGen q') :
    (∀ r, q.mulTerm t = .ok r → ∃ r', q'.mulTerm t = .ok r' ∧ r.Perm r') ∧
    (∀ r, p.mul q = .ok r → ∃ r', p.mul q' = .ok r' ∧ r.Perm r') :=
  ⟨fun r hr => (Poly.mulTerm_alike hb hq.like t r hr).imp fun _ h => ⟨h.1, h.2.perm⟩,
    fun r hr => (Poly.mul_alike hb p hq.like r hr).imp fun _ h => ⟨h.1, h.2.perm⟩⟩

/-- C199. `divide` returns exactly the same remainder and quotients, also in the order of their terms, when the
terms of the dividend and of the divisors are reordered. -/
theorem C199_divide (k : OrdKind) (f f' : Poly F) (divs divs' : List (Poly F)) (hf : f.Reordered f')
    (hd : List.Forall₂ Poly.ReorderedGen divs divs') (x : Poly F × List (Poly F)) :
    divide (k.order .debug) f divs = .ok x ↔ divide (k.order .debug) f' divs' = .ok x :=
  (divide_alike hb hf.alike (hd.imp fun _ _ h => h.like)).eq_iff
    (divide_alike hb hf.symm.alike ((forall₂_gens_symm hd).imp fun _ _ h => h.like)) x

/-- C199. `try_reduce` returns the same terms. -/
theorem C199_try_reduce (k : OrdKind) (f f' g g' : Poly F) (hf : f.ReorderedGen f') (hg : g.ReorderedGen g')
    (o : Option (Poly F)) (h : tryReduce (k.order .debug) f g = .ok o) :
    ∃ o', tryReduce (k.order .debug) f' g' = .ok o' ∧
      ((o = none ∧ o' = none) ∨ ∃ s s', o = some s ∧ o' = some s' ∧ s.Perm s') := by
  obtain ⟨o', h1, h2⟩ := tryReduce_alike hb hf.like hg.like o h
  refine ⟨o', h1, ?_⟩
  rcases o with _ | s <;> rcases o' with _ | s'
  · exact .inl ⟨rfl, rfl⟩
  · exact h2.elim
  · exact h2.elim
  · exact .inr ⟨s, s', rfl, rfl, h2.perm⟩

/-- C199. `buchberger_criterion` gives the same answer. -/
theorem C199_criterion (k : OrdKind) (gens gens' : List (Poly F))
    (hg : List.Forall₂ Poly.ReorderedGen gens gens') (x : Bool) :
    buchbergerCriterion (k.order .debug) gens = .ok x ↔ buchbergerCriterion (k.order .debug) gens' = .ok x :=
  (buchbergerCriterion_alike hb (hg.imp fun _ _ h => h.like)).eq_iff
    (buchbergerCriterion_alike hb ((forall₂_gens_symm hg).imp fun _ _ h => h.like)) x

/-- C199. `buchberger_algorithm` computes as many polynomials, with the same terms, in the same order. -/
theorem C199_algorithm (k : OrdKind) (gens gens' : List (Poly F))
    (hg : List.Forall₂ Poly.ReorderedGen gens gens') (B : List (Poly F))
    (h : buchbergerAlgorithm (k.order .debug) gens = .ok B) :
    ∃ B', buchbergerAlgorithm (k.order .debug) gens' = .ok B' ∧ List.Forall₂ List.Perm B B' :=
  (buchbergerAlgorithm_alike hb (hg.imp fun _ _ h => h.like) B h).imp fun _ h =>
    ⟨h.1, h.2.imp fun _ _ h => h.alike.perm⟩

end

/-! ### The hypotheses are met -/

/-- `x² + y` and `x y + 1`. -/
def reorderA : List (Poly Rational) :=
  [[⟨⟨1, 1⟩, [2]⟩, ⟨⟨1, 1⟩, [0, 1]⟩], [⟨⟨1, 1⟩, [1, 1]⟩, ⟨⟨1, 1⟩, []⟩]]

/-- `y + x²` and `1 + x y`. -/
def reorderB : List (Poly Rational) :=
  [[⟨⟨1, 1⟩, [0, 1]⟩, ⟨⟨1, 1⟩, [2]⟩], [⟨⟨1, 1⟩, []⟩, ⟨⟨1, 1⟩, [1, 1]⟩]]

example : letI := Rational.field .debug
    List.Forall₂ Poly.ReorderedGen reorderA reorderB := by
  let _ := Rational.field .debug
  exact .cons ⟨.swap _ _ _, ⟨by decide, by decide⟩, by decide⟩
    (.cons ⟨.swap _ _ _, ⟨by decide, by decide⟩, by decide⟩ .nil)

/-- A division with reordered terms: the same remainder and quotients. -/
example : letI := Rational.field .debug
    letI f : Poly Rational := [⟨⟨1, 1⟩, [3, 1]⟩, ⟨⟨1, 1⟩, [1]⟩, ⟨⟨2, 1⟩, []⟩]
    letI f' : Poly Rational := [⟨⟨2, 1⟩, []⟩, ⟨⟨1, 1⟩, [1]⟩, ⟨⟨1, 1⟩, [3, 1]⟩]
    divide (OrdKind.order .debug .lex) f reorderA =
      .ok ([⟨⟨1, 1⟩, [1]⟩, ⟨⟨1, 1⟩, [0, 1]⟩, ⟨⟨2, 1⟩, []⟩], [[⟨⟨1, 1⟩, [1, 1]⟩], [⟨⟨-1, 1⟩, [0, 1]⟩]]) ∧
    divide (OrdKind.order .debug .lex) f' reorderB =
      .ok ([⟨⟨1, 1⟩, [1]⟩, ⟨⟨1, 1⟩, [0, 1]⟩, ⟨⟨2, 1⟩, []⟩], [[⟨⟨1, 1⟩, [1, 1]⟩], [⟨⟨-1, 1⟩, [0, 1]⟩]]) := by
  let _ := Rational.field .debug
  exact ⟨(divideN_approx 20 _ _).eq (by decide +kernel) (by simp),
    (divideN_approx 20 _ _).eq (by decide +kernel) (by simp)⟩

/-! ## C200: products and values -/

namespace Flt
variable [Fmt]

/-- C200 is false for floats: when the terms of the first factor are stored in another order, the product has
one term more; and when the terms are stored in another order, the value at a point is `1` instead of `0`. -/
theorem C200_refuted :
    letI powi : Flt → Int → Flt := fun x _ => x
    ∀ b, letI := field b powi
      letI p : Poly Flt := [⟨ofInt 1, []⟩, ⟨ofInt (2 ^ 60), [1]⟩, ⟨ofInt (-2 ^ 60), [2]⟩]
      letI p' : Poly Flt := [⟨ofInt (2 ^ 60), [1]⟩, ⟨ofInt (-2 ^ 60), [2]⟩, ⟨ofInt 1, []⟩]
      letI q : Poly Flt := [⟨ofInt 1, [2]⟩, ⟨ofInt 1, [1]⟩, ⟨ofInt 1, []⟩]
      (List.length <$> p.mul q) = .ok 3 ∧ (List.length <$> p'.mul q) = .ok 4 ∧
      p.eval [ofInt 1] = .ok (ofInt 0) ∧ p'.eval [ofInt 1] = .ok (ofInt 1) := by
  intro b
  cases b <;> fmt_decide

end Flt

section
variable {F : Type} [RField F] {K : Type} [Field K] [LawfulRField F K]

/-- C200 for coefficients with exact arithmetic: when a product is computed for both orders of the terms of the
first factor, it has the same terms with the same values of the coefficients; and when a value is computed for
both orders of the terms, it is the same. -/
theorem C200_exact_partial (p p' q q' : Poly F) (hp : ∀ t ∈ p, t.Ok ℕ) (hp' : p.Perm p') (hq : q.Clean ℕ)
    (hq' : q.Perm q') (x : List F) (hx : ∀ a ∈ x, wf a) (hl : ∀ t ∈ p, t.mdeg.length ≤ x.length) :
    (∀ r r', p.mul q = .ok r → p'.mul q' = .ok r' → SameTerms r r') ∧
    (∀ c c', p.eval x = .ok c → p'.eval x = .ok c' → val c = (val c' : K)) := by
  have hm : ∀ t, t ∈ p' → t ∈ p := fun t ht => hp'.mem_iff.mpr ht
  have hqc : q'.Clean ℕ := ⟨fun t ht => hq.terms t (hq'.mem_iff.mpr ht), (hq'.map _).nodup_iff.mp hq.nodup⟩
  constructor
  · intro r r' hr hr'
    have h1 := (Poly.mul_spec (E := fun _ => True) hp hq (fun _ _ => trivial) (.inl trivial)).of_ok hr
    have h2 := (Poly.mul_spec (E := fun _ => True) (fun t ht => hp t (hm t ht)) hqc (fun _ _ => trivial)
      (.inl trivial)).of_ok hr'
    refine Poly.den_inj h1.1 h2.1 ?_
    rw [h1.2, h2.2, Poly.den_perm hp', Poly.den_perm hq']
  · intro c c' hc hc'
    have h1 := (Poly.eval_spec hp hx hl).of_ok hc
    have h2 := (Poly.eval_spec (fun t ht => hp t (hm t ht)) hx fun t ht => hl t (hm t ht)).of_ok hc'
    rw [h1.2, h2.2, Poly.den_perm hp']

end

/-- C200. With rationals the order of the terms decides whether the product and the value are computed, when
overflow is checked: `(2^63 - 1) x + y - z` times `y z + x z + x y` and at `(1, 1, 1)` overflows,
`y - z + (2^63 - 1) x` does not. -/
theorem C200_overflow : letI := Rational.field .debug
    letI p : Poly Rational := [⟨⟨2 ^ 63 - 1, 1⟩, [1]⟩, ⟨⟨1, 1⟩, [0, 1]⟩, ⟨⟨-1, 1⟩, [0, 0, 1]⟩]
    letI p' : Poly Rational := [⟨⟨1, 1⟩, [0, 1]⟩, ⟨⟨-1, 1⟩, [0, 0, 1]⟩, ⟨⟨2 ^ 63 - 1, 1⟩, [1]⟩]
    letI q : Poly Rational := [⟨⟨1, 1⟩, [0, 1, 1]⟩, ⟨⟨1, 1⟩, [1, 0, 1]⟩, ⟨⟨1, 1⟩, [1, 1]⟩]
    p.mul q = .panic .overflowI64 ∧ (List.length <$> p'.mul q) = .ok 7 ∧
    p.eval [⟨1, 1⟩, ⟨1, 1⟩, ⟨1, 1⟩] = .panic .overflowI64 ∧
    p'.eval [⟨1, 1⟩, ⟨1, 1⟩, ⟨1, 1⟩] = .ok ⟨2 ^ 63 - 1, 1⟩ := by
  decide +kernel

/-- `C200_exact_partial` applies. -/
example : letI := Rational.field .debug
    letI := Rational.lawful
    sampleP.Clean ℕ ∧ sampleP.Perm sampleP.reverse ∧ sampleP.reverse ≠ sampleP ∧
    sampleP.mul sampleP = .ok [⟨⟨1, 4⟩, [2]⟩, ⟨⟨12, 4⟩, [1]⟩, ⟨⟨9, 1⟩, []⟩] ∧
    Poly.mul sampleP.reverse sampleP = .ok [⟨⟨12, 4⟩, [1]⟩, ⟨⟨9, 1⟩, []⟩, ⟨⟨1, 4⟩, [2]⟩] := by
  let _ := Rational.field .debug
  exact ⟨sampleP_clean, (List.reverse_perm _).symm, by decide, by decide +kernel, by decide +kernel⟩

end Verif
