import Verif.Proofs.Simulate
import Verif.Props.Refine

/-!
# C188: the build profiles do the same, unless the checked one stops at an overflow

`Sim Overflow x y` says: `x` and `y` return the same value, or end with the same panic, or both run
for ever; or else `x` ends with the panic of an integer overflow.
-/

set_option linter.unusedSectionVars false

namespace Verif
open Res LinAlg

/-- The panics of the integer operations that only a build with overflow checks has. -/
def Overflow (p : Panic) : Prop := p = .overflowI64 ∨ p = .overflowU8 ∨ p = .overflowUsize

section
open Rational

theorem I64.norm_sim (x : Int) : Sim Overflow (I64.norm .debug x) (I64.norm .release x) := by
  unfold I64.norm
  split
  · exact Sim.refl _
  · exact .inr ⟨_, rfl, .inl rfl⟩

theorem Integer.gcd_sim (a b : Int) :
    Sim Overflow (Integer.gcd .debug a b) (Integer.gcd .release a b) :=
  (Sim.refl _).bind fun _ => I64.norm_sim _

theorem Integer.lcm_sim (a b : Int) :
    Sim Overflow (Integer.lcm .debug a b) (Integer.lcm .release a b) :=
  (Integer.gcd_sim a b).bind fun _ => (Sim.refl _).bind fun _ => I64.norm_sim _

theorem Rational.new_sim (n d : Int) : Sim Overflow (new .debug n d) (new .release n d) := by
  unfold new
  split
  · exact Sim.refl _
  · exact (Integer.gcd_sim _ _).bind fun _ => (I64.norm_sim _).bind fun _ =>
      (Sim.refl _).bind fun _ => (I64.norm_sim _).bind fun _ => Sim.refl _

theorem Rational.add_sim (x y : Rational) : Sim Overflow (add .debug x y) (add .release x y) := by
  refine (I64.norm_sim _).bind fun _ => (I64.norm_sim _).bind fun _ =>
    (I64.norm_sim _).bind fun _ => ?_
  split
  · exact Sim.refl _
  · exact (I64.norm_sim _).bind fun _ => Sim.refl _

theorem Rational.sub_sim (x y : Rational) : Sim Overflow (sub .debug x y) (sub .release x y) := by
  refine (I64.norm_sim _).bind fun _ => (I64.norm_sim _).bind fun _ =>
    (I64.norm_sim _).bind fun _ => ?_
  split
  · exact Sim.refl _
  · exact (I64.norm_sim _).bind fun _ => Sim.refl _

theorem Rational.neg_sim (x : Rational) : Sim Overflow (neg .debug x) (neg .release x) :=
  (I64.norm_sim _).bind fun _ => Sim.refl _

theorem Rational.mul_sim (x y : Rational) : Sim Overflow (mul .debug x y) (mul .release x y) :=
  (I64.norm_sim _).bind fun _ => (I64.norm_sim _).bind fun _ => new_sim _ _

theorem Rational.div_sim (x y : Rational) : Sim Overflow (div .debug x y) (div .release x y) :=
  (I64.norm_sim _).bind fun _ => (I64.norm_sim _).bind fun _ => new_sim _ _

theorem Rational.recip_sim (x : Rational) : Sim Overflow (recip .debug x) (recip .release x) :=
  (I64.norm_sim _).bind fun _ => (I64.norm_sim _).bind fun _ => Sim.refl _

theorem Rational.pow_sim (x : Rational) (e : Int) :
    Sim Overflow (pow .debug x e) (pow .release x e) := by
  unfold pow
  split
  · exact (I64.norm_sim _).bind fun _ => (I64.norm_sim _).bind fun _ =>
      (I64.norm_sim _).bind fun _ => (I64.norm_sim _).bind fun _ => Sim.refl _
  · exact (I64.norm_sim _).bind fun _ => (I64.norm_sim _).bind fun _ => Sim.refl _

theorem Rational.cmp_sim (x y : Rational) : Sim Overflow (cmp .debug x y) (cmp .release x y) :=
  (I64.norm_sim _).bind fun _ => (I64.norm_sim _).bind fun _ => Sim.refl _

theorem Rational.stabilityCmp_sim (x y : Rational) :
    Sim Overflow (stabilityCmp .debug x y) (stabilityCmp .release x y) := by
  unfold stabilityCmp
  split
  · exact Sim.refl _
  · split
    · exact Sim.refl _
    · exact (I64.norm_sim _).bind fun _ => (I64.norm_sim _).bind fun _ =>
        (I64.norm_sim _).bind fun _ => (I64.norm_sim _).bind fun _ =>
        (I64.norm_sim _).bind fun _ => (I64.norm_sim _).bind fun _ => Sim.refl _

/-- C188 for `Integer`. -/
theorem C188_integer (x y : Int) :
    Sim Overflow (Integer.add .debug x y) (Integer.add .release x y) ∧
    Sim Overflow (Integer.sub .debug x y) (Integer.sub .release x y) ∧
    Sim Overflow (Integer.mul .debug x y) (Integer.mul .release x y) ∧
    Sim Overflow (Integer.neg .debug x) (Integer.neg .release x) ∧
    Sim Overflow (Integer.abs .debug x) (Integer.abs .release x) ∧
    Sim Overflow (Integer.pow .debug x y) (Integer.pow .release x y) ∧
    Sim Overflow (Integer.gcd .debug x y) (Integer.gcd .release x y) ∧
    Sim Overflow (Integer.lcm .debug x y) (Integer.lcm .release x y) :=
  ⟨I64.norm_sim _, I64.norm_sim _, I64.norm_sim _, I64.norm_sim _,
    I64.norm_sim _, I64.norm_sim _, Integer.gcd_sim _ _, Integer.lcm_sim _ _⟩

/-- C188 for `Rational`. -/
theorem C188_rational (x y : Rational) (n d : Int) (l : List (Res Rational)) :
    Sim Overflow (new .debug n d) (new .release n d) ∧
    Sim Overflow (add .debug x y) (add .release x y) ∧
    Sim Overflow (sub .debug x y) (sub .release x y) ∧
    Sim Overflow (mul .debug x y) (mul .release x y) ∧
    Sim Overflow (div .debug x y) (div .release x y) ∧
    Sim Overflow (neg .debug x) (neg .release x) ∧
    Sim Overflow (recip .debug x) (recip .release x) ∧
    Sim Overflow (pow .debug x n) (pow .release x n) ∧
    Sim Overflow (sum .debug l) (sum .release l) ∧
    Sim Overflow (product .debug l) (product .release l) ∧
    Sim Overflow (cmp .debug x y) (cmp .release x y) ∧
    Sim Overflow (stabilityCmp .debug x y) (stabilityCmp .release x y) :=
  have hl : List.Forall₂ (Sim Overflow) l l := List.forall₂_same.mpr fun _ _ => Sim.refl _
  ⟨new_sim _ _, add_sim _ _, sub_sim _ _, mul_sim _ _, div_sim _ _,
    neg_sim _, recip_sim _, pow_sim _ _, reduceM_sim' add_sim _ hl,
    reduceM_sim' mul_sim _ hl, cmp_sim _ _, stabilityCmp_sim _ _⟩

end

theorem releaseOps_sim : OpsSim Overflow (Rational.field .debug) releaseOps where
  build := .inr ⟨rfl, .inr (.inl rfl), .inr (.inr rfl)⟩
  add := Rational.add_sim
  sub := Rational.sub_sim
  neg := Rational.neg_sim
  mul := Rational.mul_sim
  div := Rational.div_sim
  inv := Rational.recip_sim
  powi32 := Rational.pow_sim
  sum _ _ h := reduceM_sim' Rational.add_sim _ h

theorem partialCmp_sim (x y : Rational) :
    Sim Overflow ((Rational.fieldOrd .debug).partialCmp x y)
      ((Rational.fieldOrd .release).partialCmp x y) :=
  (Rational.cmp_sim x y).map _

/-- C188 for the arithmetic of polynomials. -/
theorem C188_poly (s t : Term Rational) (p q : Poly Rational) (c : Rational) (x : List Rational) :
    letI D := Rational.field .debug
    letI R := Rational.field .release
    Sim Overflow (@Term.eval _ D t x) (@Term.eval _ R t x) ∧
    Sim Overflow (@Term.tryDiv _ D s t) (@Term.tryDiv _ R s t) ∧
    Sim Overflow (@Term.neg _ D t) (@Term.neg _ R t) ∧
    Sim Overflow (@Term.mul _ D s t) (@Term.mul _ R s t) ∧
    Sim Overflow (@Poly.termAddTerm _ D s t) (@Poly.termAddTerm _ R s t) ∧
    Sim Overflow (@Poly.termSubTerm _ D s t) (@Poly.termSubTerm _ R s t) ∧
    Sim Overflow (@Poly.termSub _ D s q) (@Poly.termSub _ R s q) ∧
    Sim Overflow (@Poly.eval _ D p x) (@Poly.eval _ R p x) ∧
    Sim Overflow (@Poly.addTerm _ D p t) (@Poly.addTerm _ R p t) ∧
    Sim Overflow (@Poly.subTerm _ D p t) (@Poly.subTerm _ R p t) ∧
    Sim Overflow (@Poly.mulTerm _ D p t) (@Poly.mulTerm _ R p t) ∧
    Sim Overflow (@Poly.mulCoef _ D p c) (@Poly.mulCoef _ R p c) ∧
    Sim Overflow (@Poly.divCoef _ D p c) (@Poly.divCoef _ R p c) ∧
    Sim Overflow (@Poly.neg _ D p) (@Poly.neg _ R p) ∧
    Sim Overflow (@Poly.add _ D p q) (@Poly.add _ R p q) ∧
    Sim Overflow (@Poly.sub _ D p q) (@Poly.sub _ R p q) ∧
    Sim Overflow (@Poly.mul _ D p q) (@Poly.mul _ R p q) :=
  have h := releaseOps_sim
  ⟨Term.eval_sim h _ _, Term.tryDiv_sim h _ _, Term.neg_sim h _, Term.mul_sim h _ _,
    Poly.termAddTerm_sim h _ _, Poly.termSubTerm_sim h _ _, Poly.termSub_sim h _ _,
    Poly.eval_sim h _ _, Poly.addTerm_sim h _ _, Poly.subTerm_sim h _ _,
    Poly.mulTerm_sim h _ _, Poly.mulCoef_sim h _ _, Poly.divCoef_sim h _ _,
    Poly.neg_sim h _, Poly.add_sim h _ _, Poly.sub_sim h _ _, Poly.mul_sim h _ _⟩

/-- C188 for division and Gröbner bases, with any of the four monomial orders. -/
theorem C188_computer (k : OrdKind) (f g : Poly Rational)
    (gens : List (Poly Rational)) :
    letI D := Rational.field .debug
    letI R := Rational.field .release
    Sim Overflow (Computer.leadingTerm (k.order .debug) f) (Computer.leadingTerm (k.order .release) f) ∧
    Sim Overflow (Computer.sortTerms (k.order .debug) f) (Computer.sortTerms (k.order .release) f) ∧
    Sim Overflow (@Computer.divide _ D (k.order .debug) f gens) (@Computer.divide _ R (k.order .release) f gens) ∧
    Sim Overflow (@Computer.tryReduce _ D (k.order .debug) f g) (@Computer.tryReduce _ R (k.order .release) f g) ∧
    Sim Overflow (@Computer.buchbergerCriterion _ D (k.order .debug) gens)
      (@Computer.buchbergerCriterion _ R (k.order .release) gens) ∧
    Sim Overflow (@Computer.buchbergerExtend _ D (k.order .debug) gens)
      (@Computer.buchbergerExtend _ R (k.order .release) gens) ∧
    Sim Overflow (@Computer.buchbergerMinimize _ D (k.order .debug) gens)
      (@Computer.buchbergerMinimize _ R (k.order .release) gens) ∧
    Sim Overflow (@Computer.buchbergerReduce _ D (k.order .debug) gens)
      (@Computer.buchbergerReduce _ R (k.order .release) gens) ∧
    Sim Overflow (@Computer.buchbergerAlgorithm _ D (k.order .debug) gens)
      (@Computer.buchbergerAlgorithm _ R (k.order .release) gens) :=
  have h := releaseOps_sim
  have hO := OrdKind.sim (E := Overflow) h.build k
  ⟨Computer.leadingTerm_sim hO _, Computer.sort_sim hO _, Computer.divide_sim h hO _ _,
    Computer.tryReduce_sim h hO _ _, Computer.buchbergerCriterion_sim h hO _,
    Computer.buchbergerExtend_sim h hO _, Computer.buchbergerMinimize_sim h hO _,
    Computer.buchbergerReduce_sim h hO _, Computer.buchbergerAlgorithm_sim h hO _⟩

/-- C188 for matrices. -/
theorem C188_mat (M N : Mat Rational) (vs : List (Mat Rational)) (c : Rational) (i j : Nat)
    (values : List Rational) :
    letI D := Rational.field .debug
    letI R := Rational.field .release
    Sim Overflow (@Mat.get _ D M i j) (@Mat.get _ R M i j) ∧
    Sim Overflow (@Mat.set _ D M i j c) (@Mat.set _ R M i j c) ∧
    Sim Overflow (@Mat.transpose _ D M) (@Mat.transpose _ R M) ∧
    Sim Overflow (@Mat.scaleRow _ D M i c) (@Mat.scaleRow _ R M i c) ∧
    Sim Overflow (@Mat.permuteRows _ D M i j) (@Mat.permuteRows _ R M i j) ∧
    Sim Overflow (@Mat.replaceRow _ D M i j c) (@Mat.replaceRow _ R M i j c) ∧
    Sim Overflow (@Mat.scale _ D M c) (@Mat.scale _ R M c) ∧
    Sim Overflow (@Mat.getRow _ D M i) (@Mat.getRow _ R M i) ∧
    Sim Overflow (@Mat.getCol _ D M i) (@Mat.getCol _ R M i) ∧
    Sim Overflow (@Mat.dot _ D M N) (@Mat.dot _ R M N) ∧
    Sim Overflow (@Mat.frobeniusNorm _ D M) (@Mat.frobeniusNorm _ R M) ∧
    Sim Overflow (@Mat.isUpperTriangular _ D M) (@Mat.isUpperTriangular _ R M) ∧
    Sim Overflow (@Mat.isLowerTriangular _ D M) (@Mat.isLowerTriangular _ R M) ∧
    Sim Overflow (@Mat.fromColVectors _ D vs) (@Mat.fromColVectors _ R vs) ∧
    Sim Overflow (@Mat.fromRowVectors _ D vs) (@Mat.fromRowVectors _ R vs) ∧
    Sim Overflow (@Mat.add _ D M N) (@Mat.add _ R M N) ∧
    Sim Overflow (@Mat.smul _ D M c) (@Mat.smul _ R M c) ∧
    Sim Overflow (@Mat.mul _ D M N) (@Mat.mul _ R M N) ∧
    Sim Overflow (@Mat.epsilonEquals _ D _ M N) (@Mat.epsilonEquals _ R _ M N) ∧
    Sim Overflow (@matIterator _ D i j values) (@matIterator _ R i j values) :=
  have h := releaseOps_sim
  ⟨Mat.get_sim h _ _ _, Mat.set_sim h _ _ _ _, Mat.transpose_sim h _,
    Mat.scaleRow_sim h _ _ _, Mat.permuteRows_sim h _ _ _, Mat.replaceRow_sim h _ _ _ _,
    Mat.scale_sim h _ _, Mat.getRow_sim h _ _, Mat.getCol_sim h _ _,
    Mat.dot_sim h _ _, Mat.frobeniusNorm_sim h _, Mat.isUpperTriangular_sim h _,
    Mat.isLowerTriangular_sim h _, Mat.fromColVectors_sim h _, Mat.fromRowVectors_sim h _,
    Mat.add_sim h _ _, Mat.smul_sim h _ _, Mat.mul_sim h _ _,
    Mat.epsilonEquals_sim h (fun _ _ => Sim.refl _) _ _, matIterator_sim h _ _ _⟩

/-- C188 for elimination. -/
theorem C188_elimination (M : Mat Rational) (f : Form Rational) (order : List Nat → List Nat) :
    letI D := Rational.field .debug
    letI R := Rational.field .release
    letI SD := Rational.stability .debug
    letI SR := Rational.stability .release
    Sim Overflow (@Mat.lu _ D _ SD M) (@Mat.lu _ R _ SR M) ∧
    Sim Overflow (@Mat.rowEchelon _ D _ SD M) (@Mat.rowEchelon _ R _ SR M) ∧
    Sim Overflow (@Form.toRref _ D _ f) (@Form.toRref _ R _ f) ∧
    Sim Overflow (@Form.rank _ D _ f) (@Form.rank _ R _ f) ∧
    Sim Overflow (@Form.nullity _ D _ f) (@Form.nullity _ R _ f) ∧
    Sim Overflow (@Form.computeKernel _ D _ f) (@Form.computeKernel _ R _ f) ∧
    Sim Overflow (@Form.computeRange _ D _ order f) (@Form.computeRange _ R _ order f) :=
  have h := releaseOps_sim
  have he := fun _ _ => Sim.refl _
  have hs := Rational.stabilityCmp_sim
  ⟨Mat.lu_sim h he hs _, Mat.rowEchelon_sim h he hs _, Form.toRref_sim h he _,
    Form.rank_sim h he _, Form.nullity_sim h he _, Form.computeKernel_sim h he _,
    Form.computeRange_sim h he _ _⟩

/-- C188 for cones. -/
theorem C188_cone (gens : List (Mat Rational)) :
    Sim Overflow
      (@Cone.new _ (Rational.field .debug) _ (Rational.stability .debug) (Rational.fieldOrd .debug)
        gens)
      (@Cone.new _ (Rational.field .release) _ (Rational.stability .release)
        (Rational.fieldOrd .release) gens) :=
  Cone.new_sim releaseOps_sim (fun _ _ => Sim.refl _) Rational.stabilityCmp_sim
    partialCmp_sim _

/-- C188 for the display of polynomials. -/
theorem C188_display (p : Poly Rational) :
    Sim Overflow (Display.poly .debug p) (Display.poly .release p) := by
  have hterm : ∀ t, Sim Overflow (@Display.term _ (Rational.field .debug) Display.rational t)
      (@Display.term _ (Rational.field .release) Display.rational t) := by
    intro t
    unfold Display.term
    refine Sim.ite' rfl (Sim.refl _) (Sim.ite' rfl (Sim.refl _) ?_)
    exact (Rational.neg_sim _).bind fun _ => Sim.refl _
  have hnext : ∀ t, Sim Overflow (Display.nextTerm .debug t) (Display.nextTerm .release t) := by
    intro t
    unfold Display.nextTerm
    refine Sim.ite' rfl ?_ ?_
    · exact (Rational.neg_sim _).bind fun _ => (hterm _).bind fun _ => Sim.refl _
    · exact (hterm _).bind fun _ => Sim.refl _
  cases p with
  | nil => exact Sim.refl _
  | cons t ts =>
    exact (hterm _).bind fun _ =>
      Sim.foldlM (fun _ _ => (hnext _).bind fun _ => Sim.refl _) _ _


/-- All three cases occur.  Reading outside a matrix ends with the same panic in both builds. -/
example :
    @Mat.get _ (Rational.field .debug) ⟨[⟨1, 1⟩], 1, 1⟩ 1 0 = .panic .indexOutOfBounds ∧
    @Mat.get _ (Rational.field .release) ⟨[⟨1, 1⟩], 1, 1⟩ 1 0 = .panic .indexOutOfBounds := by decide

/-- Squaring `x^128` stops at an overflow with checks, and returns a value without. -/
example :
    @Poly.mul _ (Rational.field .debug) [⟨⟨1, 1⟩, [128]⟩] [⟨⟨1, 1⟩, [128]⟩] = .panic .overflowU8 ∧
    @Poly.mul _ (Rational.field .release) [⟨⟨1, 1⟩, [128]⟩] [⟨⟨1, 1⟩, [128]⟩] =
      .ok [⟨⟨1, 1⟩, [0]⟩] := by decide

/-- And `(x + 1)(x - 1) = x² - 1` in both. -/
example (b : Build) :
    @Poly.mul _ (Rational.field b) [⟨⟨1, 1⟩, [1]⟩, ⟨⟨1, 1⟩, []⟩] [⟨⟨1, 1⟩, [1]⟩, ⟨⟨-1, 1⟩, []⟩] =
      .ok [⟨⟨1, 1⟩, [2]⟩, ⟨⟨-1, 1⟩, []⟩] := by cases b <;> decide

end Verif
