import Verif.Proofs.Refine

/-!
# C76: the build profiles agree on polynomials, matrices, cones and their display

`Refines x y` says: whatever value `x` returns, `y` returns.
-/

set_option linter.unusedSectionVars false

namespace Verif
open Res LinAlg

/-- The operations on `Rational` without overflow checks. -/
def releaseOps : Ops Rational where
  build := .release
  add := Rational.add .release
  sub := Rational.sub .release
  neg := Rational.neg .release
  mul := Rational.mul .release
  div := Rational.div .release
  inv := Rational.recip .release
  powi32 := Rational.powi .release
  sum := Rational.sum .release

theorem releaseOps_refine : OpsRefine (Rational.field .debug) releaseOps where
  build := rfl
  add := Rational.add_refines
  sub := Rational.sub_refines
  neg := Rational.neg_refines
  mul := Rational.mul_refines
  div := Rational.div_refines
  inv := Rational.recip_refines
  powi32 := Rational.pow_refines
  sum _ _ h := reduceM_refines Rational.add_refines _ h

theorem release_eq : (Rational.field .debug).withOps releaseOps = Rational.field .release := rfl

theorem partialCmp_refines (x y : Rational) :
    Refines ((Rational.fieldOrd .debug).partialCmp x y)
      ((Rational.fieldOrd .release).partialCmp x y) :=
  (Rational.cmp_refines x y).map _

/-- C76 for the arithmetic of polynomials. -/
theorem C76_poly (s t : Term Rational) (p q : Poly Rational) (c : Rational) (x : List Rational) :
    letI D := Rational.field .debug
    letI R := Rational.field .release
    Refines (@Term.eval _ D t x) (@Term.eval _ R t x) ∧
    Refines (@Term.tryDiv _ D s t) (@Term.tryDiv _ R s t) ∧
    Refines (@Term.neg _ D t) (@Term.neg _ R t) ∧
    Refines (@Term.mul _ D s t) (@Term.mul _ R s t) ∧
    Refines (@Poly.termAddTerm _ D s t) (@Poly.termAddTerm _ R s t) ∧
    Refines (@Poly.termSubTerm _ D s t) (@Poly.termSubTerm _ R s t) ∧
    Refines (@Poly.termSub _ D s q) (@Poly.termSub _ R s q) ∧
    Refines (@Poly.eval _ D p x) (@Poly.eval _ R p x) ∧
    Refines (@Poly.addTerm _ D p t) (@Poly.addTerm _ R p t) ∧
    Refines (@Poly.subTerm _ D p t) (@Poly.subTerm _ R p t) ∧
    Refines (@Poly.mulTerm _ D p t) (@Poly.mulTerm _ R p t) ∧
    Refines (@Poly.mulCoef _ D p c) (@Poly.mulCoef _ R p c) ∧
    Refines (@Poly.divCoef _ D p c) (@Poly.divCoef _ R p c) ∧
    Refines (@Poly.neg _ D p) (@Poly.neg _ R p) ∧
    Refines (@Poly.add _ D p q) (@Poly.add _ R p q) ∧
    Refines (@Poly.sub _ D p q) (@Poly.sub _ R p q) ∧
    Refines (@Poly.mul _ D p q) (@Poly.mul _ R p q) :=
  have h := releaseOps_refine
  ⟨Term.eval_refines h _ _, Term.tryDiv_refines h _ _, Term.neg_refines h _, Term.mul_refines h _ _,
    Poly.termAddTerm_refines h _ _, Poly.termSubTerm_refines h _ _, Poly.termSub_refines h _ _,
    Poly.eval_refines h _ _, Poly.addTerm_refines h _ _, Poly.subTerm_refines h _ _,
    Poly.mulTerm_refines h _ _, Poly.mulCoef_refines h _ _, Poly.divCoef_refines h _ _,
    Poly.neg_refines h _, Poly.add_refines h _ _, Poly.sub_refines h _ _, Poly.mul_refines h _ _⟩

/-- The monomial orders of ord.rs, in each build. -/
def orders : List (Build → MOrder) :=
  [fun _ => MOrder.lex, fun _ => MOrder.revLex, MOrder.grLex, MOrder.gRevLex]

theorem orders_refine {O : Build → MOrder} (hO : O ∈ orders) :
    OrdRefines (O .debug) (O .release) := by
  simp only [orders, List.mem_cons, List.not_mem_nil, or_false] at hO
  rcases hO with rfl | rfl | rfl | rfl
  · exact OrdRefines.refl _
  · exact OrdRefines.refl _
  · exact MOrder.grLex_refines _
  · exact MOrder.gRevLex_refines _

/-- C76 for division and Gröbner bases, with any of the four monomial orders. -/
theorem C76_computer {O : Build → MOrder} (hO : O ∈ orders) (f g : Poly Rational)
    (gens : List (Poly Rational)) :
    letI D := Rational.field .debug
    letI R := Rational.field .release
    Refines (Computer.leadingTerm (O .debug) f) (Computer.leadingTerm (O .release) f) ∧
    Refines (Computer.sortTerms (O .debug) f) (Computer.sortTerms (O .release) f) ∧
    Refines (@Computer.divide _ D (O .debug) f gens) (@Computer.divide _ R (O .release) f gens) ∧
    Refines (@Computer.tryReduce _ D (O .debug) f g) (@Computer.tryReduce _ R (O .release) f g) ∧
    Refines (@Computer.buchbergerCriterion _ D (O .debug) gens)
      (@Computer.buchbergerCriterion _ R (O .release) gens) ∧
    Refines (@Computer.buchbergerExtend _ D (O .debug) gens)
      (@Computer.buchbergerExtend _ R (O .release) gens) ∧
    Refines (@Computer.buchbergerMinimize _ D (O .debug) gens)
      (@Computer.buchbergerMinimize _ R (O .release) gens) ∧
    Refines (@Computer.buchbergerReduce _ D (O .debug) gens)
      (@Computer.buchbergerReduce _ R (O .release) gens) ∧
    Refines (@Computer.buchbergerAlgorithm _ D (O .debug) gens)
      (@Computer.buchbergerAlgorithm _ R (O .release) gens) :=
  have h := releaseOps_refine
  have hO := orders_refine hO
  ⟨Computer.leadingTerm_refines hO _, Computer.sort_refines hO _, Computer.divide_refines h hO _ _,
    Computer.tryReduce_refines h hO _ _, Computer.buchbergerCriterion_refines h hO _,
    Computer.buchbergerExtend_refines h hO _, Computer.buchbergerMinimize_refines h hO _,
    Computer.buchbergerReduce_refines h hO _, Computer.buchbergerAlgorithm_refines h hO _⟩

/-- C76 for matrices. -/
theorem C76_mat (M N : Mat Rational) (vs : List (Mat Rational)) (c : Rational) (i j : Nat)
    (values : List Rational) :
    letI D := Rational.field .debug
    letI R := Rational.field .release
    Refines (@Mat.get _ D M i j) (@Mat.get _ R M i j) ∧
    Refines (@Mat.set _ D M i j c) (@Mat.set _ R M i j c) ∧
    Refines (@Mat.transpose _ D M) (@Mat.transpose _ R M) ∧
    Refines (@Mat.scaleRow _ D M i c) (@Mat.scaleRow _ R M i c) ∧
    Refines (@Mat.permuteRows _ D M i j) (@Mat.permuteRows _ R M i j) ∧
    Refines (@Mat.replaceRow _ D M i j c) (@Mat.replaceRow _ R M i j c) ∧
    Refines (@Mat.scale _ D M c) (@Mat.scale _ R M c) ∧
    Refines (@Mat.getRow _ D M i) (@Mat.getRow _ R M i) ∧
    Refines (@Mat.getCol _ D M i) (@Mat.getCol _ R M i) ∧
    Refines (@Mat.dot _ D M N) (@Mat.dot _ R M N) ∧
    Refines (@Mat.frobeniusNorm _ D M) (@Mat.frobeniusNorm _ R M) ∧
    Refines (@Mat.isUpperTriangular _ D M) (@Mat.isUpperTriangular _ R M) ∧
    Refines (@Mat.isLowerTriangular _ D M) (@Mat.isLowerTriangular _ R M) ∧
    Refines (@Mat.fromColVectors _ D vs) (@Mat.fromColVectors _ R vs) ∧
    Refines (@Mat.fromRowVectors _ D vs) (@Mat.fromRowVectors _ R vs) ∧
    Refines (@Mat.add _ D M N) (@Mat.add _ R M N) ∧
    Refines (@Mat.smul _ D M c) (@Mat.smul _ R M c) ∧
    Refines (@Mat.mul _ D M N) (@Mat.mul _ R M N) ∧
    Refines (@Mat.epsilonEquals _ D _ M N) (@Mat.epsilonEquals _ R _ M N) ∧
    Refines (@matIterator _ D i j values) (@matIterator _ R i j values) :=
  have h := releaseOps_refine
  ⟨Mat.get_refines h _ _ _, Mat.set_refines h _ _ _ _, Mat.transpose_refines h _,
    Mat.scaleRow_refines h _ _ _, Mat.permuteRows_refines h _ _ _, Mat.replaceRow_refines h _ _ _ _,
    Mat.scale_refines h _ _, Mat.getRow_refines h _ _, Mat.getCol_refines h _ _,
    Mat.dot_refines h _ _, Mat.frobeniusNorm_refines h _, Mat.isUpperTriangular_refines h _,
    Mat.isLowerTriangular_refines h _, Mat.fromColVectors_refines h _, Mat.fromRowVectors_refines h _,
    Mat.add_refines h _ _, Mat.smul_refines h _ _, Mat.mul_refines h _ _,
    Mat.epsilonEquals_refines h (fun _ _ => Refines.refl _) _ _, matIterator_refines h _ _ _⟩

/-- C76 for elimination. -/
theorem C76_elimination (M : Mat Rational) (f : Form Rational) (order : List Nat → List Nat) :
    letI D := Rational.field .debug
    letI R := Rational.field .release
    letI SD := Rational.stability .debug
    letI SR := Rational.stability .release
    Refines (@Mat.lu _ D _ SD M) (@Mat.lu _ R _ SR M) ∧
    Refines (@Mat.rowEchelon _ D _ SD M) (@Mat.rowEchelon _ R _ SR M) ∧
    Refines (@Form.toRref _ D _ f) (@Form.toRref _ R _ f) ∧
    Refines (@Form.rank _ D _ f) (@Form.rank _ R _ f) ∧
    Refines (@Form.nullity _ D _ f) (@Form.nullity _ R _ f) ∧
    Refines (@Form.computeKernel _ D _ f) (@Form.computeKernel _ R _ f) ∧
    Refines (@Form.computeRange _ D _ order f) (@Form.computeRange _ R _ order f) :=
  have h := releaseOps_refine
  have he := fun _ _ => Refines.refl _
  have hs := Rational.stabilityCmp_refines
  ⟨Mat.lu_refines h he hs _, Mat.rowEchelon_refines h he hs _, Form.toRref_refines h he _,
    Form.rank_refines h he _, Form.nullity_refines h he _, Form.computeKernel_refines h he _,
    Form.computeRange_refines h he _ _⟩

/-- C76 for cones. -/
theorem C76_cone (gens : List (Mat Rational)) :
    Refines
      (@Cone.new _ (Rational.field .debug) _ (Rational.stability .debug) (Rational.fieldOrd .debug)
        gens)
      (@Cone.new _ (Rational.field .release) _ (Rational.stability .release)
        (Rational.fieldOrd .release) gens) :=
  Cone.new_refines releaseOps_refine (fun _ _ => Refines.refl _) Rational.stabilityCmp_refines
    partialCmp_refines _

/-- C76 for the display of polynomials. -/
theorem C76_display (p : Poly Rational) :
    Refines (Display.poly .debug p) (Display.poly .release p) := by
  have hterm : ∀ t, Refines (@Display.term _ (Rational.field .debug) Display.rational t)
      (@Display.term _ (Rational.field .release) Display.rational t) := by
    intro t
    unfold Display.term
    refine Refines.ite' rfl (Refines.refl _) (Refines.ite' rfl (Refines.refl _) ?_)
    exact (Rational.neg_refines _).bind fun _ => Refines.refl _
  have hnext : ∀ t, Refines (Display.nextTerm .debug t) (Display.nextTerm .release t) := by
    intro t
    unfold Display.nextTerm
    refine Refines.ite' rfl ?_ ?_
    · exact (Rational.neg_refines _).bind fun _ => (hterm _).bind fun _ => Refines.refl _
    · exact (hterm _).bind fun _ => Refines.refl _
  cases p with
  | nil => exact Refines.refl _
  | cons t ts =>
    exact (hterm _).bind fun _ =>
      Refines.foldlM (fun _ _ => (hnext _).bind fun _ => Refines.refl _) _ _

/-- The two sides can differ, so the statement is not empty: squaring `x^128` is caught with checks
and gives the constant `1` without. -/
example :
    @Poly.mul _ (Rational.field .debug) [⟨⟨1, 1⟩, [128]⟩] [⟨⟨1, 1⟩, [128]⟩] = .panic .overflowU8 ∧
    @Poly.mul _ (Rational.field .release) [⟨⟨1, 1⟩, [128]⟩] [⟨⟨1, 1⟩, [128]⟩] =
      .ok [⟨⟨1, 1⟩, [0]⟩] := by decide

/-- And the left-hand side does return values: `(x + 1)(x - 1) = x² - 1`. -/
example :
    @Poly.mul _ (Rational.field .debug) [⟨⟨1, 1⟩, [1]⟩, ⟨⟨1, 1⟩, []⟩] [⟨⟨1, 1⟩, [1]⟩, ⟨⟨-1, 1⟩, []⟩] =
      .ok [⟨⟨1, 1⟩, [2]⟩, ⟨⟨-1, 1⟩, []⟩] := by decide

end Verif
