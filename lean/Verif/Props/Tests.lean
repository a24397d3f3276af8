import Verif.Proofs.Run
import Verif.LinAlg.Algorithm
import Verif.LinAlg.Display
import Verif.LinAlg.MatIter
import Verif.Num.F64
import Verif.Poly.Display

/-!
# The crate's own unit tests, run on the model

Not properties: checks that the model behaves as the authors of the crate observed their code to
behave.  Every assertion of the crate's tests on literal values is here; of the tests that
enumerate a large family, single cases are here.  Tests that only print are recorded with the
result the model computes.  Both build profiles where it makes a difference.
-/

namespace Verif.Tests
open Verif LinAlg MOrder

set_option exponentiation.threshold 3000

instance {p : Build → Prop} [DecidablePred p] : Decidable (∀ b, p b) :=
  decidable_of_iff (p .debug ∧ p .release) ⟨fun h b => by cases b; exacts [h.1, h.2],
    fun h => ⟨h _, h _⟩⟩

/-! ## `core/num/int.rs:133-142` -/

example : ∀ b, Integer.gcd b (-10) (-15) = .ok 5 ∧ Integer.gcd b (-5) (-10) = .ok 5 ∧
    Integer.gcd b (-0) (-1) = .ok 1 ∧ Integer.gcd b (-5) (-6) = .ok 1 ∧
    Integer.gcd b (-80) (-20) = .ok 20 := by decide +kernel

/-! ## `core/num/rat.rs:187-240` -/

/-- `new_i64(a, b)` `op` `new_i64(c, d)` -/
def ratOp (b : Build) (op : Rational → Rational → Res Rational) (x y : Int × Int) : Res Rational := do
  let x ← Rational.newI64 b x.1 x.2
  let y ← Rational.newI64 b y.1 y.2
  op x y

example : ∀ b, Rational.newI64 b 0 1 = .ok ⟨0, 1⟩ ∧ Rational.newI64 b 1 1 = .ok ⟨1, 1⟩ ∧
    Rational.newI64 b 2 2 = .ok ⟨1, 1⟩ ∧
    ratOp b (Rational.add b) (1, 2) (1, 3) = .ok ⟨5, 6⟩ ∧
    ratOp b (Rational.sub b) (1, 2) (1, 3) = .ok ⟨1, 6⟩ ∧
    ratOp b (Rational.mul b) (1, 2) (1, 3) = .ok ⟨1, 6⟩ ∧
    ratOp b (Rational.div b) (1, 2) (1, 3) = .ok ⟨3, 2⟩ := by decide +kernel

/-! ## `poly/ord.rs:175-262` -/

example : ∀ b, grad b (.fromVec [0, 0, 0]) (.fromVec [0, 0, 0]) = .ok .eq ∧
    grad b (.fromVec [1, 0, 0]) (.fromVec [1, 0, 0]) = .ok .eq ∧
    grad b (.fromVec [1, 2, 3]) (.fromVec [1, 2, 3]) = .ok .eq ∧
    grad b (.fromVec [0, 0, 1]) (.fromVec [0, 0, 1]) = .ok .eq ∧
    grad b (.fromVec [1, 0, 0]) (.fromVec [0, 1, 0]) = .ok .eq ∧
    grad b (.fromVec [2, 2, 0]) (.fromVec [1, 1, 5]) = .ok .lt ∧
    grad b (.fromVec [1, 0, 0]) (.fromVec [0, 1, 1]) = .ok .lt ∧
    grad b (.fromVec [2, 2, 0]) (.fromVec [0, 0, 1]) = .ok .gt ∧
    grad b (.fromVec [0, 0, 2]) (.fromVec [1, 0, 0]) = .ok .gt ∧
    grad b (.fromVec [0, 3, 0]) (.fromVec [1, 0, 1]) = .ok .gt := by decide +kernel

example : lex.cmp (.fromVec [0, 0, 0]) (.fromVec [0, 0, 0]) = .ok .eq ∧
    lex.cmp (.fromVec [1, 0, 0]) (.fromVec [1, 0, 0]) = .ok .eq ∧
    lex.cmp (.fromVec [1, 2, 3]) (.fromVec [1, 2, 3]) = .ok .eq ∧
    lex.cmp (.fromVec [0, 0, 1]) (.fromVec [0, 0, 1]) = .ok .eq ∧
    lex.cmp (.fromVec [0, 1, 0]) (.fromVec [1, 0, 1]) = .ok .lt ∧
    lex.cmp (.fromVec [0, 0, 1]) (.fromVec [1, 0, 0]) = .ok .lt ∧
    lex.cmp (.fromVec [1, 0, 0]) (.fromVec [0, 1, 0]) = .ok .gt ∧
    lex.cmp (.fromVec [2, 2, 0]) (.fromVec [0, 0, 1]) = .ok .gt := by decide +kernel

example : revLex.cmp (.fromVec [0, 0, 0]) (.fromVec [0, 0, 0]) = .ok .eq ∧
    revLex.cmp (.fromVec [1, 0, 0]) (.fromVec [1, 0, 0]) = .ok .eq ∧
    revLex.cmp (.fromVec [1, 2, 3]) (.fromVec [1, 2, 3]) = .ok .eq ∧
    revLex.cmp (.fromVec [0, 0, 1]) (.fromVec [0, 0, 1]) = .ok .eq ∧
    revLex.cmp (.fromVec [1, 0, 0]) (.fromVec [0, 1, 0]) = .ok .lt ∧
    revLex.cmp (.fromVec [0, 1, 0]) (.fromVec [1, 0, 1]) = .ok .lt ∧
    revLex.cmp (.fromVec [2, 2, 0]) (.fromVec [0, 0, 1]) = .ok .lt ∧
    revLex.cmp (.fromVec [0, 0, 1]) (.fromVec [1, 0, 0]) = .ok .gt := by decide +kernel

example : ∀ b, (grLex b).cmp (.fromVec [0, 0, 0]) (.fromVec [0, 0, 0]) = .ok .eq ∧
    (grLex b).cmp (.fromVec [1, 0, 0]) (.fromVec [1, 0, 0]) = .ok .eq ∧
    (grLex b).cmp (.fromVec [1, 2, 3]) (.fromVec [1, 2, 3]) = .ok .eq ∧
    (grLex b).cmp (.fromVec [0, 0, 1]) (.fromVec [0, 0, 1]) = .ok .eq ∧
    (grLex b).cmp (.fromVec [2, 2, 0]) (.fromVec [1, 1, 5]) = .ok .lt ∧
    (grLex b).cmp (.fromVec [0, 1, 1]) (.fromVec [1, 1, 0]) = .ok .lt ∧
    (grLex b).cmp (.fromVec [0, 3, 0]) (.fromVec [1, 0, 2]) = .ok .lt ∧
    (grLex b).cmp (.fromVec [1, 0, 0]) (.fromVec [0, 1, 0]) = .ok .gt ∧
    (grLex b).cmp (.fromVec [2, 2, 0]) (.fromVec [0, 0, 1]) = .ok .gt ∧
    (grLex b).cmp (.fromVec [0, 0, 2]) (.fromVec [1, 0, 0]) = .ok .gt ∧
    (grLex b).cmp (.fromVec [3, 0, 0]) (.fromVec [1, 0, 2]) = .ok .gt := by decide +kernel

example : ∀ b, (gRevLex b).cmp (.fromVec [0, 0, 0]) (.fromVec [0, 0, 0]) = .ok .eq ∧
    (gRevLex b).cmp (.fromVec [1, 0, 0]) (.fromVec [1, 0, 0]) = .ok .eq ∧
    (gRevLex b).cmp (.fromVec [1, 2, 3]) (.fromVec [1, 2, 3]) = .ok .eq ∧
    (gRevLex b).cmp (.fromVec [0, 0, 1]) (.fromVec [0, 0, 1]) = .ok .eq ∧
    (gRevLex b).cmp (.fromVec [2, 2, 0]) (.fromVec [1, 1, 5]) = .ok .lt ∧
    (gRevLex b).cmp (.fromVec [1, 0, 0]) (.fromVec [0, 1, 1]) = .ok .lt ∧
    (gRevLex b).cmp (.fromVec [2, 2, 0]) (.fromVec [0, 0, 1]) = .ok .gt ∧
    (gRevLex b).cmp (.fromVec [0, 0, 2]) (.fromVec [1, 0, 0]) = .ok .gt ∧
    (gRevLex b).cmp (.fromVec [0, 3, 0]) (.fromVec [1, 0, 1]) = .ok .gt ∧
    (gRevLex b).cmp (.fromVec [1, 0, 0]) (.fromVec [0, 1, 0]) = .ok .gt := by decide +kernel

/-! ## `linalg/mat.rs:426-565`

The tests use `f64`; `q i` is the number `i`. -/

attribute [local instance] Fmt.f64

@[reducible] def f (b : Build) : RField Flt := Flt.field b fun x _ => x

/-- A whole number as an `f64`. -/
def q (i : Int) : Flt := Flt.round (decide (i < 0)) (i.natAbs * Flt.unit) 1

/-- `mat![…]`, mat.rs:422-424. -/
def matOf (rows : List (List Int)) : Mat Flt :=
  Mat.new rows.length (rows.headD []).length (rows.flatten.map q)

/-- `==` on `Mat<f64>`, mat.rs:9. -/
def same (x : Res (Mat Flt)) (M : Mat Flt) : Bool :=
  match x with
  | .ok N => N.rows == M.rows && N.cols == M.cols && N.entries.length == M.entries.length &&
      (N.entries.zip M.entries).all fun (x, y) => Flt.eq x y
  | _ => false

def mat1 := matOf [[0, 1, 2, 3], [4, 5, 6, 7], [8, 9, 10, 11]]
def mat2 := matOf [[1, -1, -2, -3], [-4, -5, -6, -7], [-8, -9, -10, -11]]
def mat3 := matOf [[1, 0, 0, 0], [0, 0, 0, 0], [0, 0, 0, 0]]
def mat4 := matOf [[1, 0, 0], [0, 1, 0], [0, 0, 1]]
def mat5 := matOf [[4], [3], [2], [1]]
def mat6 := matOf [[10], [50], [90]]
def mat7 := matOf [[1], [5], [9]]

/-- `test_matrix_operations`, mat.rs:441-486. -/
example : ∀ b, letI := f b
    same (mat1.add mat2) mat3 ∧ same (mat4.mul mat1) mat1 ∧ same (mat4.mul mat2) mat2 ∧
    same (mat1.mul mat5) mat6 ∧ same (mat7.smul (q 10)) mat6 := by decide +kernel

/-- `test_matrix_constructions`, mat.rs:488-535. -/
example : ∀ b, letI := f b
    same (matOf [[1, 0, 0, 0], [0, 2, 0, 0], [0, 0, 3, 0]]).transpose
      (matOf [[1, 0, 0], [0, 2, 0], [0, 0, 3], [0, 0, 0]]) ∧
    same (matOf [[1, 0, 0], [0, 2, 0], [0, 0, 3], [0, 0, 0]]).transpose
      (matOf [[1, 0, 0, 0], [0, 2, 0, 0], [0, 0, 3, 0]]) ∧
    same (.ok (Mat.permutation 4 0 1))
      (matOf [[0, 1, 0, 0], [1, 0, 0, 0], [0, 0, 1, 0], [0, 0, 0, 1]]) ∧
    same (.ok (Mat.replacement 4 0 2 (q 2)))
      (matOf [[1, 0, 0, 0], [0, 1, 0, 0], [2, 0, 1, 0], [0, 0, 0, 1]]) := by decide +kernel

/-- `test_matrix_operations_fractions`, mat.rs:537-565. -/
example : ∀ b, letI := Rational.field b
    (Mat.new 2 2 [⟨1, 2⟩, ⟨1, 3⟩, ⟨1, 4⟩, ⟨1, 5⟩] : Mat Rational).mul
      (Mat.new 2 1 [⟨4, 1⟩, ⟨15, 1⟩]) = .ok (Mat.new 2 1 [⟨7, 1⟩, ⟨4, 1⟩]) := by decide +kernel

/-- `test_matrix_fmt_display`, mat.rs:426-439, with the text of an entry as the test expects it. -/
example : ∀ b, letI := f b
    Display.mat (fun x => match (List.range 12).find? (fun i => Flt.eq x (q (i : Nat))) with
      | some i => Display.nat i ++ ['.', '0']
      | none => []) mat1 =
    .ok ['\n', '[', '0', '.', '0', ',', ' ', '1', '.', '0', ',', ' ', '2', '.', '0', ',', ' ',
      '3', '.', '0', ']', '\n', '[', '4', '.', '0', ',', ' ', '5', '.', '0', ',', ' ', '6', '.',
      '0', ',', ' ', '7', '.', '0', ']', '\n', '[', '8', '.', '0', ',', ' ', '9', '.', '0', ',',
      ' ', '1', '0', '.', '0', ',', ' ', '1', '1', '.', '0', ']'] := by decide +kernel

/-! ## `linalg/algorithm.rs:327-460` -/

/-- algorithm.rs:380-388 `is_col_cleared`. -/
def isColCleared [RField Flt] (M : Mat Flt) (c pivotR : Nat) : Res Bool :=
  (List.range M.rows).allM fun r => do
    if r ≠ pivotR then
      let x ← M.get r c
      EpsilonEquality.epsilonEquals x (RField.zero : Flt)
    else pure true

/-- algorithm.rs:390-409 `is_rref`. -/
def isRref [RField Flt] (M : Mat Flt) : List Nat → Int → Res Bool
  | [], _ => pure true
  | r :: rs, prev => do
    match ← M.firstNonzero r with
    | some c => do
      if !(← isColCleared M c r) then pure false
      else if prev ≥ (c : Int) then pure false
      else isRref M rs c
    | none => isRref M rs M.cols

/-- The assertions of the four tests on one matrix. -/
def elimination [RField Flt] (M : Mat Flt) : Res Bool := do
  let lu ← M.lu
  let t ← lu.p.transpose
  let a ← t.mul lu.l
  let prod ← a.mul lu.u
  let b1 ← lu.l.isLowerTriangular
  let b2 ← lu.u.isUpperTriangular
  let b3 ← M.epsilonEquals prod
  let re ← M.rowEchelon
  let b4 ← lu.u.epsilonEquals re.b
  let prod ← re.p.mul M
  let b5 ← prod.epsilonEquals re.b
  let rr ← re.toRref
  let prod ← rr.p.mul M
  let b6 ← prod.epsilonEquals rr.b
  let b7 ← isRref rr.b (List.range rr.b.rows) (-1)
  let nullity ← re.nullity
  let kernel ← rr.computeKernel
  let b8 ← kernel.allM fun v => do
    let p ← M.mul v
    p.epsilonEquals (Mat.zero p.rows p.cols)
  let km ← Mat.fromRowVectors kernel
  let kre ← km.rowEchelon
  let rank ← kre.rank
  pure (b1 && b2 && b3 && b4 && b5 && b6 && b7 && b8 && rank == nullity)

/-- Some of the 531441 matrices of the tests. -/
example : ∀ b, letI := f b
    elimination (matOf [[0, 0, 0, 0], [0, 0, 0, 0], [0, 0, 0, 0]]) = .ok true ∧
    elimination (matOf [[2, 1, 0, 2], [1, 2, 1, 1], [2, 2, 1, 0]]) = .ok true ∧
    elimination (matOf [[0, 1, 2, 2], [0, 2, 1, 1], [2, 0, 0, 1]]) = .ok true ∧
    elimination (matOf [[1, 1, 2, 2], [2, 2, 1, 1], [1, 1, 0, 0]]) = .ok true := by decide +kernel

/-! ## `poly/comp.rs:333-426` -/

/-- `test_result_equality`, comp.rs:366-371, with the loop of `divide` cut off after 40 rounds. -/
def division [RField Flt] (p : Poly Flt) (divs : List (Poly Flt)) : Res Bool := do
  let (r, qs) ← Computer.divideN 40 lex p divs
  let prods ← (qs.zip divs).mapM fun (qi, gi) => Poly.mul qi gi
  let p2 ← prods.foldlM Poly.add r
  let s1 ← Computer.sortTerms lex p
  let s2 ← Computer.sortTerms lex p2
  pure (s1.length == s2.length && (s1.zip s2).all fun (s, t) => Term.eq s t)

/-- Some of the 746496 cases of `division`. -/
example : ∀ b, letI := f b
    division [⟨q 1, [3]⟩, ⟨q 1, [1, 2]⟩, ⟨q 1, [0, 1]⟩, ⟨q 1, []⟩]
      [[⟨q 2, [1]⟩, ⟨q 1, []⟩], [⟨q 2, [0, 1]⟩, ⟨q 2, []⟩]] = .ok true ∧
    division [⟨q 1, [3]⟩, ⟨q 1, [2, 1]⟩, ⟨q 1, [1, 2]⟩, ⟨q 1, [0, 3]⟩, ⟨q 1, [0, 1]⟩]
      [[⟨q 1, [1]⟩, ⟨q 2, [0, 1]⟩, ⟨q 1, []⟩], []] = .ok true ∧
    division [] [[⟨q 2, [1]⟩, ⟨q 1, []⟩], [⟨q 2, [0, 1]⟩, ⟨q 2, []⟩]] = .ok true := by
  decide +kernel

/-- The polynomials of `reduction`, comp.rs:380-381, put together by the crate's operators give the
expected terms. -/
example : ∀ b, letI := Rational.field b
    (do
      let c (i : Int) : Poly Rational := Poly.ofCoef ⟨i, 1⟩
      let x (d : Nat) : Poly Rational := Poly.var 0 d
      let y (d : Nat) : Poly Rational := Poly.var 1 d
      let p ← Poly.mul (← Poly.mul (c 5) (x 4)) (y 3)
      let p ← Poly.add p (← Poly.mul (← Poly.mul (c 2) (x 2)) (y 1))
      let p ← Poly.add p (← Poly.mul (← Poly.mul (c 3) (x 1)) (y 2))
      let p ← Poly.add p (y 2)
      Poly.add p (c 3)) =
    .ok [⟨⟨5, 1⟩, [4, 3]⟩, ⟨⟨2, 1⟩, [2, 1]⟩, ⟨⟨3, 1⟩, [1, 2]⟩, ⟨⟨1, 1⟩, [0, 2]⟩, ⟨⟨3, 1⟩, []⟩] := by
  decide +kernel

/-- `reduction`, comp.rs:373-393: `x/5 f - y/8 g`. -/
example : ∀ b, letI := Rational.field b
    Computer.tryReduce lex
      ([⟨⟨5, 1⟩, [4, 3]⟩, ⟨⟨2, 1⟩, [2, 1]⟩, ⟨⟨3, 1⟩, [1, 2]⟩, ⟨⟨1, 1⟩, [0, 2]⟩, ⟨⟨3, 1⟩, []⟩] :
        Poly Rational)
      [⟨⟨8, 1⟩, [5, 2]⟩, ⟨⟨1, 1⟩, [3]⟩, ⟨⟨3, 1⟩, [2, 2]⟩, ⟨⟨1, 1⟩, [0, 4]⟩, ⟨⟨6, 1⟩, []⟩] =
    .ok (some [⟨⟨11, 40⟩, [3, 1]⟩, ⟨⟨3, 5⟩, [2, 2]⟩, ⟨⟨1, 5⟩, [1, 2]⟩, ⟨⟨3, 5⟩, [1]⟩,
      ⟨⟨-3, 8⟩, [2, 3]⟩, ⟨⟨-1, 8⟩, [0, 5]⟩, ⟨⟨-3, 4⟩, [0, 1]⟩]) := by decide +kernel

/-- `buchberger`, comp.rs:395-426, first list. -/
example : ∀ b, letI := Rational.field b
    Computer.buchbergerAlgorithm lex
      ([[⟨⟨1, 1⟩, [3, 1]⟩, ⟨⟨-1, 1⟩, [1, 2]⟩, ⟨⟨1, 1⟩, []⟩],
        [⟨⟨1, 1⟩, [2, 2]⟩, ⟨⟨-1, 1⟩, [0, 3]⟩, ⟨⟨-1, 1⟩, []⟩]] : List (Poly Rational)) =
    .ok [[⟨⟨1, 1⟩, [1]⟩, ⟨⟨1, 1⟩, [0, 1]⟩],
      [⟨⟨1, 1⟩, [0, 4]⟩, ⟨⟨-1, 1⟩, [0, 3]⟩, ⟨⟨-1, 1⟩, []⟩]] := by
  intro b
  let _ := Rational.field b
  refine (Computer.buchbergerAlgorithmN_approx 30 _).eq ?_ (by simp)
  revert b; decide +kernel

/-- `buchberger`, second list. -/
example : ∀ b, letI := Rational.field b
    Computer.buchbergerAlgorithm lex
      ([[⟨⟨1, 1⟩, [2]⟩, ⟨⟨1, 1⟩, [1, 5]⟩, ⟨⟨1, 1⟩, [0, 4]⟩],
        [⟨⟨1, 1⟩, [1, 6]⟩, ⟨⟨-1, 1⟩, [1, 3]⟩, ⟨⟨1, 1⟩, [0, 5]⟩, ⟨⟨-1, 1⟩, [0, 2]⟩],
        [⟨⟨1, 1⟩, [1, 5]⟩, ⟨⟨-1, 1⟩, [1, 2]⟩]] : List (Poly Rational)) =
    .ok [[⟨⟨1, 1⟩, [0, 5]⟩, ⟨⟨-1, 1⟩, [0, 2]⟩],
      [⟨⟨1, 1⟩, [2]⟩, ⟨⟨1, 1⟩, [1, 2]⟩, ⟨⟨1, 1⟩, [0, 4]⟩]] := by
  intro b
  let _ := Rational.field b
  refine (Computer.buchbergerAlgorithmN_approx 30 _).eq ?_ (by simp)
  revert b; decide +kernel

end Verif.Tests
