import Verif.Num.Rat
import Mathlib.Algebra.Field.Basic
import Mathlib.Algebra.BigOperators.Group.List.Basic

/-!
# Model of the traits of `src/core/num/traits.rs`: `Field`, `EpsilonEquality`, `StabilityCmp`
-/

namespace Verif

/-- traits.rs:118-136 `trait Field` (with `Zero`, `One` and the operator traits it requires):
operations only, no laws, as in Rust.  `build` is the profile the program is compiled with; the
generic polynomial code uses it for its `u8` degree arithmetic.  `AddAssign` etc. are the
operators themselves (rat.rs:148-162). -/
class RField (F : Type) where
  build : Build
  /-- `Zero::ZERO` -/
  zero : F
  /-- `One::ONE` -/
  one : F
  /-- `PartialEq::eq` -/
  beq : F → F → Bool
  add : F → F → Res F
  sub : F → F → Res F
  neg : F → Res F
  mul : F → F → Res F
  div : F → F → Res F
  /-- `Field::inv` -/
  inv : F → Res F
  /-- `Field::powi32` -/
  powi32 : F → Int → Res F
  /-- `Sum::sum` of a (lazy) iterator -/
  sum : List (Res F) → Res F

/-- traits.rs:157-159 `trait EpsilonEquality`. -/
class EpsilonEquality (F : Type) where
  epsilonEquals : F → F → Res Bool

/-- traits.rs:191-193 `trait StabilityCmp`. -/
class StabilityCmp (F : Type) where
  stabilityCmp : F → F → Res (Option Ordering)

/-- traits.rs:138-153 `field_impl! { .. Rational }` in the given build profile. -/
@[reducible] def Rational.field (b : Build) : RField Rational where
  build := b
  zero := Rational.ZERO
  one := Rational.ONE
  beq x y := decide (x = y)
  add := Rational.add b
  sub := Rational.sub b
  neg := Rational.neg b
  mul := Rational.mul b
  div := Rational.div b
  inv := Rational.recip b
  powi32 := Rational.powi b
  sum := Rational.sum b

/-- traits.rs:175-179 -/
instance Rational.epsilonEquality : EpsilonEquality Rational where
  epsilonEquals x y := .ok (Rational.epsilonEquals x y)

/-- traits.rs:214-225 -/
@[reducible] def Rational.stability (b : Build) : StabilityCmp Rational where
  stabilityCmp := Rational.stabilityCmp b

/-- An exact field: a type on which the operations are those of a mathematical field and never
overflow.  This is the generic `F: Field` of the Rust code under the assumption its trait leaves
implicit (that `F` is a field with decidable equality); it is not code of the repository.
Dividing by zero panics, as `Rational` does. -/
@[reducible] def exactField (b : Build) (K : Type) [Field K] [DecidableEq K] : RField K where
  build := b
  zero := 0
  one := 1
  beq x y := decide (x = y)
  add x y := .ok (x + y)
  sub x y := .ok (x - y)
  neg x := .ok (-x)
  mul x y := .ok (x * y)
  div x y := if y = 0 then .panic (.explicit "denominator cannot be zero") else .ok (x / y)
  inv x := if x = 0 then .panic (.explicit "denominator cannot be zero") else .ok (x⁻¹)
  powi32 x p := .ok (x ^ p)
  sum l := l.foldlM (fun acc y => do let y ← y; .ok (acc + y)) 0

open Res

/-- What the generic code needs from a `Field` implementation compiled with overflow checks:
`val` maps representations to a mathematical field `K`, and each operation on well-formed
representations either returns a well-formed representation of the exact result or panics with
one of the `allowed` panics. -/
class LawfulRField (F : Type) [RField F] (K : outParam Type) [Field K] where
  wf : F → Prop
  val : F → K
  allowed : Panic → Prop
  build_debug : RField.build F = .debug
  wf_zero : wf RField.zero
  val_zero : val RField.zero = 0
  wf_one : wf RField.one
  val_one : val RField.one = 1
  val_eq_of_beq : ∀ a b : F, RField.beq a b = true → val a = val b
  beq_zero : ∀ a, wf a → val a = 0 → RField.beq a RField.zero = true
  add_spec : ∀ a b, wf a → wf b →
    Spec allowed (RField.add a b) (fun c => wf c ∧ val c = val a + val b)
  sub_spec : ∀ a b, wf a → wf b →
    Spec allowed (RField.sub a b) (fun c => wf c ∧ val c = val a - val b)
  neg_spec : ∀ a, wf a → Spec allowed (RField.neg a) (fun c => wf c ∧ val c = - val a)
  mul_spec : ∀ a b, wf a → wf b →
    Spec allowed (RField.mul a b) (fun c => wf c ∧ val c = val a * val b)
  div_spec : ∀ a b, wf a → wf b → val b ≠ 0 →
    Spec allowed (RField.div a b) (fun c => wf c ∧ val c = val a / val b)
  inv_spec : ∀ a, wf a → val a ≠ 0 →
    Spec allowed (RField.inv a) (fun c => wf c ∧ val c = (val a)⁻¹)
  pow_spec : ∀ a (n : Nat), n < 256 → wf a →
    Spec allowed (RField.powi32 a n) (fun c => wf c ∧ val c = val a ^ n)
  sum_spec : ∀ (E : Panic → Prop), (∀ p, allowed p → E p) → ∀ (l : List (Res F)) (vs : List K),
    List.Forall₂ (fun r v => Spec E r (fun c => wf c ∧ val c = v)) l vs →
    Spec E (RField.sum l) (fun c => wf c ∧ val c = vs.sum)
  sum_strict : ∀ (l : List (Res F)) (c : F), RField.sum l = .ok c → ∀ r ∈ l, ∃ a, r = .ok a

/-- What elimination needs from `EpsilonEquality` and `StabilityCmp` on an exact type:
comparison with zero is exact, `stability_cmp` never answers `None`, and (traits.rs:189-190)
"0 <= every number, and every number !<= 0". -/
class LawfulPivot (F : Type) [RField F] (K : outParam Type) [Field K] [LawfulRField F K]
    [EpsilonEquality F] [StabilityCmp F] : Prop where
  eps_zero : ∀ a : F, LawfulRField.wf a →
    Spec (LawfulRField.allowed F) (EpsilonEquality.epsilonEquals a RField.zero)
      (fun r => r = true ↔ LawfulRField.val a = 0)
  stab : ∀ a b : F, LawfulRField.wf a → LawfulRField.wf b →
    Spec (LawfulRField.allowed F) (StabilityCmp.stabilityCmp a b)
      (fun o => ∃ r, o = some r ∧
        (LawfulRField.val a ≠ 0 → LawfulRField.val b = 0 → r = .gt) ∧
        (LawfulRField.val a = 0 → LawfulRField.val b ≠ 0 → r ≠ .gt))

end Verif
