import Verif.Num.F64

/-!
# Model of `Zero` and `One` for the primitive types (traits.rs:10-31, 56-77)

Nothing else in the library uses the implementations for integer types; they are part of its public interface.  A
value of an integer type is an `Int` in its range.
-/

namespace Verif

/-- The primitive integer types of the list in traits.rs:31 and 77, apart from the floats. -/
inductive Prim | usize | u8 | u16 | u32 | u64 | u128 | isize | i8 | i16 | i32 | i64 | i128
  deriving DecidableEq, Repr

namespace Prim

/-- Width in bits; the platform is assumed to have 64-bit addresses, as elsewhere. -/
def bits : Prim → Nat
  | usize => 64 | u8 => 8 | u16 => 16 | u32 => 32 | u64 => 64 | u128 => 128
  | isize => 64 | i8 => 8 | i16 => 16 | i32 => 32 | i64 => 64 | i128 => 128

def signed : Prim → Bool
  | usize => false | u8 => false | u16 => false | u32 => false | u64 => false | u128 => false
  | isize => true | i8 => true | i16 => true | i32 => true | i64 => true | i128 => true

/-- The values of the type. -/
def InRange (t : Prim) (x : Int) : Prop :=
  if t.signed then -2 ^ (t.bits - 1) ≤ x ∧ x < 2 ^ (t.bits - 1) else 0 ≤ x ∧ x < 2 ^ t.bits

instance (t : Prim) (x : Int) : Decidable (t.InRange x) := by unfold InRange; infer_instance

/-- Wrap-around of arithmetic without overflow checks. -/
def wrap (t : Prim) (x : Int) : Int := if t.signed then Int.bmod x (2 ^ t.bits) else x % 2 ^ t.bits

/-- Result of an operation whose mathematical result is `x`. -/
def norm (b : Build) (t : Prim) (x : Int) : Res Int :=
  if t.InRange x then .ok x
  else match b with
    | .debug => .panic (.explicit "attempt to compute with overflow")
    | .release => .ok (t.wrap x)

/-- `x + y`, the supertrait of `Zero` (traits.rs:10). -/
def add (b : Build) (t : Prim) (x y : Int) : Res Int := norm b t (x + y)

/-- `x * y`, the supertrait of `One` (traits.rs:56). -/
def mul (b : Build) (t : Prim) (x y : Int) : Res Int := norm b t (x * y)

/-- traits.rs:20 `ZERO`: `0 as Self`, a cast that wraps around. -/
def ZERO (t : Prim) : Int := t.wrap 0

/-- traits.rs:23-25 `is_zero`. -/
def isZero (t : Prim) (x : Int) : Bool := decide (x = t.ZERO)

/-- traits.rs:66 `ONE`: `1 as Self`. -/
def ONE (t : Prim) : Int := t.wrap 1

/-- traits.rs:69-71 `is_one`. -/
def isOne (t : Prim) (x : Int) : Bool := decide (x = t.ONE)

end Prim

namespace Flt
variable [Fmt]

/-- traits.rs:23-25 `is_zero` of `f32` and `f64`. -/
def isZero (x : Flt) : Bool := eq x zero

/-- traits.rs:69-71 `is_one` of `f32` and `f64`. -/
def isOne (x : Flt) : Bool := eq x one

end Flt
end Verif
