import Verif.Num.Field

/-!
# Model of `f32` and `f64` and of their parts of `src/core/num/traits.rs`

`f32` and `f64` are IEEE 754 binary32 and binary64 with rounding to nearest, ties to even.  Every
finite binary64 number is an integral multiple of `2^-1074` (binary32: `2^-149`), so a finite number
is a sign and the natural number of such units.  The traits are implemented for both types by the same
macros, so the format is a parameter `[Fmt]` of the model.  Simplifications: all NaNs are one value
(sign and payload of a NaN are not modelled), and `powi`, whose precision Rust does not specify, is a
parameter.
-/

namespace Verif

/-- The floating point formats: `f32` and `f64`. -/
class inductive Fmt where
  | f32
  | f64
  deriving DecidableEq, Repr

namespace Fmt

/-- The number of significant bits after the first. -/
def sig [φ : Fmt] : Nat :=
  match φ with
  | f32 => 23
  | f64 => 52

/-- The number of significant bits. -/
abbrev prec [Fmt] : Nat := sig + 1

/-- The least positive number is `2^-unitExp`. -/
def unitExp [φ : Fmt] : Nat :=
  match φ with
  | f32 => 149
  | f64 => 1074

/-- The finite numbers are less than `2^maxExp`. -/
def maxExp [φ : Fmt] : Nat :=
  match φ with
  | f32 => 128
  | f64 => 1024

end Fmt

open Fmt

/-- IEEE 754 binary32 or binary64.  `fin s n` is `(-1)^s * n * 2^-unitExp`. -/
inductive Flt [Fmt] where
  | nan
  | inf (neg : Bool)
  | fin (neg : Bool) (n : Nat)
  deriving DecidableEq, Repr

/-- `f32` -/
abbrev F32 : Type := @Flt .f32

/-- `f64` -/
abbrev F64 : Type := @Flt .f64

namespace Flt

variable [Fmt]

/-- `a / b` rounded to the nearest natural, ties to even. -/
def rne (a b : Nat) : Nat :=
  let q := a / b
  let r := a % b
  if 2 * r < b then q
  else if 2 * r = b then (if q % 2 = 0 then q else q + 1)
  else q + 1

/-- `a / b` rounded to the nearest natural that has at most `sig + 1` significant bits, ties to even. -/
def roundNat (a b : Nat) : Nat :=
  let q := a / b
  if q < 2 ^ (sig + 1) then rne a b
  else
    let k := Nat.log2 q - sig
    rne a (b * 2 ^ k) * 2 ^ k

/-- The number of units of `2^maxExp`, where the finite numbers end. -/
@[irreducible] def limit : Nat := 2 ^ (maxExp + unitExp)

/-- The number of units of `1.0`. -/
@[irreducible] def unit : Nat := 2 ^ unitExp

/-- The number of units of `2^-sig`. -/
@[irreducible] def epsUnits : Nat := 2 ^ (unitExp - sig)

/-- The number nearest to `(-1)^neg * a / b` units. -/
def round (neg : Bool) (a b : Nat) : Flt :=
  let n := roundNat a b
  if n < limit then fin neg n else inf neg

/-- A finite datum has at most `sig + 1` significant bits and is below `2^maxExp`. -/
def Valid : Flt → Prop
  | nan => True
  | inf _ => True
  | fin _ n => roundNat n 1 = n ∧ n < limit

instance (x : Flt) : Decidable x.Valid := by
  cases x <;> unfold Valid <;> infer_instance

/-- The signed number of units of a finite number. -/
def units (neg : Bool) (n : Nat) : Int := if neg then -(n : Int) else n

/-- The number nearest to an integral number of units; `z` is the sign of an exact zero. -/
def ofUnits (z : Bool) (i : Int) : Flt :=
  if i = 0 then fin z 0 else round (decide (i < 0)) i.natAbs 1

/-- `0.0` -/
def zero : Flt := fin false 0

/-- `1.0` -/
def one : Flt := fin false unit

/-- `f32::EPSILON`, `f64::EPSILON` -/
def EPSILON : Flt := fin false epsUnits

/-- `-x` -/
def neg : Flt → Flt
  | nan => nan
  | inf s => inf (!s)
  | fin s n => fin (!s) n

/-- `x + y` -/
def add : Flt → Flt → Flt
  | nan, _ => nan
  | _, nan => nan
  | inf s, inf t => if s = t then inf s else nan
  | inf s, fin _ _ => inf s
  | fin _ _, inf t => inf t
  | fin s n, fin t m => ofUnits (s && t) (units s n + units t m)

/-- `x - y` -/
def sub (x y : Flt) : Flt := add x (neg y)

/-- `x * y` -/
def mul : Flt → Flt → Flt
  | nan, _ => nan
  | _, nan => nan
  | inf s, inf t => inf (xor s t)
  | inf s, fin t m => if m = 0 then nan else inf (xor s t)
  | fin s n, inf t => if n = 0 then nan else inf (xor s t)
  | fin s n, fin t m => round (xor s t) (n * m) unit

/-- `x / y` -/
def div : Flt → Flt → Flt
  | nan, _ => nan
  | _, nan => nan
  | inf _, inf _ => nan
  | inf s, fin t _ => inf (xor s t)
  | fin s _, inf t => fin (xor s t) 0
  | fin s n, fin t m =>
    if m = 0 then (if n = 0 then nan else inf (xor s t))
    else round (xor s t) (n * unit) m

/-- `x.recip()`: `1.0 / x`. -/
def recip (x : Flt) : Flt := div one x

/-- `x.abs()` -/
def abs : Flt → Flt
  | nan => nan
  | inf _ => inf false
  | fin _ n => fin false n

/-- `x.partial_cmp(&y)` -/
def partialCmp : Flt → Flt → Option Ordering
  | nan, _ => none
  | _, nan => none
  | inf s, inf t => some (if s = t then .eq else if s then .lt else .gt)
  | inf s, fin _ _ => some (if s then .lt else .gt)
  | fin _ _, inf t => some (if t then .gt else .lt)
  | fin s n, fin t m => some (compare (units s n) (units t m))

/-- `x == y` -/
def eq (x y : Flt) : Bool := partialCmp x y == some .eq

/-- `x < y` -/
def lt (x y : Flt) : Bool := partialCmp x y == some .lt

/-- traits.rs:161-171 `EpsilonEquality` for `f32` and `f64`. -/
def epsilonEquals (x y : Flt) : Bool := lt (abs (sub x y)) EPSILON

/-- traits.rs:195-205 `StabilityCmp` for `f32` and `f64`. -/
def stabilityCmp (x y : Flt) : Option Ordering := partialCmp (abs x) (abs y)

/-- traits.rs:138-153 `field_impl! { f32 f64 .. }`; `Sum` adds up from `0.0`. -/
@[reducible] def field (b : Build) (powi : Flt → Int → Flt) : RField Flt where
  build := b
  zero := zero
  one := one
  beq := eq
  add x y := .ok (add x y)
  sub x y := .ok (sub x y)
  neg x := .ok (neg x)
  mul x y := .ok (mul x y)
  div x y := .ok (div x y)
  inv x := .ok (recip x)
  powi32 x e := .ok (powi x e)
  sum l := l.foldlM (fun acc y => do let y ← y; .ok (add acc y)) zero

/-- traits.rs:161-171 -/
instance epsilonEquality : EpsilonEquality Flt where
  epsilonEquals x y := .ok (epsilonEquals x y)

/-- traits.rs:195-205 -/
instance stability : StabilityCmp Flt where
  stabilityCmp x y := .ok (stabilityCmp x y)

end Flt
end Verif
