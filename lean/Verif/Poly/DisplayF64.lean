import Verif.Num.F64
import Verif.Poly.Display

/-!
# Model of `Display for Polynomial<f64>` (src/poly/display.rs:75-100)

Includes the text of an `f32` or `f64` under `{}` in the standard library: the shortest decimal number that
rounds back to it, the nearest one if there are several of that length, without exponent.  The sign
of a NaN is not modelled (`is_sign_negative` is taken to be `false`).  The crate has the instance for `f64` only, the definitions are for both formats.
-/

namespace Verif
namespace Display

variable [Fmt]

/-- Decimal numbers are `d * 10^(j - shift)` with natural `d` and `j`. -/
@[irreducible] def shift : Nat := 400

/-- The number of decimal digits of the integral part of `10^shift` times `n` units. -/
def magnitude (n : Nat) : Nat :=
  ((List.range 800).filter fun k => 10 ^ k * Flt.unit ≤ n * 10 ^ shift).length

/-- Whether the decimal number `d * 10^(j - shift)` rounds to `n` units. -/
def roundsTo (n d j : Nat) : Bool :=
  Flt.roundNat (d * 10 ^ j * Flt.unit) (10 ^ shift) = n

/-- The largest `d` with `d * 10^(j - shift)` at most `n` units. -/
def below (n j : Nat) : Nat := n * 10 ^ shift / (10 ^ j * Flt.unit)

/-- `9` digits tell the numbers of `f32` apart and `17` those of `f64` (`level_max`). -/
def maxDigits : Nat := match ‹Fmt› with | .f32 => 9 | .f64 => 17

/-- `core::num::flt2dec::strategy::dragon::format_shortest` for `n > 0` units: `(d, j)` stands for
`d * 10^(j - shift)`.  Digits are generated until cutting off or rounding up gives a number that rounds
back; `maxDigits` digits are always enough (`level_max`). -/
def shortest (n : Nat) : Nat × Nat :=
  let p := ((List.range (maxDigits + 1)).find? fun p =>
    roundsTo n (below n (magnitude n - p)) (magnitude n - p) ||
      roundsTo n (below n (magnitude n - p) + 1) (magnitude n - p)).getD maxDigits
  let j := magnitude n - p
  let d := below n j
  let up := roundsTo n (d + 1) j &&
    (!roundsTo n d j || 10 ^ j * Flt.unit ≤ 2 * (n * 10 ^ shift % (10 ^ j * Flt.unit)))
  (if up then d + 1 else d, j)

/-- `core::num::flt2dec::digits_to_dec_str`: `d * 10^(j - shift)` without exponent. -/
def decimal (d j : Nat) : List Char :=
  if shift ≤ j then nat d ++ List.replicate (j - shift) '0'
  else if shift - j < (nat d).length then
    (nat d).take ((nat d).length - (shift - j)) ++ '.' :: (nat d).drop ((nat d).length - (shift - j))
  else '0' :: '.' :: (List.replicate (shift - j - (nat d).length) '0' ++ nat d)

/-- `Display` of an `f32` or `f64` that is not negative. -/
def floatAbs (n : Nat) : List Char :=
  if n = 0 then ['0'] else decimal (shortest n).1 (shortest n).2

/-- `Display` of `f32` and `f64` in the standard library. -/
def float : Flt → List Char
  | .nan => ['N', 'a', 'N']
  | .inf s => (if s then ['-'] else []) ++ ['i', 'n', 'f']
  | .fin s n => (if s then ['-'] else []) ++ floatAbs n

/-- `f64::is_sign_negative`. -/
def isSignNegative : Flt → Bool
  | .nan => false
  | .inf s => s
  | .fin s _ => s

/-- display.rs:85-95: what is written for a term after the first. -/
def nextTermF64 (b : Build) (powi : Flt → Int → Flt) (t : Term Flt) : Res (List Char) :=
  letI := Flt.field b powi
  if isSignNegative t.coef then do
    let c ← RField.neg t.coef
    let s ← term float (Term.mk c t.mdeg)
    pure (' ' :: '-' :: ' ' :: s)
  else do
    let s ← term float t
    pure (' ' :: '+' :: ' ' :: s)

/-- display.rs:75-100 `Display for Polynomial<f64>`. -/
def polyF64 (b : Build) (powi : Flt → Int → Flt) (p : Poly Flt) : Res (List Char) :=
  letI := Flt.field b powi
  match p with
  | [] => pure ['0']
  | t :: ts => do
    let s ← term float t
    ts.foldlM (fun s t => do let s' ← nextTermF64 b powi t; pure (s ++ s')) s

end Display
end Verif
