import Verif.LinAlg.Display
import Verif.Poly.DisplayF64

/-!
# Model of the text of floats in displayed matrices

`Display for Mat` (`src/linalg/mat.rs`) writes the entries with `{:?}`. For `f32` and `f64` this is the text of
the standard library since Rust 1.58 (`float_to_general_debug` in `core/src/fmt/float.rs`): with an exponent
from `10^16` on and below `10^-4`, otherwise without exponent and with at least one digit after the point.
-/

namespace Verif
namespace Display

variable [Fmt]

/-- `already_rounded_value_should_use_exponential` for `n > 0` units; the bounds are the floats nearest to `10^-4`
and `10^16`. -/
def useExponential (n : Nat) : Bool :=
  decide (n < Flt.roundNat Flt.unit (10 ^ 4)) || decide (Flt.roundNat (10 ^ 16 * Flt.unit) 1 ≤ n)

/-- `core::num::flt2dec::digits_to_exp_str`: `d * 10^(j - shift)` as the first digit, the other digits after a
point, and the exponent. -/
def exponential (d j : Nat) : List Char :=
  (nat d).take 1 ++ (if 1 < (nat d).length then '.' :: (nat d).drop 1 else []) ++
    'e' :: int ((j : Int) - shift + (nat d).length - 1)

/-- `core::num::flt2dec::digits_to_dec_str` with one digit after the point at least. -/
def decimalPoint (d j : Nat) : List Char :=
  if shift ≤ j then nat d ++ List.replicate (j - shift) '0' ++ ['.', '0'] else decimal d j

/-- `{:?}` of an `f32` or `f64` that is not negative. -/
def debugAbs (n : Nat) : List Char :=
  if n = 0 then ['0', '.', '0']
  else if useExponential n then exponential (shortest n).1 (shortest n).2
  else decimalPoint (shortest n).1 (shortest n).2

/-- `{:?}` of `f32` and `f64` in the standard library. -/
def debugFloat : Flt → List Char
  | .nan => ['N', 'a', 'N']
  | .inf s => (if s then ['-'] else []) ++ ['i', 'n', 'f']
  | .fin s n => (if s then ['-'] else []) ++ debugAbs n

end Display
end Verif
