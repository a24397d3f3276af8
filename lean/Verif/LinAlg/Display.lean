import Verif.LinAlg.Mat
import Verif.Poly.Display

/-!
# Model of `Display for Mat` (`src/linalg/mat.rs`) and of the derived `Debug` of the number types

As in `Poly/Display.lean`, the text written is the list of its characters; for the flag `#`, which makes
`debug_list` break lines, see `LinAlg/DebugPretty.lean`.
-/

namespace Verif
namespace Display

/-- int.rs:5 `#[derive(Debug)]` on the tuple struct `Integer(pub i64)`. -/
def debugInteger (x : Int) : List Char :=
  ['I', 'n', 't', 'e', 'g', 'e', 'r', '('] ++ int x ++ [')']

/-- rat.rs:11 `#[derive(Debug)]` on `Rational { numer, denom }`. -/
def debugRational (x : Rational) : List Char :=
  ['R', 'a', 't', 'i', 'o', 'n', 'a', 'l', ' ', '{', ' '] ++
    ['n', 'u', 'm', 'e', 'r', ':', ' '] ++ debugInteger x.numer ++
    [',', ' ', 'd', 'e', 'n', 'o', 'm', ':', ' '] ++ debugInteger x.denom ++ [' ', '}']

/-- `f.debug_list().entries(l).finish()`, for items whose `{:?}` is `dbg`: `[a, b, c]`. -/
def debugList {F : Type} (dbg : F → List Char) : List F → List Char
  | [] => ['[', ']']
  | x :: xs => '[' :: dbg x ++ (xs.flatMap fun y => ',' :: ' ' :: dbg y) ++ [']']

/-- mat.rs:325-338 `Display for Mat`, for entries whose `{:?}` is `dbg`.  `self.rows - 1` is only
evaluated inside the loop, where `rows > 0`. -/
def mat {F : Type} [RField F] (dbg : F → List Char) (M : Mat F) : Res (List Char) :=
  (List.range M.rows).foldlM (fun s r => do
    let i ← Usize.mul (RField.build F) r M.cols
    let k ← Usize.mul (RField.build F) r M.cols
    let j ← Usize.add (RField.build F) k M.cols
    if i ≤ j ∧ j ≤ M.entries.length then
      let s := s ++ debugList dbg ((M.entries.drop i).take (j - i))
      pure (if r ≠ M.rows - 1 then s ++ ['\n'] else s)
    else .panic .indexOutOfBounds) ['\n']

end Display
end Verif
