import Verif.LinAlg.Debug

/-!
# Model of the derived `Debug` and of `Display for Mat` with the flag `#`: `{:#?}` and `{:#}`

The builders of the standard library (`debug_struct`, `debug_tuple`, `debug_list`) write every field through a
`PadAdapter`, which puts four spaces before each line, and end it with a comma and a newline. `dbg` is `{:#?}` of the
coefficient type; for `f32`, `f64`, `u8`, `usize` and `i64` that is the same as `{:?}`.
-/

namespace Verif
namespace Display

variable {F : Type}

/-- `PadAdapter`: four spaces before every character that begins a line; `nl` tells whether a line begins. -/
def padFrom (nl : Bool) : List Char → List Char
  | [] => []
  | c :: cs => (if nl then [' ', ' ', ' ', ' '] else []) ++ c :: padFrom (c == '\n') cs

/-- One field or item, through a new `PadAdapter`. -/
def padded (text : List Char) : List Char := padFrom true (text ++ [',', '\n'])

/-- A struct with named fields. -/
def prettyStruct (name : String) (fields : List (String × List Char)) : List Char :=
  name.toList ++ " {\n".toList ++ (fields.flatMap fun (f, text) => padded (f.toList ++ ": ".toList ++ text)) ++ ['}']

/-- A tuple struct with one field. -/
def prettyTuple (name : String) (text : List Char) : List Char :=
  name.toList ++ "(\n".toList ++ padded text ++ [')']

/-- `f.debug_list().entries(l).finish()` with the flag `#`. -/
def prettyList (dbg : F → List Char) : List F → List Char
  | [] => ['[', ']']
  | x :: xs => '[' :: '\n' :: ((x :: xs).flatMap fun y => padded (dbg y)) ++ [']']

/-- int.rs:5-6 `#[derive(Debug)]` on `Integer`. -/
def prettyInteger (x : Int) : List Char := prettyTuple "Integer" (int x)

/-- rat.rs:11-15 `#[derive(Debug)]` on `Rational`. -/
def prettyRational (x : Rational) : List Char :=
  prettyStruct "Rational" [("numer", prettyInteger x.numer), ("denom", prettyInteger x.denom)]

/-- mdeg.rs:19-20 `#[derive(Debug)]` on `MultiDegree`. -/
def prettyMDeg (m : MDeg) : List Char := prettyTuple "MultiDegree" (prettyList nat m)

/-- elts.rs:10-14 `#[derive(Debug)]` on `Term`. -/
def prettyTerm (dbg : F → List Char) (t : Term F) : List Char :=
  prettyStruct "Term" [("coef", dbg t.coef), ("mdeg", prettyMDeg t.mdeg)]

/-- elts.rs:17-21 `#[derive(Debug)]` on `Polynomial`. -/
def prettyPoly (dbg : F → List Char) (p : Poly F) : List Char :=
  prettyStruct "Polynomial" [("terms", prettyList (prettyTerm dbg) p)]

/-- mat.rs:9-14 `#[derive(Debug)]` on `Mat`. -/
def prettyMat (dbg : F → List Char) (M : Mat F) : List Char :=
  prettyStruct "Mat" [("entries", prettyList dbg M.entries), ("rows", nat M.rows), ("cols", nat M.cols)]

/-- mat.rs:325-338 `Display for Mat` with the flag `#`, which reaches `debug_list`; otherwise as `Display.mat`. -/
def matAlternate [RField F] (dbg : F → List Char) (M : Mat F) : Res (List Char) :=
  (List.range M.rows).foldlM (fun s r => do
    let i ← Usize.mul (RField.build F) r M.cols
    let k ← Usize.mul (RField.build F) r M.cols
    let j ← Usize.add (RField.build F) k M.cols
    if i ≤ j ∧ j ≤ M.entries.length then
      let s := s ++ prettyList dbg ((M.entries.drop i).take (j - i))
      pure (if r ≠ M.rows - 1 then s ++ ['\n'] else s)
    else .panic .indexOutOfBounds) ['\n']

end Display
end Verif
