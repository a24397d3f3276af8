import Verif.Poly.Elts

/-!
# Model of `src/poly/display.rs`, and of `Display` for `Integer` and `Rational`

The text written to the formatter is the list of its characters.  Writing to a string does not
fail, so `fmt::Result` is left out; formatter flags (width, precision, `{:#?}`) are not modelled.
`Display for Polynomial<f64>` (display.rs:75-100) is in `DisplayF64`.
-/

namespace Verif

namespace Display

/-- The decimal digit `d < 10` as a character. -/
def digit : Nat → Char
  | 0 => '0' | 1 => '1' | 2 => '2' | 3 => '3' | 4 => '4'
  | 5 => '5' | 6 => '6' | 7 => '7' | 8 => '8' | _ => '9'

/-- `Display` of an unsigned number in the standard library: decimal digits without leading
zeros. -/
def nat (n : Nat) : List Char :=
  if n < 10 then [digit n] else nat (n / 10) ++ [digit (n % 10)]

/-- `Display` of `i64` in the standard library; int.rs:122-127 `Display for Integer` is the same. -/
def int (x : Int) : List Char :=
  if x < 0 then '-' :: nat x.natAbs else nat x.natAbs

/-- rat.rs:164-177 `Display for Rational`. -/
def rational (x : Rational) : List Char :=
  if x.numer = 0 then ['0']
  else if x.denom = 1 then int x.numer
  else int x.numer ++ '/' :: int x.denom

/-- display.rs:27-41 `superscript`. -/
def superscript (n : Nat) : List Char :=
  match n with
  | 0 => ['⁰']
  | 1 => ['¹']
  | 2 => ['²']
  | 3 => ['³']
  | 4 => ['⁴']
  | 5 => ['⁵']
  | 6 => ['⁶']
  | 7 => ['⁷']
  | 8 => ['⁸']
  | 9 => ['⁹']
  | n + 10 => superscript ((n + 10) / 10) ++ superscript ((n + 10) % 10)
termination_by n
decreasing_by all_goals omega

/-- display.rs:12-24 `write_var`. -/
def writeVar (m : MDeg) (idx : Nat) (ident : List Char) : List Char :=
  match m[idx]? with
  | some deg =>
    if deg = 1 then ident
    else if deg ≠ 0 then ident ++ superscript deg
    else []
  | none => []

/-- `{:?}` of a `Vec<u8>` in the standard library: `[1, 0, 2]`. -/
def debugVec : List Nat → List Char
  | [] => ['[', ']']
  | d :: ds => '[' :: nat d ++ (ds.flatMap fun d => ',' :: ' ' :: nat d) ++ [']']

/-- display.rs:45-59 `Display for MultiDegree`. -/
def mdeg (m : MDeg) : List Char :=
  if m.len ≤ 5 then
    writeVar m 0 ['x'] ++ writeVar m 1 ['y'] ++ writeVar m 2 ['z'] ++ writeVar m 3 ['u'] ++
      writeVar m 4 ['v'] ++ writeVar m 5 ['w']
  else 'X' :: debugVec m

/-- display.rs:61-73 `Display for Term`, for a coefficient type displayed by `coef`. -/
def term {F : Type} [RField F] (coef : F → List Char) (t : Term F) : Res (List Char) :=
  if t.mdeg.isZero then pure (coef t.coef)
  else if RField.beq t.coef RField.one then pure (mdeg t.mdeg)
  else do
    let minusOne ← RField.neg (RField.one : F)
    if RField.beq t.coef minusOne then pure ('-' :: mdeg t.mdeg)
    else pure (coef t.coef ++ mdeg t.mdeg)

/-- display.rs:112-122: what is written for a term after the first. -/
def nextTerm (b : Build) (t : Term Rational) : Res (List Char) :=
  letI := Rational.field b
  if Integer.isNeg t.coef.numer then do
    let c ← RField.neg t.coef
    let s ← term rational (Term.mk c t.mdeg)
    pure (' ' :: '-' :: ' ' :: s)
  else do
    let s ← term rational t
    pure (' ' :: '+' :: ' ' :: s)

/-- display.rs:102-127 `Display for Polynomial<Rational>`. -/
def poly (b : Build) (p : Poly Rational) : Res (List Char) :=
  letI := Rational.field b
  match p with
  | [] => pure ['0']
  | t :: ts => do
    let s ← term rational t
    ts.foldlM (fun s t => do let s' ← nextTerm b t; pure (s ++ s')) s

end Display

/-- macros.rs:47-53 `fn_vars!(@idx name)`: the variable index a shorthand stands for. -/
def fnVarsIdx : Char → Option Nat
  | 'x' => some 0 | 'y' => some 1 | 'z' => some 2
  | 'w' => some 3 | 'u' => some 4 | 'v' => some 5
  | _ => none

end Verif
