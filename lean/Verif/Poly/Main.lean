import Verif.Poly.Display

/-!
# Model of `src/main.rs`
-/

namespace Verif

/-- main.rs:6-14 `main`: the text printed by `println!`. -/
def mainOutput (b : Build) : Res (List Char) :=
  letI := Rational.field b
  do
    let x : Poly Rational := Poly.var 0 1
    let y : Poly Rational := Poly.var 1 1
    let p ← Poly.add x y
    let x' : Poly Rational := Poly.var 0 1
    let y' : Poly Rational := Poly.var 1 1
    let q ← Poly.sub x' y'
    let sp ← Display.poly b p
    let sq ← Display.poly b q
    let pq ← Poly.mul p q
    let s ← Display.poly b pq
    pure (['\n', '('] ++ sp ++ [')', '('] ++ sq ++ [')', ' ', '=', ' '] ++ s ++ ['\n'])

end Verif
