import Verif.LinAlg.Display

/-!
# Model of the derived `Debug` of multidegrees, terms, polynomials and matrices

`dbg` is `{:?}` of the coefficient type. For `{:#?}` see `LinAlg/DebugPretty.lean`.
-/

namespace Verif
namespace Display

variable {F : Type}

/-- mdeg.rs:19-20 `#[derive(Debug)]` on the tuple struct `MultiDegree(pub Vec<D>)`. -/
def debugMDeg (m : MDeg) : List Char := "MultiDegree(".toList ++ debugList nat m ++ ")".toList

/-- elts.rs:10-14 `#[derive(Debug)]` on `Term`. -/
def debugTerm (dbg : F → List Char) (t : Term F) : List Char :=
  "Term { coef: ".toList ++ dbg t.coef ++ ", mdeg: ".toList ++ debugMDeg t.mdeg ++ " }".toList

/-- elts.rs:17-21 `#[derive(Debug)]` on `Polynomial`. -/
def debugPoly (dbg : F → List Char) (p : Poly F) : List Char :=
  "Polynomial { terms: ".toList ++ debugList (debugTerm dbg) p ++ " }".toList

/-- mat.rs:9-14 `#[derive(Debug)]` on `Mat`. -/
def debugMat (dbg : F → List Char) (M : Mat F) : List Char :=
  "Mat { entries: ".toList ++ debugList dbg M.entries ++ ", rows: ".toList ++ nat M.rows ++
    ", cols: ".toList ++ nat M.cols ++ " }".toList

/-- elts.rs:103-108, the message of the panic of `Term::eval`, which `Term.eval` abbreviates. -/
def evalMessage (dbg : F → List Char) (x : List F) (t : Term F) : List Char :=
  "incorrectly sized argument ".toList ++ debugList dbg x ++ " passed to term ".toList ++ debugTerm dbg t

end Display
end Verif
