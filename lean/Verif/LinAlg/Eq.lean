import Verif.LinAlg.Mat

/-!
# Model of the derived `PartialEq for Mat<F>`
-/

namespace Verif

variable {F : Type} [RField F]

/-- mat.rs:9 `#[derive(PartialEq)]` for `Mat`: the vectors of entries (same length and equal entries),
then the dimensions. -/
def Mat.eq (M other : Mat F) : Bool :=
  (M.entries.length == other.entries.length &&
    (M.entries.zip other.entries).all fun (x, y) => RField.beq x y) &&
  M.rows == other.rows && M.cols == other.cols

end Verif
