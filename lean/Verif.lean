import Verif.Res
import Verif.Num.Int
import Verif.Num.Rat
import Verif.Num.Field
import Verif.Poly.MDeg
import Verif.Poly.Ord
import Verif.Poly.Elts
import Verif.Poly.Comp
import Verif.Proofs.Num
import Verif.Proofs.MDeg
import Verif.Proofs.Ord
import Verif.Proofs.Den
import Verif.Proofs.Elts
import Verif.Props.Num
import Verif.Props.MDeg
import Verif.Props.Ord
import Verif.Props.Elts
import Verif.Proofs.Divide
import Verif.Proofs.Groebner
import Verif.Proofs.Buchberger
import Verif.Props.Comp
import Verif.LinAlg.Util
import Verif.LinAlg.Mat
import Verif.LinAlg.Algorithm
import Verif.LinAlg.MatIter
import Verif.LinAlg.Cone
import Verif.Proofs.Mat
import Verif.Proofs.Elim
import Verif.Proofs.LU
import Verif.Proofs.Rref
import Verif.Proofs.Represents
import Verif.Proofs.MatOps
import Verif.Proofs.Bridge
import Verif.Props.Mat
import Verif.Props.Elim
import Verif.Props.Iter
import Verif.Props.Cone
import Verif.Poly.Display
import Verif.Props.Display
import Verif.Proofs.Refine
import Verif.Props.Refine
import Verif.LinAlg.Display
import Verif.Poly.Main
import Verif.Proofs.Pivot
import Verif.Props.Exact
import Verif.Props.Generic
import Verif.Props.MatDisplay
import Verif.Num.F64
import Verif.Proofs.F64
import Verif.Proofs.Shape
import Verif.Proofs.F64Ops
import Verif.Props.F64
import Verif.Props.F64Elim
import Verif.Props.F64Poly
import Verif.Proofs.Run
import Verif.Props.Ideal
import Verif.Props.Tests
import Verif.Proofs.F64Exact
import Verif.Proofs.IntData
import Verif.Proofs.F64Int
import Verif.Props.F64Exact
import Verif.Props.Solve
import Verif.Proofs.Farkas
import Verif.Props.Binomial
import Verif.Props.Corner
import Verif.Props.Raw
import Verif.Props.F64Special
import Verif.Props.ConeExact
import Verif.Props.ConeDual
import Verif.Props.ConeOrder
import Verif.Props.ConeSmall
import Verif.Props.Exponents
import Verif.Props.Disjoint
import Verif.Props.Rescale
import Verif.Props.IntDivide
import Verif.Props.Pure
import Verif.Props.Simulate
import Verif.Props.SimFloat
import Verif.Props.Terms
import Verif.Props.Commute
import Verif.Props.Literal
import Verif.Props.Checks
import Verif.Proofs.Relate
import Verif.Props.LastVar
import Verif.Props.Rename
import Verif.Proofs.Alike
import Verif.Props.Reorder
import Verif.Props.Unused
import Verif.Props.ConeSame
import Verif.Props.Difference
import Verif.Props.Affine
import Verif.Props.Ranks
import Verif.Props.ConeInside
import Verif.Props.MatDisplayF64
import Verif.Props.DebugText
import Verif.Props.SameDegree
import Verif.Props.Signs
import Verif.Props.SignsMat
import Verif.Num.Prims
import Verif.Props.Prims
import Verif.Props.MatExpr
import Verif.Props.IdealSum
import Verif.Props.PowersOfTwo
import Verif.Props.Inverse
import Verif.Props.RelationsMod
import Verif.Props.ZeroSets
import Verif.Props.Points
import Verif.Props.Shape
import Verif.Props.KernelError
import Verif.Props.TwoOrders
import Verif.Props.ConeError
import Verif.Props.LuForm
import Verif.Props.Extension
import Verif.Props.DivideError
import Verif.Props.EvalError
import Verif.Props.DivideSorted
import Verif.Props.FloatEnds
import Verif.Props.Growth
import Verif.Props.Powi
import Verif.Props.ScaleMat
import Verif.Props.DebugPretty
import Verif.Props.Projection
import Verif.Props.Gcd
import Verif.Props.PolyInverse
import Verif.Props.IdealQuotients
import Verif.Props.Subspaces
import Verif.Props.LeastSquares
import Verif.Props.MatInverse
import Verif.Props.LinearForms
import Verif.Props.ConeShape
import Verif.Props.Surplus
import Verif.Props.Syzygies
import Verif.Props.IntRat
import Verif.Props.MatExact
import Verif.Props.Division
import Verif.Props.TermOrder
import Verif.Props.BasisOrder
import Verif.Props.ConeAny
import Verif.Props.DisplayF64
import Verif.Props.F64Error
import Verif.Proofs.FormError
import Verif.Props.LUError
import Verif.Props.FormError
import Verif.Props.PolyError
import Verif.Props.IdealOps
import Verif.Props.Graded
import Verif.Props.PolyMap
import Verif.Proofs.LinearForms
import Verif.Props.LinearPoly
import Verif.Props.Coprime
import Verif.LinAlg.Eq
import Verif.Props.Equality
import Verif.Props.Fixed
import Verif.Props.Sums
import Verif.Props.Finite
import Verif.Props.Count
import Verif.Props.Endless
import Verif.Props.Unchecked
import Verif.Props.Wrapping
import Verif.Props.IterWrap
import Verif.Props.OrdWrap
import Verif.Proofs.Sized
import Verif.Props.ElimBound
import Verif.Props.Total
import Verif.Proofs.Closed
import Verif.Props.Closed
import Verif.Proofs.Embed
import Verif.Proofs.Insert
import Verif.Props.Embed
import Verif.Props.ReadOut
import Verif.Props.Multiplication
import Verif.Props.ReadBack
import Verif.Props.ReadBackFloat
import Verif.Props.RawBuchberger
