import Verif.Poly.MDeg
import Verif.Num.Field

/-!
# Model of `src/poly/elts.rs`: terms and polynomials

The `#[binop(derefs)]` attributes generate the variants of an operator for owned and borrowed
operands, all forwarding to the one modelled here; `#[binop(commute)]` generates the operator
with swapped operand types, forwarding with the operands swapped.
-/

namespace Verif

/-- elts.rs:10-14 `Term`. -/
structure Term (F : Type) where
  coef : F
  mdeg : MDeg
  deriving DecidableEq, Repr

/-- elts.rs:17-21 `Polynomial`: a vector of terms. -/
abbrev Poly (F : Type) := List (Term F)

variable {F : Type} [RField F]

namespace Term

/-- elts.rs:30-32 `new_unchecked`. -/
def newUnchecked (coef : F) (mdeg : MDeg) : Term F := ⟨coef, mdeg⟩

/-- elts.rs:54-56 `constant_unchecked` (also `From<F> for Term<F>`, 235-240). -/
def constantUnchecked (coef : F) : Term F := newUnchecked coef MDeg.zero

/-- elts.rs:60-62 `zero` (and `Default`, 230). -/
def zero : Term F := constantUnchecked RField.zero

/-- elts.rs:39-45 `new`. -/
def new (coef : F) (mdeg : MDeg) : Term F :=
  if RField.beq coef RField.zero then zero else newUnchecked coef mdeg

/-- elts.rs:66-68 `is_zero`. -/
def isZero (t : Term F) : Bool := RField.beq t.coef RField.zero

/-- elts.rs:72-74 `one`. -/
def one : Term F := constantUnchecked RField.one

/-- elts.rs:79-81 `monic`. -/
def monic (mdeg : MDeg) : Term F := newUnchecked RField.one mdeg

/-- elts.rs:88-94 `var`. -/
def var (idx : Nat) (deg : Nat) : Term F :=
  if deg = 0 then one else monic (MDeg.var idx deg)

/-- elts.rs:102-115 `eval`.  Simplification: the panic message does not carry the formatted
arguments. -/
def eval (t : Term F) (x : List F) : Res F :=
  if x.length < t.mdeg.len then .panic (.explicit "incorrectly sized argument passed to term")
  else (t.mdeg.zip x).foldlM
    (fun acc (deg, val) => do let v ← RField.powi32 val (deg : Int); RField.mul acc v) t.coef

/-- elts.rs:117-119 `divides`. -/
def divides (t other : Term F) : Bool := !t.isZero && t.mdeg.isSucc other.mdeg

/-- elts.rs:121-134 `try_div`.  The coefficients are divided before the multidegrees. -/
def tryDiv (t other : Term F) : Res (Option (Term F)) :=
  if t.isZero then pure (some zero)
  else if other.isZero then pure none
  else do
    let c ← RField.div t.coef other.coef
    match t.mdeg.checkedSub other.mdeg with
    | none => pure none
    | some m => pure (some (newUnchecked c m))

/-- elts.rs:271-275 `PartialEq for Term`. -/
def eq (s t : Term F) : Bool := RField.beq s.coef t.coef && decide (s.mdeg = t.mdeg)

/-- elts.rs:364-379 `Neg for Term`. -/
def neg (t : Term F) : Res (Term F) := do
  let c ← RField.neg t.coef
  pure (newUnchecked c t.mdeg)

/-- elts.rs:447-458 `Mul for &Term`. -/
def mul (s t : Term F) : Res (Term F) :=
  if s.isZero || t.isZero then pure zero
  else do
    let c ← RField.mul s.coef t.coef
    let m ← MDeg.add (RField.build F) s.mdeg t.mdeg
    pure (newUnchecked c m)

end Term

namespace Poly

/-- elts.rs:142-144 `new_unchecked`. -/
def newUnchecked (terms : List (Term F)) : Poly F := terms

/-- elts.rs:154-156 `new`. -/
def new (terms : List (Term F)) : Poly F := newUnchecked (terms.filter fun t => !t.isZero)

/-- elts.rs:162-164 `zero` (and `Default`, 231). -/
def zero : Poly F := newUnchecked []

/-- elts.rs:168-170 `is_zero`. -/
def isZero (p : Poly F) : Bool := p.isEmpty

/-- elts.rs:176-178 `term_unchecked`. -/
def termUnchecked (t : Term F) : Poly F := newUnchecked [t]

/-- elts.rs:186-188 `constant_unchecked`. -/
def constantUnchecked (coef : F) : Poly F := termUnchecked (Term.constantUnchecked coef)

/-- elts.rs:190-192 `var`. -/
def var (idx : Nat) (deg : Nat) : Poly F := termUnchecked (Term.var idx deg)

/-- elts.rs:196-198 `one`. -/
def one : Poly F := termUnchecked Term.one

/-- elts.rs:223-225 `eval`. -/
def eval (p : Poly F) (x : List F) : Res F := RField.sum (p.map fun t => t.eval x)

/-- elts.rs:242-250 `From<F> for Polynomial<F>`. -/
def ofCoef (coef : F) : Poly F :=
  if RField.beq coef RField.zero then zero else constantUnchecked coef

/-- elts.rs:252-267 `From<Term<F>>` and `From<&Term<F>>` for `Polynomial<F>`. -/
def ofTerm (term : Term F) : Poly F :=
  if term.isZero then zero else termUnchecked term

/-- elts.rs:283-308 `Add for &Term`. -/
def termAddTerm (s t : Term F) : Res (Poly F) :=
  if s.isZero then pure (ofTerm t)
  else if t.isZero then pure (ofTerm s)
  else if s.mdeg = t.mdeg then do
    let coef ← RField.add s.coef t.coef
    pure (ofTerm (Term.new coef s.mdeg))
  else pure (newUnchecked [s, t])

/-- elts.rs:330-342: find the first term with `rhs`'s multidegree, add the coefficient in place and
remove the term if it became zero; push `rhs` if there is none.  Simplification: `position`
followed by the indexed update is written as one pass over the list. -/
def addNonzeroTerm : Poly F → Term F → Res (Poly F)
  | [], rhs => .ok [rhs]
  | t :: ts, rhs =>
    if t.mdeg = rhs.mdeg then do
      let c ← RField.add t.coef rhs.coef
      let t' : Term F := ⟨c, t.mdeg⟩
      if t'.isZero then pure ts else pure (t' :: ts)
    else do
      let ts' ← addNonzeroTerm ts rhs
      pure (t :: ts')

/-- elts.rs:310-347 `Add<&Term> for &Polynomial` (and, commuted, `Add<&Polynomial> for &Term`). -/
def addTerm (p : Poly F) (rhs : Term F) : Res (Poly F) :=
  if p.isZero then pure (ofTerm rhs)
  else if rhs.isZero then pure p
  else addNonzeroTerm p rhs

/-- elts.rs:349-360 `Add for &Polynomial`. -/
def add (p rhs : Poly F) : Res (Poly F) := rhs.foldlM addTerm p

/-- elts.rs:381-402 `Neg for &Polynomial` and `Neg for Polynomial`. -/
def neg (p : Poly F) : Res (Poly F) := p.mapM Term.neg

/-- elts.rs:406-413 `Sub for &Term`. -/
def termSubTerm (s t : Term F) : Res (Poly F) := do
  let t' ← t.neg
  termAddTerm s t'

/-- elts.rs:415-423 `Sub<&Polynomial> for &Term`. -/
def termSub (s : Term F) (rhs : Poly F) : Res (Poly F) := do
  let r ← neg rhs
  addTerm r s

/-- elts.rs:425-433 `Sub<&Term> for &Polynomial`. -/
def subTerm (p : Poly F) (rhs : Term F) : Res (Poly F) := do
  let t ← rhs.neg
  addTerm p t

/-- elts.rs:435-443 `Sub for &Polynomial`. -/
def sub (p rhs : Poly F) : Res (Poly F) := do
  let r ← neg rhs
  add p r

/-- elts.rs:470-486 `Mul<&Term> for &Polynomial` (and, commuted, `Mul<&Polynomial> for &Term`). -/
def mulTerm (p : Poly F) (rhs : Term F) : Res (Poly F) :=
  if rhs.isZero || p.isZero then pure zero
  else p.mapM fun t => t.mul rhs

/-- elts.rs:460-468 `Mul<F> for &Polynomial`. -/
def mulCoef (p : Poly F) (rhs : F) : Res (Poly F) := mulTerm p (Term.constantUnchecked rhs)

/-- elts.rs:488-499 `Mul for &Polynomial`: `map(|t| t * rhs).reduce(Add::add).unwrap_or_default()`,
where `t * rhs` is the commuted `rhs * t`. -/
def mul (p rhs : Poly F) : Res (Poly F) :=
  reduceM add zero (p.map fun t => mulTerm rhs t)

/-- elts.rs:503-512 `Div<F> for &Polynomial`. -/
def divCoef (p : Poly F) (rhs : F) : Res (Poly F) := do
  let c ← RField.inv rhs
  mulCoef p c

end Poly
end Verif
