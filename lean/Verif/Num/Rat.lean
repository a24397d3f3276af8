import Verif.Num.Int

/-!
# Model of `src/core/num/rat.rs` and the `Rational` parts of `src/core/num/traits.rs`
-/

namespace Verif

/-- rat.rs:11-15 `Rational`, with derived (structural) `PartialEq`/`Eq`. -/
structure Rational where
  numer : Int
  denom : Int
  deriving DecidableEq, Repr

namespace Rational

/-- traits.rs:42-46 `Rational::ZERO`. -/
def ZERO : Rational := ⟨0, 1⟩

/-- traits.rs:88-92 `Rational::ONE`. -/
def ONE : Rational := ⟨1, 1⟩

/-- rat.rs:22-24 `new_unchecked`. -/
def newUnchecked (numer denom : Int) : Rational := ⟨numer, denom⟩

/-- traits.rs:48-51 `Zero for Rational`: `is_zero`. -/
def isZero (x : Rational) : Bool := Integer.isZero x.numer

/-- traits.rs:94-102 `One for Rational`: `is_one`. -/
def isOne (x : Rational) : Bool := decide (x.numer = x.denom)

/-- rat.rs:26-34 `new`. -/
def new (b : Build) (numer denom : Int) : Res Rational :=
  if Integer.isZero denom then .panic (.explicit "denominator cannot be zero")
  else do
    let gcd ← Integer.gcd b numer denom
    let sn ← Integer.mul b (Integer.sgn denom) numer
    let n ← Integer.div sn gcd
    let ad ← Integer.abs b denom
    let d ← Integer.div ad gcd
    pure (newUnchecked n d)

/-- rat.rs:38-40 `new_i64`. -/
def newI64 (b : Build) (numer denom : Int) : Res Rational := new b numer denom

/-- rat.rs:44-46 `new_int` (and `From<Integer>`, rat.rs:71-76). -/
def newInt (int : Int) : Rational := newUnchecked int 1

/-- rat.rs:48-54 `pow`. -/
def pow (b : Build) (x : Rational) (exp : Int) : Res Rational :=
  if Integer.isNeg exp then do
    let e₁ ← Integer.neg b exp
    let n ← Integer.pow b x.denom e₁
    let e₂ ← Integer.neg b exp
    let d ← Integer.pow b x.numer e₂
    pure (newUnchecked n d)
  else do
    let n ← Integer.pow b x.numer exp
    let d ← Integer.pow b x.denom exp
    pure (newUnchecked n d)

/-- rat.rs:57-59 `powi` (the `i32` exponent is an `Int` here). -/
def powi (b : Build) (x : Rational) (exp : Int) : Res Rational := pow b x exp

/-- rat.rs:62-64 `sgn`. -/
def sgn (x : Rational) : Int := Integer.sgn x.numer

/-- rat.rs:66-68 `recip`. -/
def recip (b : Build) (x : Rational) : Res Rational := do
  let n ← Integer.mul b (sgn x) x.denom
  let d ← Integer.mul b (sgn x) x.numer
  pure (newUnchecked n d)

/-- rat.rs:78-90 `Add`. -/
def add (b : Build) (x y : Rational) : Res Rational := do
  let p ← Integer.mul b x.numer y.denom
  let q ← Integer.mul b y.numer x.denom
  let numer ← Integer.add b p q
  if Integer.isZero numer then pure ZERO
  else do
    let d ← Integer.mul b x.denom y.denom
    pure (newUnchecked numer d)

/-- rat.rs:98-110 `Sub`. -/
def sub (b : Build) (x y : Rational) : Res Rational := do
  let p ← Integer.mul b x.numer y.denom
  let q ← Integer.mul b y.numer x.denom
  let numer ← Integer.sub b p q
  if Integer.isZero numer then pure ZERO
  else do
    let d ← Integer.mul b x.denom y.denom
    pure (newUnchecked numer d)

/-- rat.rs:112-119 `Neg`. -/
def neg (b : Build) (x : Rational) : Res Rational := do
  let n ← Integer.neg b x.numer
  pure (newUnchecked n x.denom)

/-- rat.rs:121-127 `Mul`. -/
def mul (b : Build) (x y : Rational) : Res Rational := do
  let n ← Integer.mul b x.numer y.numer
  let d ← Integer.mul b x.denom y.denom
  new b n d

/-- rat.rs:135-141 `Div`. -/
def div (b : Build) (x y : Rational) : Res Rational := do
  let n ← Integer.mul b x.numer y.denom
  let d ← Integer.mul b x.denom y.numer
  new b n d

/-- rat.rs:92-96 `Sum`. -/
def sum (b : Build) (l : List (Res Rational)) : Res Rational := reduceM (add b) ZERO l

/-- rat.rs:129-133 `Product`. -/
def product (b : Build) (l : List (Res Rational)) : Res Rational := reduceM (mul b) ONE l

/-- traits.rs:233-237 `Ord for Rational`: `cmp` (and `partial_cmp`, 227-231, which is `Some` of it). -/
def cmp (b : Build) (x y : Rational) : Res Ordering := do
  let p ← Integer.mul b x.numer y.denom
  let q ← Integer.mul b y.numer x.denom
  pure (compare p q)

/-- traits.rs:227-231 `PartialOrd for Rational`. -/
def partialCmp (b : Build) (x y : Rational) : Res (Option Ordering) := some <$> cmp b x y

/-- traits.rs:214-225 `StabilityCmp for Rational`. -/
def stabilityCmp (b : Build) (x y : Rational) : Res (Option Ordering) :=
  if x = ZERO then pure (some .lt)
  else if y = ZERO then pure (some .gt)
  else do
    let yn ← Integer.abs b y.numer
    let yd ← Integer.abs b y.denom
    let l ← Integer.add b yn yd
    let xn ← Integer.abs b x.numer
    let xd ← Integer.abs b x.denom
    let r ← Integer.add b xn xd
    pure (some (compare l r))

/-- traits.rs:175-179 `EpsilonEquality for Rational`. -/
def epsilonEquals (x y : Rational) : Bool := decide (x = y)

end Rational
end Verif
