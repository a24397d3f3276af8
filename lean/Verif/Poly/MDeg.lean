import Verif.Res

/-!
# Model of `src/poly/mdeg.rs`: multidegrees

`MultiDegree(Vec<u8>)` (mdeg.rs:19-20, derived structural equality) is a list of naturals; every
`u8` addition passes through `U8.norm`.
-/

namespace Verif

/-- mdeg.rs:19-20 `MultiDegree`.  Simplification: degrees are naturals (below 256 in every
value the code builds; see `MDeg.Clean`). -/
abbrev MDeg := List Nat

/-- Result of a `u8` operation whose mathematical result is the natural `x`. -/
def U8.norm (b : Build) (x : Nat) : Res Nat :=
  if x < 256 then .ok x
  else match b with
    | .debug => .panic .overflowU8
    | .release => .ok (x % 256)

/-- `zip_longest` items: itertools' `EitherOrBoth`. -/
inductive EitherOrBoth (α : Type) where
  | both (a b : α)
  | left (a : α)
  | right (b : α)

/-- itertools' `zip_longest`. -/
def zipLongest {α : Type} : List α → List α → List (EitherOrBoth α)
  | [], bs => bs.map .right
  | as, [] => as.map .left
  | a :: as, b :: bs => .both a b :: zipLongest as bs

namespace MDeg

/-- `Iterator::rposition`: index of the last element satisfying `p`. -/
def rposition (p : Nat → Bool) : List Nat → Option Nat
  | [] => none
  | d :: ds =>
    match rposition p ds with
    | some i => some (i + 1)
    | none => if p d then some 0 else none

/-- mdeg.rs:56-58 `zero` (also `new`, 27-29, and `Default`, 172-177). -/
def zero : MDeg := []

/-- mdeg.rs:35-39 `trim_zeros`. -/
def trimZeros (m : MDeg) : MDeg :=
  match rposition (fun d => d != 0) m with
  | some idx => m.take (idx + 1)
  | none => m

/-- mdeg.rs:43-50 `from_vec`. -/
def fromVec (v : List Nat) : MDeg :=
  match rposition (fun d => d != 0) v with
  | some idx => v.take (idx + 1)
  | none => zero

/-- mdeg.rs:61-63 `is_zero`. -/
def isZero (m : MDeg) : Bool := m.isEmpty

/-- mdeg.rs:68-76 `var`. -/
def var (idx : Nat) (deg : Nat) : MDeg :=
  if deg = 0 then zero else List.replicate idx 0 ++ [deg]

/-- mdeg.rs:97-99 `total_deg`: `Iterator::sum` into `u8`. -/
def totalDeg (b : Build) (m : MDeg) : Res Nat := m.foldlM (fun acc d => U8.norm b (acc + d)) 0

/-- mdeg.rs:106-108 `len`. -/
def len (m : MDeg) : Nat := m.length

/-- mdeg.rs:110-122 `is_succ`. -/
def isSucc (m other : MDeg) : Bool :=
  if m.len > other.len then false
  else (m.zip other).all fun (a, b) => !decide (a > b)

/-- mdeg.rs:141-168, the loop of `checked_sub`, over the items of `zip_longest`; state: the zero
cache and the degrees pushed so far. -/
def checkedSubLoop : List (EitherOrBoth Nat) → Nat → List Nat → Option MDeg
  | [], _, degs => some degs
  | .both a b :: rest, zeroCache, degs =>
    match compare a b with
    | .lt => none
    | .eq => checkedSubLoop rest (zeroCache + 1) degs
    | .gt => checkedSubLoop rest 0 (degs ++ List.replicate zeroCache 0 ++ [a - b])
  | .left a :: rest, zeroCache, degs =>
    checkedSubLoop rest 0 (degs ++ List.replicate zeroCache 0 ++ [a])
  | .right _ :: _, _, _ => none

/-- mdeg.rs:126-169 `checked_sub`. -/
def checkedSub (m rhs : MDeg) : Option MDeg :=
  if rhs.isZero then some m
  else if m.isZero then none
  else checkedSubLoop (zipLongest m rhs) 0 []

/-- mdeg.rs:187-206, the loop of `Add`; state as in `checkedSubLoop`. -/
def addLoop (bd : Build) : List (EitherOrBoth Nat) → Nat → List Nat → Res MDeg
  | [], _, degs => .ok degs
  | pair :: rest, zeroCache, degs =>
    match pair with
    | .both 0 0 => addLoop bd rest (zeroCache + 1) degs
    | .left 0 => addLoop bd rest (zeroCache + 1) degs
    | .right 0 => addLoop bd rest (zeroCache + 1) degs
    | .both a b => do
      let c ← U8.norm bd (a + b)
      addLoop bd rest 0 (degs ++ List.replicate zeroCache 0 ++ [c])
    | .left a => addLoop bd rest 0 (degs ++ List.replicate zeroCache 0 ++ [a])
    | .right b => addLoop bd rest 0 (degs ++ List.replicate zeroCache 0 ++ [b])

/-- mdeg.rs:179-208 `Add` (the `#[binop(derefs)]` variants call this one). -/
def add (bd : Build) (m rhs : MDeg) : Res MDeg := addLoop bd (zipLongest m rhs) 0 []

end MDeg
end Verif
