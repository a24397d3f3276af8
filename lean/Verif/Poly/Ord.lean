import Verif.Poly.MDeg

/-! # Model of `src/poly/ord.rs`: monomial orders -/

namespace Verif

/-- ord.rs:10-12 `trait MonomialOrder`: a comparison function, no laws. -/
structure MOrder where
  cmp : MDeg → MDeg → Res Ordering

namespace MOrder

/-- ord.rs:22-45 `Lex::cmp`. -/
def lexCmp : MDeg → MDeg → Ordering
  | [], [] => .eq
  | [], _ :: _ => .lt
  | _ :: _, [] => .gt
  | a :: as, b :: bs =>
    match compare a b with
    | .eq => lexCmp as bs
    | o => o

/-- ord.rs:59-64, the loop of `RevLex::cmp` over the reversed zip. -/
def firstDiff : List (Nat × Nat) → Ordering
  | [] => .eq
  | (a, b) :: rest =>
    match compare a b with
    | .eq => firstDiff rest
    | o => o

/-- ord.rs:56-69 `RevLex::cmp`. -/
def revLexCmp (a b : MDeg) : Ordering :=
  match compare a.len b.len with
  | .eq => firstDiff (a.zip b).reverse
  | o => o

/-- ord.rs:80-82 `grad`. -/
def grad (bd : Build) (a b : MDeg) : Res Ordering := do
  let x ← a.totalDeg bd
  let y ← b.totalDeg bd
  pure (compare x y)

/-- ord.rs:19-46 `Lex`. -/
def lex : MOrder := ⟨fun a b => .ok (lexCmp a b)⟩

/-- ord.rs:53-70 `RevLex`. -/
def revLex : MOrder := ⟨fun a b => .ok (revLexCmp a b)⟩

/-- ord.rs:87-96 `GrLex`. -/
def grLex (bd : Build) : MOrder := ⟨fun a b => do
  match ← grad bd a b with
  | .eq => pure (lexCmp a b)
  | o => pure o⟩

/-- ord.rs:102-111 `GRevLex`. -/
def gRevLex (bd : Build) : MOrder := ⟨fun a b => do
  match ← grad bd a b with
  | .eq => pure (revLexCmp a b).swap
  | o => pure o⟩

end MOrder
end Verif
