import Verif.Poly.Elts
import Verif.Poly.Ord

/-! # Model of `src/poly/comp.rs`: division and Gröbner bases -/

namespace Verif

/-- `Iterator::max_by`: keeps the earlier element only when it compares `Greater`; so the last
maximal element is returned. -/
def maxBy {α : Type} (cmp : α → α → Res Ordering) : List α → Res (Option α)
  | [] => .ok none
  | x :: xs => some <$> xs.foldlM
      (fun best y => do
        match ← cmp best y with
        | .gt => pure best
        | _ => pure y) x

/-- Insertion into a sorted list, after the elements that are not greater. -/
def insertBy {α : Type} (cmp : α → α → Res Ordering) (x : α) : List α → Res (List α)
  | [] => .ok [x]
  | y :: ys => do
    match ← cmp x y with
    | .lt => pure (x :: y :: ys)
    | _ => do
      let ys' ← insertBy cmp x ys
      pure (y :: ys')

/-- `slice::sort_by` / itertools' `sorted_by`: a stable sort.  Simplification: the standard
library's merge sort is modelled by insertion sort; for a total order both return the same list,
and (for the overflow panics of `total_deg`) both compare every element at least once when there
are at least two. -/
def sortBy {α : Type} (cmp : α → α → Res Ordering) (l : List α) : Res (List α) :=
  l.foldlM (fun acc x => insertBy cmp x acc) []

variable {F : Type} [RField F]

namespace Computer

/-- comp.rs:20-29 `sort_terms`. -/
def sortTerms (O : MOrder) (f : Poly F) : Res (Poly F) :=
  sortBy (fun s t => O.cmp s.mdeg t.mdeg) f

/-- comp.rs:36-38 `leading_term`. -/
def leadingTerm (O : MOrder) (f : Poly F) : Res (Option (Term F)) :=
  maxBy (fun s t => O.cmp s.mdeg t.mdeg) f

/-- comp.rs:43-45 `leading_coef`. -/
def leadingCoef (O : MOrder) (f : Poly F) : Res (Option F) := do
  let t ← leadingTerm O f
  pure (t.map (·.coef))

/-- comp.rs:74-89, the inner `for` loop of `divide` over `divs.iter().zip(quotients.iter_mut())`.
Returns `none` when no leading term divides `ltF` (the loop is exhausted), and otherwise the
updated quotients and the new `f`. -/
def divideFor (O : MOrder) (ltF : Term F) (f : Poly F) :
    List (Poly F × Poly F) → Res (Option (List (Poly F) × Poly F))
  | [] => .ok none
  | (g, q) :: rest => do
    let next : Res (Option (List (Poly F) × Poly F)) := do
      match ← divideFor O ltF f rest with
      | none => pure none
      | some (qs, f') => pure (some (q :: qs, f'))
    match ← leadingTerm O g with
    | none => next
    | some ltG =>
      match ← ltF.tryDiv ltG with
      | none => next
      | some a => do
        let q' ← Poly.addTerm q a
        let ag ← Poly.mulTerm g a
        let f' ← Poly.sub f ag
        pure (some (q' :: rest.map (·.2), f'))

/-- Loop state of `divide`: `f`, `quotients`, `remainder`. -/
structure DivState (F : Type) where
  f : Poly F
  quotients : List (Poly F)
  remainder : Poly F

/-- comp.rs:71-103, one iteration of the outer `while let` loop of `divide`. -/
def divideStep (O : MOrder) (divs : List (Poly F)) (s : DivState F) :
    Res (DivState F ⊕ (Poly F × List (Poly F))) := do
  match ← leadingTerm O s.f with
  | none => pure (.inr (s.remainder, s.quotients))
  | some ltF =>
    match ← divideFor O ltF s.f (divs.zip s.quotients) with
    | some (qs, f') => pure (.inl ⟨f', qs, s.remainder⟩)
    | none => do
      let sorted ← sortBy (fun s t => O.cmp s.mdeg t.mdeg) s.f
      match sorted.getLast? with
      | none => pure (.inl ⟨sorted, s.quotients, s.remainder⟩)
      | some lt => do
        let r ← Poly.addTerm s.remainder lt
        pure (.inl ⟨sorted.dropLast, s.quotients, r⟩)

/-- comp.rs:60-107 `divide`: returns `(remainder, quotients)`. -/
def divide (O : MOrder) (f : Poly F) (divs : List (Poly F)) : Res (Poly F × List (Poly F)) :=
  Res.loop (divideStep O divs) ⟨f, List.replicate divs.length Poly.zero, Poly.zero⟩

/-- comp.rs:129-139: entrywise maximum over `zip_longest`. -/
def lcmMDeg (a b : MDeg) : MDeg :=
  (zipLongest a b).map fun
    | .both a b => max a b
    | .left a => a
    | .right b => b

/-- comp.rs:118-140 `monic_lcm`. -/
def monicLcm (s t : Term F) : Term F :=
  if s.isZero || t.isZero then Term.zero
  else Term.monic (lcmMDeg s.mdeg t.mdeg)

/-- comp.rs:147-153 `try_reduce`. -/
def tryReduce (O : MOrder) (f g : Poly F) : Res (Option (Poly F)) := do
  match ← leadingTerm O f with
  | none => pure none
  | some ltF =>
    match ← leadingTerm O g with
    | none => pure none
    | some ltG =>
      let lcm := monicLcm ltF ltG
      match ← lcm.tryDiv ltF with
      | none => pure none
      | some a => do
        let af ← Poly.mulTerm f a
        match ← lcm.tryDiv ltG with
        | none => pure none
        | some b => do
          let bg ← Poly.mulTerm g b
          let s ← Poly.sub af bg
          pure (some s)

/-- The message of comp.rs:173 and 189. -/
def shouldNotHappen : String :=
  "should not happen. yeah i know, joseph, 'parse don't validate'"

/-- comp.rs:269-271 `pairs_iter` (also the iterator of comp.rs:163). -/
def pairsIter (n : Nat) : List (Nat × Nat) :=
  ((List.range n).flatMap fun i => (List.range n).map fun j => (i, j)).filter fun (i, j) => i != j

/-- `generators[i]`. -/
def index {α : Type} (l : List α) (i : Nat) : Res α :=
  match l[i]? with
  | some a => .ok a
  | none => .panic .indexOutOfBounds

/-- comp.rs:163-175, the loop of `buchberger_criterion`. -/
def criterionFor (O : MOrder) (gens : List (Poly F)) : List (Nat × Nat) → Res Bool
  | [] => .ok true
  | (i, j) :: rest => do
    let gi ← index gens i
    let gj ← index gens j
    match ← tryReduce O gi gj with
    | some h => do
      let (r, _) ← divide O h gens
      if !r.isZero then pure false else criterionFor O gens rest
    | none => .panic (.explicit shouldNotHappen)

/-- comp.rs:160-178 `buchberger_criterion`. -/
def buchbergerCriterion (O : MOrder) (gens : List (Poly F)) : Res Bool :=
  criterionFor O gens (pairsIter gens.length)

/-- comp.rs:185-205, the `for j in 0..i` loop of `buchberger_extend`: the first normalised nonzero
remainder, or `none`. -/
def extendFor (O : MOrder) (gens : List (Poly F)) (i : Nat) : List Nat → Res (Option (Poly F))
  | [] => .ok none
  | j :: rest => do
    let gi ← index gens i
    let gj ← index gens j
    match ← tryReduce O gi gj with
    | none => .panic .unwrapNone
    | some s => do
      let (r, _) ← divide O s gens
      match ← leadingCoef O r with
      | some lc => do
        let r' ← Poly.divCoef r lc
        pure (some r')
      | none => extendFor O gens i rest

/-- comp.rs:184-207, one iteration of `'outer` of `buchberger_extend`; state: generators and `i`. -/
def extendStep (O : MOrder) (s : List (Poly F) × Nat) :
    Res ((List (Poly F) × Nat) ⊕ List (Poly F)) :=
  if s.2 < s.1.length then do
    match ← extendFor O s.1 s.2 (List.range s.2) with
    | some r => pure (.inl (s.1 ++ [r], 0))
    | none => pure (.inl (s.1, s.2 + 1))
  else pure (.inr s.1)

/-- comp.rs:181-208 `buchberger_extend`. -/
def buchbergerExtend (O : MOrder) (gens : List (Poly F)) : Res (List (Poly F)) :=
  Res.loop (extendStep O) (gens, 0)

/-- `leading_term(..).unwrap()` -/
def unwrapLeadingTerm (O : MOrder) (g : Poly F) : Res (Term F) := do
  match ← leadingTerm O g with
  | some t => pure t
  | none => .panic .unwrapNone

/-- comp.rs:216-226, the `for` loop of `buchberger_minimize`: the first `i` to be removed. -/
def minimizeFor (O : MOrder) (gens : List (Poly F)) : List (Nat × Nat) → Res (Option Nat)
  | [] => .ok none
  | (i, j) :: rest => do
    let gj ← index gens j
    let ltJ ← unwrapLeadingTerm O gj
    let gi ← index gens i
    let ltI ← unwrapLeadingTerm O gi
    if ltJ.divides ltI then pure (some i) else minimizeFor O gens rest

/-- comp.rs:214-228, one iteration of `'outer` of `buchberger_minimize`. -/
def minimizeStep (O : MOrder) (gens : List (Poly F)) : Res (List (Poly F) ⊕ List (Poly F)) := do
  match ← minimizeFor O gens (pairsIter gens.length) with
  | some i => pure (.inl (gens.eraseIdx i))
  | none => pure (.inr gens)

/-- comp.rs:213-229 `buchberger_minimize`. -/
def buchbergerMinimize (O : MOrder) (gens : List (Poly F)) : Res (List (Poly F)) :=
  Res.loop (minimizeStep O) gens

/-- comp.rs:238-252, the loop over the terms of `generators[i]`; the leading term of
`generators[j]` is recomputed for every term, as in the source. -/
def reduceTerms (O : MOrder) (gj : Poly F) : List (Term F) → Res Bool
  | [] => .ok false
  | t :: ts => do
    let ltJ ← unwrapLeadingTerm O gj
    if ltJ.divides t then pure true else reduceTerms O gj ts

/-- comp.rs:237-253, the `for` loop of `buchberger_reduce`: the first `i` to be replaced. -/
def reduceFor (O : MOrder) (gens : List (Poly F)) : List (Nat × Nat) → Res (Option Nat)
  | [] => .ok none
  | (i, j) :: rest => do
    let gi ← index gens i
    let gj ← index gens j
    if ← reduceTerms O gj gi then pure (some i) else reduceFor O gens rest

/-- comp.rs:235-255, one iteration of `'outer` of `buchberger_reduce`.  Simplification: when
`generators[i]` has no terms the source never indexes `generators[j]`; both indices are in range
anyway. -/
def reduceStep (O : MOrder) (gens : List (Poly F)) : Res (List (Poly F) ⊕ List (Poly F)) := do
  match ← reduceFor O gens (pairsIter gens.length) with
  | some i => do
    let g ← index gens i
    let others := gens.eraseIdx i
    let (gRem, _) ← divide O g others
    pure (.inl (others ++ [gRem]))
  | none => pure (.inr gens)

/-- comp.rs:234-256 `buchberger_reduce`. -/
def buchbergerReduce (O : MOrder) (gens : List (Poly F)) : Res (List (Poly F)) :=
  Res.loop (reduceStep O) gens

/-- comp.rs:259-263 `buchberger_algorithm`: the new contents of `generators`. -/
def buchbergerAlgorithm (O : MOrder) (gens : List (Poly F)) : Res (List (Poly F)) := do
  let g₁ ← buchbergerExtend O gens
  let g₂ ← buchbergerMinimize O g₁
  buchbergerReduce O g₂

end Computer
end Verif
