import Verif.Poly.Comp

/-! # Running the polynomial routines on concrete data

`Res.loop` is a least fixed point and does not compute.  `…N n` is the routine with every loop cut
off after `n` iterations; if it does not run out of iterations, it is the routine itself. -/

namespace Verif
open Res

/-- `x` is undefined, or equal to `y`. -/
def Approx {α : Type} (x y : Res α) : Prop := x = .diverge ∨ x = y

theorem Approx.rfl {α : Type} {x : Res α} : Approx x x := Or.inr (Eq.refl x)

theorem Approx.eq {α : Type} {x y : Res α} (h : Approx x y) {z : Res α} (hx : x = z)
    (hz : z ≠ .diverge) : y = z := by
  subst hx
  rcases h with h | h
  · exact absurd h hz
  · exact h.symm

theorem Approx.bind {α β : Type} {x y : Res α} {f g : α → Res β} (h : Approx x y)
    (hf : ∀ a, Approx (f a) (g a)) : Approx (x >>= f) (y >>= g) := by
  rcases h with h | h
  · rw [h]; exact Or.inl (Eq.refl _)
  · rw [h]
    cases y with
    | ok a => exact hf a
    | panic p => exact .rfl
    | diverge => exact .rfl

theorem approx_loop {S R : Type} {f g : S → Res (S ⊕ R)} (h : ∀ s, Approx (f s) (g s)) (n : ℕ)
    (s : S) : Approx (iter f n s) (loop g s) := by
  have key : ∀ n s, Approx (iter f n s) (iter g n s) := by
    intro n
    induction n with
    | zero => exact fun s => Or.inl (Eq.refl _)
    | succ n ih =>
      intro s
      rw [iter, iter]
      refine (h s).bind ?_
      rintro (s' | r)
      · exact ih s'
      · exact .rfl
  by_cases hd : iter g n s = .diverge
  · rcases key n s with h | h
    · exact Or.inl h
    · exact Or.inl (h.trans hd)
  · have := loop_eq_of_iter (n := n) (Eq.refl (iter g n s)) hd
    rw [this]; exact key n s

variable {F : Type} [RField F] {O : MOrder}

namespace Computer

def divideN (n : ℕ) (O : MOrder) (f : Poly F) (divs : List (Poly F)) :
    Res (Poly F × List (Poly F)) :=
  iter (divideStep O divs) n ⟨f, List.replicate divs.length Poly.zero, Poly.zero⟩

theorem divideN_approx (n : ℕ) (f : Poly F) (divs : List (Poly F)) :
    Approx (divideN n O f divs) (divide O f divs) := approx_loop (fun _ => .rfl) n _

def criterionForN (n : ℕ) (O : MOrder) (gens : List (Poly F)) : List (Nat × Nat) → Res Bool
  | [] => .ok true
  | (i, j) :: rest => do
    let gi ← index gens i
    let gj ← index gens j
    match ← tryReduce O gi gj with
    | some h => do
      let (r, _) ← divideN n O h gens
      if !r.isZero then pure false else criterionForN n O gens rest
    | none => .panic (.explicit shouldNotHappen)

def buchbergerCriterionN (n : ℕ) (O : MOrder) (gens : List (Poly F)) : Res Bool :=
  criterionForN n O gens (pairsIter gens.length)

theorem criterionForN_approx (n : ℕ) (gens : List (Poly F)) (L : List (ℕ × ℕ)) :
    Approx (criterionForN n O gens L) (criterionFor O gens L) := by
  induction L with
  | nil => exact .rfl
  | cons x rest ih =>
    rcases x with ⟨i, j⟩
    unfold criterionForN criterionFor
    refine Approx.rfl.bind fun gi => Approx.rfl.bind fun gj => Approx.rfl.bind fun o => ?_
    rcases o with _ | h
    · exact .rfl
    · refine (divideN_approx n h gens).bind ?_
      rintro ⟨r, qs⟩
      dsimp only
      split
      · exact .rfl
      · exact ih

theorem buchbergerCriterionN_approx (n : ℕ) (gens : List (Poly F)) :
    Approx (buchbergerCriterionN n O gens) (buchbergerCriterion O gens) :=
  criterionForN_approx n gens _

def extendForN (n : ℕ) (O : MOrder) (gens : List (Poly F)) (i : Nat) :
    List Nat → Res (Option (Poly F))
  | [] => .ok none
  | j :: rest => do
    let gi ← index gens i
    let gj ← index gens j
    match ← tryReduce O gi gj with
    | none => .panic .unwrapNone
    | some s => do
      let (r, _) ← divideN n O s gens
      match ← leadingCoef O r with
      | some lc => do
        let r' ← Poly.divCoef r lc
        pure (some r')
      | none => extendForN n O gens i rest

theorem extendForN_approx (n : ℕ) (gens : List (Poly F)) (i : ℕ) (L : List ℕ) :
    Approx (extendForN n O gens i L) (extendFor O gens i L) := by
  induction L with
  | nil => exact .rfl
  | cons j rest ih =>
    unfold extendForN extendFor
    refine Approx.rfl.bind fun gi => Approx.rfl.bind fun gj => Approx.rfl.bind fun o => ?_
    rcases o with _ | s
    · exact .rfl
    · refine (divideN_approx n s gens).bind ?_
      rintro ⟨r, qs⟩
      dsimp only
      refine Approx.rfl.bind fun o => ?_
      rcases o with _ | lc
      · exact ih
      · exact .rfl

def extendStepN (n : ℕ) (O : MOrder) (s : List (Poly F) × Nat) :
    Res ((List (Poly F) × Nat) ⊕ List (Poly F)) :=
  if s.2 < s.1.length then do
    match ← extendForN n O s.1 s.2 (List.range s.2) with
    | some r => pure (.inl (s.1 ++ [r], 0))
    | none => pure (.inl (s.1, s.2 + 1))
  else pure (.inr s.1)

theorem extendStepN_approx (n : ℕ) (s : List (Poly F) × Nat) :
    Approx (extendStepN n O s) (extendStep O s) := by
  unfold extendStepN extendStep
  split
  · refine (extendForN_approx n _ _ _).bind fun o => ?_
    rcases o with _ | r <;> exact .rfl
  · exact .rfl

def reduceStepN (n : ℕ) (O : MOrder) (gens : List (Poly F)) :
    Res (List (Poly F) ⊕ List (Poly F)) := do
  match ← reduceFor O gens (pairsIter gens.length) with
  | some i => do
    let g ← index gens i
    let others := gens.eraseIdx i
    let (gRem, _) ← divideN n O g others
    pure (.inl (others ++ [gRem]))
  | none => pure (.inr gens)

theorem reduceStepN_approx (n : ℕ) (gens : List (Poly F)) :
    Approx (reduceStepN n O gens) (reduceStep O gens) := by
  unfold reduceStepN reduceStep
  refine Approx.rfl.bind fun o => ?_
  rcases o with _ | i
  · exact .rfl
  · refine Approx.rfl.bind fun g => (divideN_approx n g _).bind ?_
    rintro ⟨r, qs⟩
    exact .rfl

def buchbergerAlgorithmN (n : ℕ) (O : MOrder) (gens : List (Poly F)) : Res (List (Poly F)) := do
  let g₁ ← iter (extendStepN n O) n (gens, 0)
  let g₂ ← iter (minimizeStep O) n g₁
  iter (reduceStepN n O) n g₂

/-- A run that ends within `n` iterations of each loop is a run of the routine. -/
theorem buchbergerAlgorithmN_approx (n : ℕ) (gens : List (Poly F)) :
    Approx (buchbergerAlgorithmN n O gens) (buchbergerAlgorithm O gens) := by
  unfold buchbergerAlgorithmN buchbergerAlgorithm
  refine (approx_loop (extendStepN_approx n) n _).bind fun g₁ => ?_
  refine (approx_loop (fun _ => .rfl) n _).bind fun g₂ => ?_
  exact approx_loop (reduceStepN_approx n) n _

end Computer
end Verif
