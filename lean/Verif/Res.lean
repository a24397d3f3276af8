import Mathlib.Data.List.Forall2

/-!
# Outcomes of a Rust call

A call of a Rust function either returns a value, panics, or runs forever.  `Res α` is the
type of these three outcomes; every modelled function that can panic or loop returns a `Res`.
`Build` is the compilation profile: arithmetic overflow panics in a debug build
(`overflow-checks = on`, the profile `cargo test` uses) and wraps around in a release build.
-/

namespace Verif

/-- Compilation profile.  `debug`: integer overflow panics.  `release`: it wraps around. -/
inductive Build where
  | debug
  | release
  deriving DecidableEq, Repr

/-- Reasons for which the modelled code can panic. -/
inductive Panic where
  /-- integer overflow of `i64` arithmetic -/
  | overflowI64
  /-- integer overflow of `u8` arithmetic (degrees) -/
  | overflowU8
  /-- integer overflow of `usize` arithmetic -/
  | overflowUsize
  /-- division or remainder by zero of a primitive integer -/
  | divByZero
  /-- slice or vector index out of bounds -/
  | indexOutOfBounds
  /-- `unwrap`/`expect` on `None` -/
  | unwrapNone
  /-- `chunks_exact_mut(0)` -/
  | zeroChunk
  /-- an explicit `panic!` in the source -/
  | explicit (msg : String)
  deriving DecidableEq, Repr

/-- Outcome of a call. -/
inductive Res (α : Type u) : Type u where
  /-- the call returns `a` -/
  | ok (a : α)
  /-- the call panics -/
  | panic (p : Panic)
  /-- the call does not terminate -/
  | diverge
  deriving DecidableEq, Repr

namespace Res

variable {α β γ : Type u}

/-- Sequencing: a panic or a divergence ends the computation. -/
def bind : Res α → (α → Res β) → Res β
  | ok a, f => f a
  | panic p, _ => panic p
  | diverge, _ => diverge

instance : Monad Res where
  pure := ok
  bind := bind

@[simp] theorem bind_ok (a : α) (f : α → Res β) : (Res.ok a >>= f) = f a := rfl
@[simp] theorem bind_panic (p : Panic) (f : α → Res β) : (Res.panic p >>= f) = Res.panic p := rfl
@[simp] theorem bind_diverge (f : α → Res β) : (Res.diverge >>= f) = Res.diverge := rfl
@[simp] theorem pure_eq (a : α) : (pure a : Res α) = Res.ok a := rfl

instance : LawfulMonad Res := LawfulMonad.mk'
  (id_map := by intro α x; cases x <;> rfl)
  (pure_bind := by intros; rfl)
  (bind_assoc := by intro α β γ x f g; cases x <;> rfl)

@[simp] theorem map_ok (f : α → β) (a : α) : f <$> (Res.ok a) = Res.ok (f a) := rfl
@[simp] theorem map_panic (f : α → β) (p : Panic) : f <$> (Res.panic p) = Res.panic p := rfl
@[simp] theorem map_diverge (f : α → β) : f <$> (Res.diverge) = Res.diverge := rfl

theorem bind_eq_ok {x : Res α} {f : α → Res β} {b : β} :
    (x >>= f) = Res.ok b ↔ ∃ a, x = Res.ok a ∧ f a = Res.ok b := by
  cases x <;> simp

/-! ### Loops

`loop step s` is `loop { match step(s) { Continue(s') => s = s', Break(r) => return r } }`.
It is a least fixed point, so a loop that never breaks is `diverge`. -/

open Lean.Order in
instance : Lean.Order.PartialOrder (Res α) :=
  inferInstanceAs (Lean.Order.PartialOrder (FlatOrder (Res.diverge)))

open Lean.Order in
instance : CCPO (Res α) := inferInstanceAs (CCPO (FlatOrder (Res.diverge)))

open Lean.Order in
instance : MonoBind Res where
  bind_mono_left h := by
    cases h
    · exact FlatOrder.rel.bot
    · exact FlatOrder.rel.refl
  bind_mono_right h := by
    cases ‹Res _›
    · exact h _
    · exact FlatOrder.rel.refl
    · exact FlatOrder.rel.refl

/-- A Rust `loop`/`while`: `inl s'` continues with state `s'`, `inr r` leaves the loop. -/
def loop {S R : Type u} (step : S → Res (S ⊕ R)) (s : S) : Res R := do
  match ← step s with
  | .inl s' => loop step s'
  | .inr r => pure r
partial_fixpoint

theorem loop_unfold {S R : Type u} (step : S → Res (S ⊕ R)) (s : S) :
    loop step s = step s >>= fun x => match x with
      | .inl s' => loop step s'
      | .inr r => Res.ok r := by
  rw [loop]; rfl

/-- At most `n` iterations of a loop, for computing concrete examples. -/
def iter {S R : Type u} (step : S → Res (S ⊕ R)) : Nat → S → Res R
  | 0, _ => diverge
  | n + 1, s => do
    match ← step s with
    | .inl s' => iter step n s'
    | .inr r => pure r

theorem loop_eq_of_iter {S R : Type u} {step : S → Res (S ⊕ R)} {n : Nat} {s : S} {x : Res R}
    (h : iter step n s = x) (hx : x ≠ diverge) : loop step s = x := by
  induction n generalizing s with
  | zero => exact absurd h.symm hx
  | succ n ih =>
    rw [loop_unfold]
    rw [iter] at h
    cases hs : step s with
    | ok y =>
      rw [hs] at h
      cases y with
      | inl s' => exact ih h
      | inr r => exact h
    | panic p => rw [hs] at h; exact h
    | diverge => rw [hs] at h; exact h

/-- A loop that returns does so after finitely many iterations. -/
theorem iter_of_loop_ne_diverge {S R : Type u} {step : S → Res (S ⊕ R)} {s : S}
    (hx : loop step s ≠ diverge) : ∃ n, iter step n s = loop step s := by
  have := loop.fixpoint_induct step
    (motive := fun f => ∀ s, f s ≠ diverge → ∃ n, iter step n s = f s)
  refine this ?_ ?_ s hx
  · exact Lean.Order.admissible_pi_apply
      (fun s (x : Res R) => x ≠ diverge → ∃ n, iter step n s = x)
      (fun s => Lean.Order.admissible_flatOrder _ (fun h => absurd rfl h))
  · intro f ih s hne
    dsimp only at hne ⊢
    cases hs : step s with
    | ok y =>
      rw [hs] at hne
      cases y with
      | inl s' =>
        obtain ⟨n, hn⟩ := ih s' hne
        exact ⟨n + 1, by rw [iter, hs]; exact hn⟩
      | inr r => exact ⟨1, by rw [iter, hs]; rfl⟩
    | panic p => exact ⟨1, by rw [iter, hs]; rfl⟩
    | diverge => rw [hs] at hne; exact absurd rfl hne

/-! ### Contracts -/

/-- `Spec E x P`: the call terminates; if it returns, the result satisfies `P`; if it panics,
the panic is one that `E` allows.  (So `Spec (fun _ => False) x P` is total correctness.) -/
def Spec (E : Panic → Prop) (x : Res α) (P : α → Prop) : Prop :=
  match x with
  | ok a => P a
  | panic p => E p
  | diverge => False

@[simp] theorem spec_ok {E : Panic → Prop} {a : α} {P : α → Prop} : Spec E (ok a) P ↔ P a := Iff.rfl
@[simp] theorem spec_pure {E : Panic → Prop} {a : α} {P : α → Prop} :
    Spec E (pure a) P ↔ P a := Iff.rfl
@[simp] theorem spec_panic {E : Panic → Prop} {p : Panic} {P : α → Prop} :
    Spec E (panic p) P ↔ E p := Iff.rfl
@[simp] theorem spec_diverge {E : Panic → Prop} {P : α → Prop} :
    Spec E (diverge) P ↔ False := Iff.rfl

theorem Spec.bind {E : Panic → Prop} {x : Res α} {f : α → Res β} {P : α → Prop} {Q : β → Prop}
    (hx : Spec E x P) (hf : ∀ a, P a → Spec E (f a) Q) : Spec E (x >>= f) Q := by
  cases x with
  | ok a => exact hf a hx
  | panic p => exact hx
  | diverge => exact hx

/-- As `Spec.bind`, remembering the equation. -/
theorem Spec.bind' {E : Panic → Prop} {x : Res α} {f : α → Res β} {P : α → Prop} {Q : β → Prop}
    (hx : Spec E x P) (hf : ∀ a, x = ok a → P a → Spec E (f a) Q) : Spec E (x >>= f) Q := by
  cases x with
  | ok a => exact hf a rfl hx
  | panic p => exact hx
  | diverge => exact hx

theorem Spec.imp {E : Panic → Prop} {x : Res α} {P Q : α → Prop}
    (hx : Spec E x P) (h : ∀ a, P a → Q a) : Spec E x Q := by
  cases x with
  | ok a => exact h a hx
  | panic p => exact hx
  | diverge => exact hx

theorem Spec.mono {E E' : Panic → Prop} {x : Res α} {P Q : α → Prop}
    (hx : Spec E x P) (hE : ∀ p, E p → E' p) (h : ∀ a, P a → Q a) : Spec E' x Q := by
  cases x with
  | ok a => exact h a hx
  | panic p => exact hE p hx
  | diverge => exact hx

theorem Spec.and {E : Panic → Prop} {x : Res α} {P Q : α → Prop}
    (h₁ : Spec E x P) (h₂ : Spec E x Q) : Spec E x (fun a => P a ∧ Q a) := by
  cases x with
  | ok a => exact ⟨h₁, h₂⟩
  | panic p => exact h₁
  | diverge => exact h₁

theorem Spec.of_ok {E : Panic → Prop} {x : Res α} {P : α → Prop} {a : α}
    (h : Spec E x P) (hx : x = ok a) : P a := by subst hx; exact h

theorem Spec.ne_diverge {E : Panic → Prop} {x : Res α} {P : α → Prop}
    (h : Spec E x P) : x ≠ diverge := by rintro rfl; exact h

/-- With no panic allowed, the call returns. -/
theorem Spec.total {x : Res α} {P : α → Prop} (h : Spec (fun _ => False) x P) :
    ∃ a, x = ok a ∧ P a := by
  cases x with
  | ok a => exact ⟨a, rfl, h⟩
  | panic p => exact h.elim
  | diverge => exact h.elim

theorem spec_iff {E : Panic → Prop} {x : Res α} {P : α → Prop} :
    Spec E x P ↔ x ≠ diverge ∧ (∀ a, x = ok a → P a) ∧ (∀ p, x = panic p → E p) := by
  cases x <;> simp [Spec]

/-- Total correctness of loops: an invariant and a well-founded measure. -/
theorem loop_spec {S R : Type u} {M : Type v} {E : Panic → Prop} {step : S → Res (S ⊕ R)}
    (lt : M → M → Prop) (wf : WellFounded lt) (Inv : S → Prop) (μ : S → M) (Post : R → Prop)
    (h : ∀ s, Inv s → Spec E (step s) (fun x => match x with
      | .inl s' => Inv s' ∧ lt (μ s') (μ s)
      | .inr r => Post r)) (s : S) (hs : Inv s) : Spec E (loop step s) Post := by
  generalize hm : μ s = k
  induction k using wf.induction generalizing s with
  | _ k ih =>
    rw [loop_unfold]
    refine (h s hs).bind ?_
    rintro (s' | r) hx
    · exact ih _ (hm ▸ hx.2) s' hx.1 rfl
    · exact hx

/-- `foldlM` with an invariant. -/
theorem foldlM_spec {E : Panic → Prop} {f : β → α → Res β} {l : List α} {b : β}
    (Inv : List α → β → Prop) (h0 : Inv [] b)
    (hstep : ∀ done a rest c, l = done ++ a :: rest → Inv done c →
      Spec E (f c a) (Inv (done ++ [a]))) : Spec E (l.foldlM f b) (Inv l) := by
  suffices H : ∀ rest done c, l = done ++ rest → Inv done c →
      Spec E (rest.foldlM f c) (Inv l) from H l [] b rfl h0
  intro rest
  induction rest with
  | nil => intro done c hl hi; simp at hl; subst hl; exact hi
  | cons a rest ih =>
    intro done c hl hi
    rw [List.foldlM_cons]
    refine (hstep done a rest c hl hi).bind ?_
    intro c' hc'
    exact ih (done ++ [a]) c' (by simp [hl]) hc'

/-- `mapM` elementwise. -/
theorem mapM_spec {E : Panic → Prop} {f : α → Res β} {l : List α} {P : α → β → Prop}
    (h : ∀ a ∈ l, Spec E (f a) (P a)) : Spec E (l.mapM f) (List.Forall₂ P l) := by
  induction l with
  | nil => simp
  | cons a l ih =>
    rw [List.mapM_cons]
    refine (h a (by simp)).bind ?_
    intro b hb
    refine (ih (fun a ha => h a (by simp [ha]))).bind ?_
    intro bs hbs
    exact List.Forall₂.cons hb hbs

/-! ### Refinement between build profiles -/

/-- `x ⊑ y`: if `x` returns a value then `y` returns the same value. -/
def Refines (x y : Res α) : Prop := ∀ a, x = ok a → y = ok a

theorem Refines.refl (x : Res α) : Refines x x := fun _ h => h

theorem Refines.bind {x y : Res α} {f g : α → Res β} (h : Refines x y)
    (hf : ∀ a, Refines (f a) (g a)) : Refines (x >>= f) (y >>= g) := by
  intro b hb
  obtain ⟨a, ha, hfa⟩ := bind_eq_ok.mp hb
  rw [h a ha]
  exact hf a b hfa

theorem Refines.map {x y : Res α} (f : α → β) (h : Refines x y) : Refines (f <$> x) (f <$> y) := by
  rw [← bind_pure_comp, ← bind_pure_comp]
  exact h.bind fun _ => Refines.refl _

theorem Refines.foldlM {f g : β → α → Res β} (h : ∀ b a, Refines (f b a) (g b a)) (l : List α) (b : β) :
    Refines (l.foldlM f b) (l.foldlM g b) := by
  induction l generalizing b with
  | nil => exact Refines.refl _
  | cons a l ih => rw [List.foldlM_cons, List.foldlM_cons]; exact (h b a).bind fun c => ih c

theorem Refines.mapM {f g : α → Res β} (h : ∀ a, Refines (f a) (g a)) (l : List α) :
    Refines (l.mapM f) (l.mapM g) := by
  induction l with
  | nil => simp [Refines.refl]
  | cons a l ih =>
    rw [List.mapM_cons, List.mapM_cons]
    exact (h a).bind fun c => ih.bind fun _ => Refines.refl _

theorem Refines.loop {S R : Type u} {f g : S → Res (S ⊕ R)} (h : ∀ s, Refines (f s) (g s)) (s : S) :
    Refines (Res.loop f s) (Res.loop g s) := by
  intro r hr
  obtain ⟨n, hn⟩ := iter_of_loop_ne_diverge (step := f) (s := s) (by rw [hr]; simp)
  rw [hr] at hn
  refine loop_eq_of_iter (n := n) ?_ (by simp)
  clear hr
  induction n generalizing s with
  | zero => simp [iter] at hn
  | succ n ih =>
    rw [iter] at hn ⊢
    obtain ⟨x, hx, hx'⟩ := bind_eq_ok.mp hn
    rw [h s x hx]
    cases x with
    | inl s' => exact ih s' hx'
    | inr r' => exact hx'

end Res

/-- `Iterator::reduce(f).unwrap_or(default)`.  The iterator is a list of suspended computations
(Rust iterators are lazy: an item is computed just before it is consumed). -/
def reduceM {α : Type} (f : α → α → Res α) (default : α) : List (Res α) → Res α
  | [] => pure default
  | x :: xs => do
    let x ← x
    xs.foldlM (fun acc y => do let y ← y; f acc y) x

theorem foldlM_strict {α : Type} {f : α → α → Res α} {l : List (Res α)} {x c : α}
    (h : l.foldlM (fun acc y => do let y ← y; f acc y) x = .ok c) : ∀ r ∈ l, ∃ a, r = .ok a := by
  induction l generalizing x with
  | nil => simp
  | cons r l ih =>
    rw [List.foldlM_cons] at h
    obtain ⟨a, ha, h'⟩ := Res.bind_eq_ok.mp h
    obtain ⟨y, hy, _⟩ := Res.bind_eq_ok.mp ha
    intro r' hr'
    rcases List.mem_cons.mp hr' with rfl | hr'
    · exact ⟨y, hy⟩
    · exact ih h' r' hr'

/-- A reduction that returns has computed every item. -/
theorem reduceM_strict {α : Type} {f : α → α → Res α} {d c : α} {l : List (Res α)}
    (h : reduceM f d l = .ok c) : ∀ r ∈ l, ∃ a, r = .ok a := by
  cases l with
  | nil => simp
  | cons r l =>
    obtain ⟨x, hx, h'⟩ := Res.bind_eq_ok.mp h
    intro r' hr'
    rcases List.mem_cons.mp hr' with rfl | hr'
    · exact ⟨x, hx⟩
    · exact foldlM_strict h' r' hr'

end Verif
