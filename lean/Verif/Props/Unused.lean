import Verif.Proofs.Relate
import Verif.Proofs.Run
import Verif.Props.F64Exact

/-!
# C201: divisors that are never used

A divisor whose leading term is a multiple of the leading term of an earlier divisor, and a zero divisor, get
the quotient zero, and can be left out.  This holds for every coefficient type, every monomial order (also
user-defined ones) and in both builds.
-/

namespace Verif
open Res Computer

/-- `x` panics as in `E`, or `x` and `y` have related outcomes: both return, both panic with the same panic, or
both run forever. -/
def Agree {α β : Type} (E : Panic → Prop) (R : α → β → Prop) (x : Res α) (y : Res β) : Prop :=
  (∃ p, E p ∧ x = .panic p) ∨ Rel R x y

namespace Agree
variable {α β γ δ : Type} {E : Panic → Prop} {R : α → β → Prop} {S : γ → δ → Prop}

theorem pure {a : α} {b : β} (h : R a b) : Agree E R (Pure.pure a : Res α) (Pure.pure b : Res β) := .inr h

theorem bind {x : Res α} {y : Res β} {f : α → Res γ} {g : β → Res δ} (h : Agree E R x y)
    (hf : ∀ a b, x = .ok a → y = .ok b → R a b → Agree E S (f a) (g b)) : Agree E S (x >>= f) (y >>= g) := by
  rcases h with ⟨p, hp, rfl⟩ | h
  · exact .inl ⟨p, hp, rfl⟩
  · cases x <;> cases y
    all_goals first | exact h.elim | skip
    · exact hf _ _ rfl rfl h
    · exact .inr h
    · exact .inr h

theorem same {x : Res α} {f : α → Res γ} {g : α → Res δ} (hf : ∀ a, x = .ok a → Agree E S (f a) (g a)) :
    Agree E S (x >>= f) (x >>= g) := by
  cases x with
  | ok a => exact hf a rfl
  | panic p => exact .inr (rfl : p = p)
  | diverge => exact .inr trivial

theorem loop {step : α → Res (α ⊕ γ)} {step' : β → Res (β ⊕ δ)}
    (H : ∀ a b, R a b → Agree E (SRel R S) (step a) (step' b)) {a : α} {b : β} (h : R a b) :
    Agree E S (Res.loop step a) (Res.loop step' b) := by
  have key : ∀ n a b, R a b → Agree E S (iter step n a) (iter step' n b) := by
    intro n
    induction n with
    | zero => intro a b _; exact .inr trivial
    | succ n ih =>
      intro a b h
      change Agree E S (step a >>= fun x => _) (step' b >>= fun x => _)
      refine (H a b h).bind fun x y _ _ hxy => ?_
      rcases x with x | x <;> rcases y with y | y
      · exact ih _ _ hxy
      · exact hxy.elim
      · exact hxy.elim
      · exact .inr hxy
  by_cases hx : Res.loop step a = .diverge
  · right
    by_cases hy : Res.loop step' b = .diverge
    · rw [hx, hy]; trivial
    · exfalso
      obtain ⟨n, hn⟩ := iter_of_loop_ne_diverge hy
      have : iter step n a ≠ .diverge := by
        intro e
        rcases key n a b h with ⟨p, -, e'⟩ | hr
        · rw [e] at e'; cases e'
        · rw [e] at hr
          rw [← hn] at hy
          revert hr hy
          cases iter step' n b
          · exact fun _ h => h
          · exact fun _ h => h
          · exact fun h _ => h rfl
      exact this ((loop_eq_of_iter rfl this).symm.trans hx)
  · obtain ⟨n, hn⟩ := iter_of_loop_ne_diverge hx
    rcases key n a b h with ⟨p, hp, e⟩ | hr
    · exact .inl ⟨p, hp, hn ▸ e⟩
    · right
      rw [← hn] at hx ⊢
      have hy : iter step' n b ≠ .diverge := by
        intro e
        rw [e] at hr
        revert hr hx
        cases iter step n a
        · exact fun _ h => h
        · exact fun _ h => h
        · exact fun h _ => h rfl
      rw [loop_eq_of_iter rfl hy]
      exact hr

end Agree

namespace MDeg

theorem checkedSubLoop_isSome (a b : MDeg) (z : ℕ) (degs : List ℕ) :
    (checkedSubLoop (zipLongest a b) z degs).isSome = b.isSucc a := by
  induction a generalizing b z degs with
  | nil =>
    cases b with
    | nil => rfl
    | cons y b => rfl
  | cons x a ih =>
    cases b with
    | nil =>
      have : ∀ (a : List ℕ) z degs, (checkedSubLoop (a.map .left) z degs).isSome = true := by
        intro a
        induction a with
        | nil => intro z degs; rfl
        | cons x a ih => intro z degs; exact ih _ _
      refine (?_ : _ = true).trans (?_ : true = _)
      · exact this (x :: a) z degs
      · rfl
    | cons y b =>
      have hs : isSucc (y :: b) (x :: a) = (decide (y ≤ x) && isSucc b a) := by
        unfold isSucc len
        rw [List.length_cons, List.length_cons, List.zip_cons_cons, List.all_cons]
        by_cases h : a.length < b.length
        · rw [if_pos (by omega), if_pos h, Bool.and_false]
        · rw [if_neg (by omega), if_neg h]
          congr 1
          exact (decide_not (p := y > x)).symm.trans (by simp)
      rw [hs]
      change (match compare x y with
        | .lt => none
        | .eq => checkedSubLoop (zipLongest a b) (z + 1) degs
        | .gt => checkedSubLoop (zipLongest a b) 0 (degs ++ List.replicate z 0 ++ [x - y])).isSome = _
      rcases lt_trichotomy x y with h | h | h
      · rw [Nat.compare_eq_lt.mpr h, decide_eq_false (by omega)]; rfl
      · rw [Nat.compare_eq_eq.mpr h, decide_eq_true (by omega), Bool.true_and]; exact ih ..
      · rw [Nat.compare_eq_gt.mpr h, decide_eq_true (by omega), Bool.true_and]; exact ih ..

/-- `checked_sub` succeeds exactly when `is_succ` holds, for all multidegrees. -/
theorem checkedSub_isSome (a b : MDeg) : (checkedSub a b).isSome = b.isSucc a := by
  unfold checkedSub isZero
  cases b with
  | nil =>
    rw [if_pos (show List.isEmpty ([] : List ℕ) = true from rfl)]
    unfold isSucc len
    simp
  | cons y b =>
    rw [if_neg (by simp)]
    cases a with
    | nil => rfl
    | cons x a =>
      rw [if_neg (by simp)]
      exact checkedSubLoop_isSome ..

theorem isSucc_trans {a b c : MDeg} (h : a.isSucc b = true) (h' : b.isSucc c = true) : a.isSucc c = true := by
  have key : ∀ a b : MDeg, a.isSucc b = true ↔ a.length ≤ b.length ∧ ∀ i (hi : i < a.length) (hi' : i < b.length),
      a[i] ≤ b[i] := by
    intro a b
    unfold isSucc len
    split
    · rename_i hl
      simp only [Bool.false_eq_true, false_iff, not_and]
      intro; omega
    · rename_i hl
      rw [List.all_eq_true]
      constructor
      · intro h
        refine ⟨by omega, fun i hi hi' => ?_⟩
        have := h (a[i], b[i]) (by
          rw [List.mem_iff_getElem]
          exact ⟨i, by simp; omega, by simp⟩)
        simpa using this
      · rintro ⟨-, h⟩ ⟨x, y⟩ hxy
        obtain ⟨i, hi, e⟩ := List.mem_iff_getElem.mp hxy
        rw [List.getElem_zip] at e
        cases e
        simpa using h i (by simp at hi; omega) (by simp at hi; omega)
  rw [key] at *
  exact ⟨h.1.trans h'.1, fun i hi hi' => (h.2 i hi (by omega)).trans (h'.2 i (by omega) hi')⟩

end MDeg

section
variable {F : Type} [RField F]

/-- The panics of dividing a coefficient by the leading coefficient of `h`. -/
def DivPanic (O : MOrder) (h : Poly F) (p : Panic) : Prop :=
  ∃ c x, leadingCoef O h = .ok (some c) ∧ RField.div x c = .panic p

/-- The lists differ by a zero polynomial at position `n`. -/
def Without (n : ℕ) (l l' : List (Poly F)) : Prop :=
  ∃ a b, l = a ++ Poly.zero :: b ∧ l' = a ++ b ∧ a.length = n

/-- `h` is of no use for `lt` after `l`. -/
def Useless (O : MOrder) (lt : Term F) (h : Poly F) (l : List (Poly F × Poly F)) : Prop :=
  leadingTerm O h = .ok none ∨ ∃ th, leadingTerm O h = .ok (some th) ∧ (∀ x, RField.div x th.coef ≠ .diverge) ∧
    ((lt.isZero = false ∧ th.mdeg.isSucc lt.mdeg = false) ∨
      ∃ g ∈ l, ∃ tg, leadingTerm O g.1 = .ok (some tg) ∧ tg.divides th = true)

theorem divideFor_useless {O : MOrder} {lt : Term F} {f h : Poly F} (l₁ l₂ : List (Poly F × Poly F))
    (hu : Useless O lt h l₁) :
    Agree (DivPanic O h) (ORel fun x y => Without l₁.length x.1 y.1 ∧ x.2 = y.2)
      (divideFor O lt f (l₁ ++ (h, Poly.zero) :: l₂)) (divideFor O lt f (l₁ ++ l₂)) := by
  induction l₁ with
  | nil =>
    rw [List.nil_append, List.nil_append, divideFor]
    have next : Agree (DivPanic O h) (ORel fun x y => Without 0 x.1 y.1 ∧ x.2 = y.2)
        (divideFor O lt f l₂ >>= fun o => match o with
          | none => pure none
          | some (qs, f') => pure (some (Poly.zero :: qs, f'))) (divideFor O lt f l₂) := by
      cases divideFor O lt f l₂ with
      | panic p => exact .inr (rfl : p = p)
      | diverge => exact .inr trivial
      | ok o =>
        rcases o with _ | ⟨qs, f'⟩
        · exact .inr trivial
        · exact .inr ⟨⟨[], qs, rfl, rfl, rfl⟩, rfl⟩
    rcases hu with hu | ⟨th, hth, hdiv, hu⟩
    · rw [hu, bind_ok]
      exact next
    · obtain ⟨h0, hs⟩ : lt.isZero = false ∧ th.mdeg.isSucc lt.mdeg = false := by
        rcases hu with hu | ⟨g, hg, -⟩
        · exact hu
        · cases hg
      rw [hth, bind_ok]
      dsimp only
      unfold Term.tryDiv
      rw [h0, if_neg (by simp)]
      split
      · exact next
      · cases hd : RField.div lt.coef th.coef with
        | diverge => exact absurd hd (hdiv _)
        | panic p =>
          refine .inl ⟨p, ⟨th.coef, lt.coef, ?_, hd⟩, rfl⟩
          unfold leadingCoef
          rw [hth]
          rfl
        | ok c =>
          have : lt.mdeg.checkedSub th.mdeg = none := by
            rw [← Option.not_isSome_iff_eq_none, MDeg.checkedSub_isSome, hs]
            simp
          rw [bind_ok, this]
          exact next
  | cons x l₁ ih =>
    obtain ⟨g, q⟩ := x
    rw [List.cons_append, List.cons_append, divideFor, divideFor]
    have next (hu' : Useless O lt h l₁) :
        Agree (DivPanic O h) (ORel fun x y => Without ((g, q) :: l₁).length x.1 y.1 ∧ x.2 = y.2)
        (divideFor O lt f (l₁ ++ (h, Poly.zero) :: l₂) >>= fun o => match o with
          | none => pure none
          | some (qs, f') => pure (some (q :: qs, f')))
        (divideFor O lt f (l₁ ++ l₂) >>= fun o => match o with
          | none => pure none
          | some (qs, f') => pure (some (q :: qs, f'))) := by
      refine (ih hu').bind fun a c _ _ hac => ?_
      rcases a with _ | ⟨qs, f'⟩ <;> rcases c with _ | ⟨qs', g'⟩
      · exact .inr trivial
      · exact hac.elim
      · exact hac.elim
      · obtain ⟨⟨a, b, h1, h2, h3⟩, h4⟩ := hac
        dsimp only at h1 h2 h4
        subst h1 h2 h4
        exact .inr ⟨⟨q :: a, b, rfl, rfl, by simp [h3]⟩, rfl⟩
    refine Agree.same fun o ho => ?_
    rcases o with _ | tg
    · refine next ?_
      rcases hu with hu | ⟨th, h1, hdiv, h2⟩
      · exact .inl hu
      · refine .inr ⟨th, h1, hdiv, ?_⟩
        rcases h2 with h2 | ⟨g', hg', tg', h3, h4⟩
        · exact .inl h2
        · rcases List.mem_cons.mp hg' with rfl | hg'
          · rw [ho] at h3; cases h3
          · exact .inr ⟨g', hg', tg', h3, h4⟩
    · refine Agree.same fun o ho' => ?_
      rcases o with _ | a
      · refine next ?_
        rcases hu with hu | ⟨th, h1, hdiv, h2⟩
        · exact .inl hu
        · refine .inr ⟨th, h1, hdiv, ?_⟩
          rcases h2 with h2 | ⟨g', hg', tg', h3, h4⟩
          · exact .inl h2
          · rcases List.mem_cons.mp hg' with rfl | hg'
            · left
              rw [ho] at h3
              cases h3
              unfold Term.divides at h4
              rw [Bool.and_eq_true] at h4
              unfold Term.tryDiv at ho'
              split at ho'
              · cases ho'
              · rename_i hz
                have hz : lt.isZero = false := by simpa using hz
                refine ⟨hz, ?_⟩
                rw [if_neg (by simpa using h4.1)] at ho'
                obtain ⟨c, hc, ho'⟩ := bind_eq_ok.mp ho'
                by_contra hs
                have := MDeg.isSucc_trans h4.2 (by simpa using hs)
                rw [← MDeg.checkedSub_isSome, Option.isSome_iff_exists] at this
                obtain ⟨m, hm⟩ := this
                rw [hm] at ho'
                cases ho'
            · exact .inr ⟨g', hg', tg', h3, h4⟩
      · refine Agree.same fun q' _ => Agree.same fun ag _ => Agree.same fun f' _ => ?_
        refine .inr ⟨⟨q' :: l₁.map (·.2), l₂.map (·.2), ?_, ?_, by simp⟩, rfl⟩
        · simp
        · simp

theorem divide_useless {O : MOrder} {f h : Poly F} (l₁ l₂ : List (Poly F))
    (hu : leadingTerm O h = .ok none ∨ ∃ th, leadingTerm O h = .ok (some th) ∧
      (∀ x, RField.div x th.coef ≠ .diverge) ∧
      ∃ g ∈ l₁, ∃ tg, leadingTerm O g = .ok (some tg) ∧ tg.divides th = true) :
    Agree (DivPanic O h) (fun x y => x.1 = y.1 ∧ Without l₁.length x.2 y.2)
      (divide O f (l₁ ++ h :: l₂)) (divide O f (l₁ ++ l₂)) := by
  refine Agree.loop (R := fun s t : DivState F => s.f = t.f ∧ s.remainder = t.remainder ∧
    Without l₁.length s.quotients t.quotients) ?_ ⟨rfl, rfl, ?_⟩
  · rintro ⟨f, qs, r⟩ ⟨f', qs', r'⟩ ⟨h1, h2, a, b, h3, h4, h5⟩
    dsimp only at h1 h2 h3 h4
    subst h1 h2 h3 h4
    unfold divideStep
    dsimp only
    refine Agree.same fun o _ => ?_
    rcases o with _ | lt
    · exact .inr ⟨rfl, a, b, rfl, rfl, h5⟩
    · dsimp only
      rw [List.zip_append h5.symm, List.zip_append h5.symm, List.zip_cons_cons]
      have hz : l₁.length = (l₁.zip a).length := by simp [h5]
      refine (divideFor_useless (l₁.zip a) (l₂.zip b) ?_).bind fun x y _ _ hxy => ?_
      · rcases hu with hu | ⟨th, h1, hdiv, g, hg, h2⟩
        · exact .inl hu
        · refine .inr ⟨th, h1, hdiv, .inr ?_⟩
          obtain ⟨i, hi, rfl⟩ := List.mem_iff_getElem.mp hg
          exact ⟨(l₁[i], a[i]), List.mem_iff_getElem.mpr ⟨i, by omega, by simp⟩, h2⟩
      · rcases x with _ | ⟨qs₁, f₁⟩ <;> rcases y with _ | ⟨qs₂, f₂⟩
        · refine Agree.same fun u _ => ?_
          cases u.getLast? with
          | none => exact .inr ⟨rfl, rfl, a, b, rfl, rfl, h5⟩
          | some lt => exact Agree.same fun r' _ => .inr ⟨rfl, rfl, a, b, rfl, rfl, h5⟩
        · exact hxy.elim
        · exact hxy.elim
        · exact .inr ⟨hxy.2, rfl, hz ▸ hxy.1⟩
  · refine ⟨List.replicate l₁.length Poly.zero, List.replicate l₂.length Poly.zero, ?_, ?_, by simp⟩
    · dsimp only
      rw [List.length_append, List.replicate_add, List.length_cons, List.replicate_succ]
    · dsimp only
      rw [List.length_append, List.replicate_add]

/-- C201. A zero polynomial among the divisors changes nothing: the same remainder, the same quotients with a zero
in its place, the same panics (and so the same runs that never end). -/
theorem C201_zero (O : MOrder) (f : Poly F) (l₁ l₂ : List (Poly F)) :
    (∀ r qs, divide O f (l₁ ++ Poly.zero :: l₂) = .ok (r, qs) ↔ ∃ a b, qs = a ++ Poly.zero :: b ∧
      a.length = l₁.length ∧ divide O f (l₁ ++ l₂) = .ok (r, a ++ b)) ∧
    (∀ p, divide O f (l₁ ++ Poly.zero :: l₂) = .panic p ↔ divide O f (l₁ ++ l₂) = .panic p) := by
  have h := divide_useless (O := O) (f := f) (h := Poly.zero) l₁ l₂ (.inl rfl)
  have h : Rel _ _ _ := h.resolve_left (by
    rintro ⟨p, ⟨c, x, hc, -⟩, -⟩
    have : (leadingCoef O (Poly.zero : Poly F)) = .ok none := rfl
    rw [this] at hc
    cases hc)
  constructor
  · intro r qs
    constructor
    · intro e
      rw [e] at h
      revert h
      cases divide O f (l₁ ++ l₂) with
      | ok y =>
        rintro ⟨h1, a, b, h2, h3, h4⟩
        exact ⟨a, b, h2, h4, by rw [← h3, show r = y.1 from h1]⟩
      | panic p => exact fun h => h.elim
      | diverge => exact fun h => h.elim
    · rintro ⟨a, b, rfl, h1, e⟩
      rw [e] at h
      revert h
      cases divide O f (l₁ ++ Poly.zero :: l₂) with
      | ok x =>
        rintro ⟨h2, a', b', h3, h4, h5⟩
        obtain ⟨ha, hb⟩ := List.append_inj h4 (by rw [h1, h5])
        obtain ⟨x₁, x₂⟩ := x
        dsimp only at h2 h3
        rw [h2, h3, ha, hb]
      | panic p => exact fun h => h.elim
      | diverge => exact fun h => h.elim
  · intro p
    revert h
    cases divide O f (l₁ ++ Poly.zero :: l₂) <;> cases divide O f (l₁ ++ l₂) <;> intro h
    all_goals first | exact h.elim | skip
    · simp
    · rw [show _ = _ from h]
    · simp

/-- C201. If the leading term of `h` is divisible by the leading term of an earlier divisor `g`, `h` is not used: its
quotient is zero and without `h` the remainder and the other quotients are the same.  Conversely, a division
that returns without `h` returns the same with `h`, or panics in dividing a coefficient by the leading
coefficient of `h`. -/
theorem C201_unused (O : MOrder) (f g h : Poly F) (tg th : Term F) (l₁ l₂ : List (Poly F)) (hg : g ∈ l₁)
    (htg : leadingTerm O g = .ok (some tg)) (hth : leadingTerm O h = .ok (some th)) (hd : tg.divides th = true)
    (hdiv : ∀ x, RField.div x th.coef ≠ .diverge) :
    (∀ r qs, divide O f (l₁ ++ h :: l₂) = .ok (r, qs) → ∃ a b, qs = a ++ Poly.zero :: b ∧
      a.length = l₁.length ∧ divide O f (l₁ ++ l₂) = .ok (r, a ++ b)) ∧
    (∀ r qs, divide O f (l₁ ++ l₂) = .ok (r, qs) → (∃ a b, qs = a ++ b ∧ a.length = l₁.length ∧
      divide O f (l₁ ++ h :: l₂) = .ok (r, a ++ Poly.zero :: b)) ∨
      ∃ p x, RField.div x th.coef = .panic p ∧ divide O f (l₁ ++ h :: l₂) = .panic p) := by
  have H := divide_useless (O := O) (f := f) (h := h) l₁ l₂ (.inr ⟨th, hth, hdiv, g, hg, tg, htg, hd⟩)
  constructor
  · intro r qs e
    rcases H with ⟨p, -, e'⟩ | H
    · rw [e] at e'; cases e'
    · rw [e] at H
      revert H
      cases divide O f (l₁ ++ l₂) with
      | ok y =>
        rintro ⟨h1, a, b, h2, h3, h4⟩
        exact ⟨a, b, h2, h4, by rw [← h3, show r = y.1 from h1]⟩
      | panic p => exact fun h => h.elim
      | diverge => exact fun h => h.elim
  · intro r qs e
    rcases H with ⟨p, ⟨c, x, hc, hx⟩, e'⟩ | H
    · refine .inr ⟨p, x, ?_, e'⟩
      unfold leadingCoef at hc
      rw [hth] at hc
      cases hc
      exact hx
    · left
      rw [e] at H
      revert H
      cases divide O f (l₁ ++ h :: l₂) with
      | ok x =>
        rintro ⟨h2, a, b, h3, h4, h5⟩
        obtain ⟨x₁, x₂⟩ := x
        dsimp only at h2 h3
        exact ⟨a, b, h4, h5, by rw [h2, h3]⟩
      | panic p => exact fun h => h.elim
      | diverge => exact fun h => h.elim

end

/-- C201. With rationals such a divisor can only make the run overflow: `C201_unused` applies to every list of
divisors, in both builds. -/
theorem C201_rational (b : Build) (x c : Rational) : letI := Rational.field b
    (RField.div x c : Res Rational) ≠ .diverge := by
  let _ := Rational.field b
  change Rational.div b x c ≠ .diverge
  have norm : ∀ z, Spec (fun _ => True) (I64.norm b z) fun _ => True := by
    intro z
    unfold I64.norm
    split
    · trivial
    · cases b <;> trivial
  have div : ∀ u v, Spec (fun _ => True) (Integer.div u v) fun _ => True := by
    intro u v
    unfold Integer.div
    split
    · trivial
    · split <;> trivial
  suffices h : Spec (fun _ => True) (Rational.div b x c) fun _ => True from h.ne_diverge
  unfold Rational.div
  refine (norm _).bind fun n _ => (norm _).bind fun d _ => ?_
  unfold Rational.new
  split
  · trivial
  · have hg : Spec (fun _ => True) (Integer.gcd b n d) fun _ => True :=
      ((Integer.gcdLoop_spec _ n d (by omega)).mono (fun _ _ => trivial) fun _ h => h).bind fun _ _ => norm _
    exact hg.bind fun _ _ => (norm _).bind fun _ _ => (div _ _).bind fun _ _ => (norm _).bind fun _ _ =>
      (div _ _).bind fun _ _ => trivial

/-- C201. With floats, leaving out such a divisor changes nothing at all. -/
theorem Flt.C201_float [Fmt] (b : Build) (powi : Flt → Int → Flt) (O : MOrder) (f g h : Poly Flt) (tg th : Term Flt)
    (l₁ l₂ : List (Poly Flt)) (hg : g ∈ l₁) : letI := field b powi
    leadingTerm O g = .ok (some tg) → leadingTerm O h = .ok (some th) → tg.divides th = true →
    ∀ r qs, divide O f (l₁ ++ h :: l₂) = .ok (r, qs) ↔ ∃ a b, qs = a ++ Poly.zero :: b ∧
      a.length = l₁.length ∧ divide O f (l₁ ++ l₂) = .ok (r, a ++ b) := by
  let _ := field b powi
  intro htg hth hd r qs
  have H := C201_unused O f g h tg th l₁ l₂ hg htg hth hd fun x => by
    change (Res.ok _ : Res Flt) ≠ _
    simp
  refine ⟨H.1 r qs, ?_⟩
  rintro ⟨a, b, rfl, h1, e⟩
  rcases H.2 r (a ++ b) e with ⟨a', b', h2, h3, h4⟩ | ⟨p, x, hp, -⟩
  · obtain ⟨rfl, rfl⟩ := List.append_inj h2 (by rw [h1, h3])
    exact h4
  · cases hp

/-- C201. The panic occurs: with the divisors `x` and `x/3` the division of `2^62 y` overflows, with `x` alone it
returns the remainder `2^62 y`. -/
theorem C201_overflow : letI := Rational.field .debug
    letI f : Poly Rational := [⟨⟨2 ^ 62, 1⟩, [0, 1]⟩]
    letI g : Poly Rational := [⟨⟨1, 1⟩, [1]⟩]
    letI h : Poly Rational := [⟨⟨1, 3⟩, [1]⟩]
    divide (OrdKind.order .debug .lex) f [g, h] = .panic .overflowI64 ∧
    divide (OrdKind.order .debug .lex) f [g] = .ok (f, [[]]) := by
  let _ := Rational.field .debug
  exact ⟨(divideN_approx 20 _ _).eq (by decide +kernel) (by simp),
    (divideN_approx 20 _ _).eq (by decide +kernel) (by simp)⟩

/-- The hypotheses are met, and the order of the divisors matters: `x y + 1` after `x` is not used, before `x` it
is. -/
example : letI := Rational.field .debug
    letI f : Poly Rational := [⟨⟨1, 1⟩, [2, 1]⟩]
    letI g : Poly Rational := [⟨⟨1, 1⟩, [1]⟩]
    letI h : Poly Rational := [⟨⟨1, 1⟩, [1, 1]⟩, ⟨⟨1, 1⟩, []⟩]
    letI O := OrdKind.order .debug .lex
    leadingTerm O g = .ok (some ⟨⟨1, 1⟩, [1]⟩) ∧ leadingTerm O h = .ok (some ⟨⟨1, 1⟩, [1, 1]⟩) ∧
    Term.divides (⟨⟨1, 1⟩, [1]⟩ : Term Rational) ⟨⟨1, 1⟩, [1, 1]⟩ = true ∧
    divide O f [g, h] = .ok ([], [[⟨⟨1, 1⟩, [1, 1]⟩], []]) ∧
    divide O f [h, g] = .ok ([], [[⟨⟨1, 1⟩, [1]⟩], [⟨⟨-1, 1⟩, []⟩]]) := by
  let _ := Rational.field .debug
  exact ⟨by decide, by decide, by decide, (divideN_approx 20 _ _).eq (by decide +kernel) (by simp),
    (divideN_approx 20 _ _).eq (by decide +kernel) (by simp)⟩

end Verif
