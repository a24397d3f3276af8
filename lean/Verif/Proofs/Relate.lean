import Verif.Poly.Comp
import Verif.Props.Endless

/-!
# Runs on related multidegrees

`Res.Rel R x y`: `x` and `y` are both a value, with related values, or the same panic, or both run for ever.
If the operations on multidegrees respect a relation `R`, so does everything built from them.  Nothing is
assumed of the coefficients, which are the same on both sides.
-/

namespace Verif
open Res Computer

namespace Res
variable {α β γ δ : Type}

/-- The same outcome up to `R`. -/
def Rel (R : α → β → Prop) : Res α → Res β → Prop
  | .ok a, .ok b => R a b
  | .panic p, .panic q => p = q
  | .diverge, .diverge => True
  | _, _ => False

variable {R : α → β → Prop} {S : γ → δ → Prop}

theorem Rel.bind {x : Res α} {y : Res β} {f : α → Res γ} {g : β → Res δ} (h : Rel R x y)
    (hf : ∀ a b, R a b → Rel S (f a) (g b)) : Rel S (x >>= f) (y >>= g) := by
  cases x with
  | ok a => cases y with
    | ok b => exact hf a b h
    | panic q => exact h.elim
    | diverge => exact h.elim
  | panic p => cases y with
    | ok b => exact h.elim
    | panic q => exact h
    | diverge => exact h.elim
  | diverge => cases y with
    | ok b => exact h.elim
    | panic q => exact h.elim
    | diverge => trivial

theorem Rel.same {x : Res α} {f : α → Res γ} {g : α → Res δ} (hf : ∀ a, Rel S (f a) (g a)) :
    Rel S (x >>= f) (x >>= g) := by
  cases x with
  | ok a => exact hf a
  | panic p => exact (rfl : p = p)
  | diverge => trivial

theorem Rel.eq {x y : Res α} (h : Rel (· = ·) x y) : x = y := by
  cases x <;> cases y <;> first | exact h.elim | rfl | exact congrArg _ h

theorem Rel.of_eq {x y : Res α} (h : x = y) : Rel (· = ·) x y := by
  subst h
  cases x <;> first | rfl | trivial

theorem Rel.imp {R' : α → β → Prop} {x : Res α} {y : Res β} (h : Rel R x y) (hR : ∀ a b, R a b → R' a b) :
    Rel R' x y := by
  cases x <;> cases y <;> first | exact h.elim | exact h | exact hR _ _ h

theorem Rel.mapM {f : α → Res γ} {g : β → Res δ} {l : List α} {l' : List β} (hl : List.Forall₂ R l l')
    (hf : ∀ a b, R a b → Rel S (f a) (g b)) : Rel (List.Forall₂ S) (l.mapM f) (l'.mapM g) := by
  induction hl with
  | nil => exact List.Forall₂.nil
  | cons h _ ih =>
    rw [List.mapM_cons, List.mapM_cons]
    exact (hf _ _ h).bind fun c d hcd => ih.bind fun cs ds hcs => List.Forall₂.cons hcd hcs

theorem Rel.foldlM {f : γ → α → Res γ} {g : δ → β → Res δ} {l : List α} {l' : List β}
    (hl : List.Forall₂ R l l') (hf : ∀ c d a b, S c d → R a b → Rel S (f c a) (g d b)) {c : γ} {d : δ}
    (h : S c d) : Rel S (l.foldlM f c) (l'.foldlM g d) := by
  induction hl generalizing c d with
  | nil => exact h
  | cons h' _ ih =>
    rw [List.foldlM_cons, List.foldlM_cons]
    exact (hf _ _ _ _ h h').bind fun c d hcd => ih hcd

theorem Rel.reduceM {f : α → α → Res α} {g : β → β → Res β} {a : α} {b : β}
    (hf : ∀ a b a' b', R a b → R a' b' → Rel R (f a a') (g b b')) (h0 : R a b) {l : List (Res α)}
    {l' : List (Res β)} (hl : List.Forall₂ (Rel R) l l') : Rel R (reduceM f a l) (reduceM g b l') := by
  cases hl with
  | nil => exact h0
  | cons h hl =>
    refine h.bind fun a b hab => Rel.foldlM hl (fun c d x y hcd hxy => ?_) hab
    exact hxy.bind fun a' b' h => hf _ _ _ _ hcd h

theorem Rel.ite {c c' : Prop} [Decidable c] [Decidable c'] (hc : c ↔ c') {x x' : Res α} {y y' : Res β}
    (h1 : c → Rel R x y) (h2 : ¬ c → Rel R x' y') :
    Rel R (if c then x else x') (if c' then y else y') := by
  by_cases h : c
  · rw [if_pos h, if_pos (hc.mp h)]; exact h1 h
  · rw [if_neg h, if_neg (mt hc.mpr h)]; exact h2 h

/-- Related options. -/
def ORel (R : α → β → Prop) : Option α → Option β → Prop
  | none, none => True
  | some a, some b => R a b
  | _, _ => False

/-- Related states or results of a step. -/
def SRel (R : α → β → Prop) (S : γ → δ → Prop) : α ⊕ γ → β ⊕ δ → Prop
  | .inl a, .inl b => R a b
  | .inr c, .inr d => S c d
  | _, _ => False

theorem Rel.loop {step : α → Res (α ⊕ γ)} {step' : β → Res (β ⊕ δ)}
    (H : ∀ a b, R a b → Rel (SRel R S) (step a) (step' b)) {a : α} {b : β} (h : R a b) :
    Rel S (Res.loop step a) (Res.loop step' b) := by
  have hit : ∀ n a b, R a b → Rel S (iter step n a) (iter step' n b) := by
    intro n
    induction n with
    | zero => intro a b _; trivial
    | succ n ih =>
      intro a b h
      change Rel S (step a >>= fun x => _) (step' b >>= fun x => _)
      refine (H a b h).bind fun x y hxy => ?_
      rcases x with x | x <;> rcases y with y | y
      · exact ih _ _ hxy
      · exact hxy.elim
      · exact hxy.elim
      · exact hxy
  by_cases hd : Res.loop step a = .diverge
  · by_cases hd' : Res.loop step' b = .diverge
    · rw [hd, hd']; trivial
    · obtain ⟨n, hn⟩ := iter_of_loop_ne_diverge hd'
      have := hit n a b h
      rw [hn] at this
      have hne : iter step n a ≠ .diverge := fun h0 => by
        rw [h0] at this
        cases hl : Res.loop step' b with
        | ok r => rw [hl] at this; exact this
        | panic p => rw [hl] at this; exact this
        | diverge => exact hd' hl
      exact absurd ((loop_eq_of_iter rfl hne).symm.trans hd) hne
  · obtain ⟨n, hn⟩ := iter_of_loop_ne_diverge hd
    have := hit n a b h
    rw [hn] at this
    have hne : iter step' n b ≠ .diverge := fun h0 => by
      rw [h0] at this
      cases hl : Res.loop step a with
      | ok r => rw [hl] at this; exact this
      | panic p => rw [hl] at this; exact this
      | diverge => exact hd hl
    rwa [loop_eq_of_iter rfl hne]

end Res

/-! ### Terms and polynomials -/

variable {F : Type} [RField F]

/-- `R` is respected by the operations on multidegrees. -/
structure MDegRel (b : Build) (R : MDeg → MDeg → Prop) : Prop where
  zero : R MDeg.zero MDeg.zero
  inj : ∀ {m m' n n'}, R m m' → R n n' → (m = n ↔ m' = n')
  add : ∀ {m m' n n'}, R m m' → R n n' → Rel R (MDeg.add b m n) (MDeg.add b m' n')
  sub : ∀ {m m' n n'}, R m m' → R n n' → ORel R (MDeg.checkedSub m n) (MDeg.checkedSub m' n')
  succ : ∀ {m m' n n'}, R m m' → R n n' → MDeg.isSucc m n = MDeg.isSucc m' n'
  lcm : ∀ {m m' n n'}, R m m' → R n n' → R (lcmMDeg m n) (lcmMDeg m' n')

/-- The comparisons of related multidegrees agree. -/
def OrdRel (O O' : MOrder) (R : MDeg → MDeg → Prop) : Prop :=
  ∀ {m m' n n'}, R m m' → R n n' → O.cmp m n = O'.cmp m' n'

/-- The same coefficient and related multidegrees. -/
def TRel (R : MDeg → MDeg → Prop) (s t : Term F) : Prop := s.coef = t.coef ∧ R s.mdeg t.mdeg

/-- Related terms in the same places. -/
abbrev PRel (R : MDeg → MDeg → Prop) (p q : Poly F) : Prop := List.Forall₂ (TRel R) p q

/-- Related polynomials in the same places. -/
abbrev LRel (R : MDeg → MDeg → Prop) (p q : List (Poly F)) : Prop := List.Forall₂ (PRel R) p q

section
variable {R : MDeg → MDeg → Prop}

theorem TRel.isZero {s t : Term F} (h : TRel R s t) : s.isZero = t.isZero := by
  unfold Term.isZero; rw [h.1]

omit [RField F] in
theorem PRel.isZero {p q : Poly F} (h : PRel R p q) : Poly.isZero p = Poly.isZero q := by
  cases h <;> rfl

theorem PRel.ofTerm {s t : Term F} (h : TRel R s t) : PRel R (Poly.ofTerm s) (Poly.ofTerm t) := by
  unfold Poly.ofTerm
  rw [h.isZero]
  split
  · exact .nil
  · exact .cons h .nil

theorem Term.neg_rel {s t : Term F} (h : TRel R s t) : Rel (TRel R) s.neg t.neg := by
  unfold Term.neg
  rw [h.1]
  exact Rel.same fun c => ⟨rfl, h.2⟩

theorem Poly.neg_rel {p q : Poly F} (h : PRel R p q) : Rel (PRel R) (Poly.neg p) (Poly.neg q) :=
  Rel.mapM h fun _ _ => Term.neg_rel

variable (hm : MDegRel (RField.build F) R)
include hm

theorem TRel.zero : TRel R (Term.zero : Term F) Term.zero := ⟨rfl, hm.zero⟩

theorem Poly.addNonzeroTerm_rel {p q : Poly F} (h : PRel R p q) {s t : Term F} (hs : TRel R s t) :
    Rel (PRel R) (Poly.addNonzeroTerm p s) (Poly.addNonzeroTerm q t) := by
  induction h with
  | nil => exact .cons hs .nil
  | @cons a b as bs hab hl ih =>
    unfold Poly.addNonzeroTerm
    refine Rel.ite (hm.inj hab.2 hs.2) (fun _ => ?_) fun _ => ?_
    · rw [hab.1, hs.1]
      refine Rel.same fun c => ?_
      have h' : TRel R (⟨c, a.mdeg⟩ : Term F) ⟨c, b.mdeg⟩ := ⟨rfl, hab.2⟩
      dsimp only
      rw [h'.isZero]
      split
      · exact hl
      · exact .cons h' hl
    · exact ih.bind fun x y hxy => .cons hab hxy

theorem Poly.addTerm_rel {p q : Poly F} (h : PRel R p q) {s t : Term F} (hs : TRel R s t) :
    Rel (PRel R) (Poly.addTerm p s) (Poly.addTerm q t) := by
  unfold Poly.addTerm
  rw [h.isZero, hs.isZero]
  split
  · exact PRel.ofTerm hs
  · split
    · exact h
    · exact Poly.addNonzeroTerm_rel hm h hs

theorem Poly.add_rel {p q p' q' : Poly F} (h : PRel R p q) (h' : PRel R p' q') :
    Rel (PRel R) (Poly.add p p') (Poly.add q q') :=
  Rel.foldlM h' (fun _ _ _ _ hc ha => Poly.addTerm_rel hm hc ha) h

theorem Poly.sub_rel {p q p' q' : Poly F} (h : PRel R p q) (h' : PRel R p' q') :
    Rel (PRel R) (Poly.sub p p') (Poly.sub q q') :=
  (Poly.neg_rel h').bind fun _ _ hr => Poly.add_rel hm h hr

theorem Term.mul_rel {s t s' t' : Term F} (h : TRel R s t) (h' : TRel R s' t') :
    Rel (TRel R) (s.mul s') (t.mul t') := by
  unfold Term.mul
  rw [h.isZero, h'.isZero, h.1, h'.1]
  split
  · exact TRel.zero hm
  · exact Rel.same fun c => (hm.add h.2 h'.2).bind fun m n hmn => ⟨rfl, hmn⟩

theorem Poly.mulTerm_rel {p q : Poly F} (h : PRel R p q) {s t : Term F} (hs : TRel R s t) :
    Rel (PRel R) (Poly.mulTerm p s) (Poly.mulTerm q t) := by
  unfold Poly.mulTerm
  rw [h.isZero, hs.isZero]
  split
  · exact .nil
  · exact Rel.mapM h fun _ _ hab => Term.mul_rel hm hab hs

theorem Poly.mul_rel {p q p' q' : Poly F} (h : PRel R p q) (h' : PRel R p' q') :
    Rel (PRel R) (Poly.mul p p') (Poly.mul q q') := by
  refine Rel.reduceM (fun _ _ _ _ => Poly.add_rel hm) List.Forall₂.nil ?_
  rw [List.forall₂_map_left_iff, List.forall₂_map_right_iff]
  exact h.imp fun _ _ hab => Poly.mulTerm_rel hm h' hab

theorem Poly.divCoef_rel {p q : Poly F} (h : PRel R p q) (a : F) :
    Rel (PRel R) (Poly.divCoef p a) (Poly.divCoef q a) :=
  Rel.same fun _ => Poly.mulTerm_rel hm h ⟨rfl, hm.zero⟩

theorem Term.tryDiv_rel {s t s' t' : Term F} (h : TRel R s t) (h' : TRel R s' t') :
    Rel (ORel (TRel R)) (s.tryDiv s') (t.tryDiv t') := by
  unfold Term.tryDiv
  rw [h.isZero, h'.isZero, h.1, h'.1]
  split
  · exact TRel.zero hm
  · split
    · exact trivial
    · refine Rel.same fun c => ?_
      have := hm.sub h.2 h'.2
      revert this
      cases MDeg.checkedSub s.mdeg s'.mdeg <;> cases MDeg.checkedSub t.mdeg t'.mdeg <;> intro this
      · trivial
      · exact this.elim
      · exact this.elim
      · exact ⟨rfl, this⟩

theorem monicLcm_rel {s t s' t' : Term F} (h : TRel R s t) (h' : TRel R s' t') :
    TRel R (monicLcm s s') (monicLcm t t') := by
  unfold monicLcm
  rw [h.isZero, h'.isZero]
  split
  · exact TRel.zero hm
  · exact ⟨rfl, hm.lcm h.2 h'.2⟩

theorem Term.divides_rel {s t s' t' : Term F} (h : TRel R s t) (h' : TRel R s' t') :
    s.divides s' = t.divides t' := by
  unfold Term.divides
  rw [h.isZero, hm.succ h.2 h'.2]

end

/-! ### Leading terms and sorting -/

section
variable {α β : Type} {S : α → β → Prop} {cmp : α → α → Res Ordering} {cmp' : β → β → Res Ordering}
  (H : ∀ a b a' b', S a b → S a' b' → cmp a a' = cmp' b b')
include H

omit [RField F] in
theorem maxBy_rel {l : List α} {l' : List β} (hl : List.Forall₂ S l l') :
    Rel (ORel S) (maxBy cmp l) (maxBy cmp' l') := by
  cases hl with
  | nil => trivial
  | cons h hl =>
    dsimp only [maxBy]
    rw [← bind_pure_comp, ← bind_pure_comp]
    refine (Rel.foldlM (S := S) hl (fun c d a b hcd hab => ?_) h).bind fun a b hab => hab
    rw [H _ _ _ _ hcd hab]
    refine Rel.same fun o => ?_
    cases o
    · exact hab
    · exact hab
    · exact hcd

omit [RField F] in
theorem insertBy_rel {x : α} {y : β} (hx : S x y) {l : List α} {l' : List β} (hl : List.Forall₂ S l l') :
    Rel (List.Forall₂ S) (insertBy cmp x l) (insertBy cmp' y l') := by
  induction hl with
  | nil => exact .cons hx .nil
  | cons h hl ih =>
    unfold insertBy
    rw [H _ _ _ _ hx h]
    refine Rel.same fun o => ?_
    cases o
    · exact .cons hx (.cons h hl)
    · exact ih.bind fun a b hab => .cons h hab
    · exact ih.bind fun a b hab => .cons h hab

omit [RField F] in
theorem sortBy_rel {l : List α} {l' : List β} (hl : List.Forall₂ S l l') :
    Rel (List.Forall₂ S) (sortBy cmp l) (sortBy cmp' l') :=
  Rel.foldlM hl (fun _ _ _ _ hcd hab => insertBy_rel H hab hcd) .nil

end

section
variable {R : MDeg → MDeg → Prop} {O O' : MOrder} (ho : OrdRel O O' R)
include ho

omit [RField F] in
theorem leadingTerm_rel {f g : Poly F} (h : PRel R f g) :
    Rel (ORel (TRel R)) (leadingTerm O f) (leadingTerm O' g) :=
  maxBy_rel (fun _ _ _ _ h h' => ho h.2 h'.2) h

omit [RField F] in
theorem sortTerms_rel {f g : Poly F} (h : PRel R f g) :
    Rel (PRel R) (sortTerms O f) (sortTerms O' g) :=
  sortBy_rel (fun _ _ _ _ h h' => ho h.2 h'.2) h

omit [RField F] in
theorem leadingCoef_rel {f g : Poly F} (h : PRel R f g) : leadingCoef O f = leadingCoef O' g := by
  refine Rel.eq ((leadingTerm_rel ho h).bind fun a b hab => ?_)
  rcases a with _ | a <;> rcases b with _ | b
  · exact (rfl : none = none)
  · exact hab.elim
  · exact hab.elim
  · exact congrArg some hab.1

omit [RField F] in
theorem unwrapLeadingTerm_rel {f g : Poly F} (h : PRel R f g) :
    Rel (TRel R) (unwrapLeadingTerm O f) (unwrapLeadingTerm O' g) := by
  refine (leadingTerm_rel ho h).bind fun a b hab => ?_
  rcases a with _ | a <;> rcases b with _ | b
  · exact (rfl : Panic.unwrapNone = _)
  · exact hab.elim
  · exact hab.elim
  · exact hab

variable (hm : MDegRel (RField.build F) R)
include hm

theorem divideFor_rel {s t : Term F} (hs : TRel R s t) {f g : Poly F} (hf : PRel R f g)
    {l l' : List (Poly F × Poly F)} (hl : List.Forall₂ (fun x y => PRel R x.1 y.1 ∧ PRel R x.2 y.2) l l') :
    Rel (ORel fun x y => LRel R x.1 y.1 ∧ PRel R x.2 y.2) (divideFor O s f l) (divideFor O' t g l') := by
  induction hl with
  | nil => trivial
  | @cons x y rest rest' h hl ih =>
    obtain ⟨g₁, q₁⟩ := x
    obtain ⟨g₂, q₂⟩ := y
    unfold divideFor
    dsimp only
    have next : Rel (ORel fun x y => LRel R x.1 y.1 ∧ PRel R x.2 y.2)
        (divideFor O s f rest >>= fun o => match o with
          | none => pure none
          | some (qs, f') => pure (some (q₁ :: qs, f')))
        (divideFor O' t g rest' >>= fun o => match o with
          | none => pure none
          | some (qs, f') => pure (some (q₂ :: qs, f'))) := by
      refine ih.bind fun a b hab => ?_
      rcases a with _ | ⟨qs, f'⟩ <;> rcases b with _ | ⟨qs', g'⟩
      · trivial
      · exact hab.elim
      · exact hab.elim
      · exact ⟨.cons h.2 hab.1, hab.2⟩
    refine (leadingTerm_rel ho h.1).bind fun a b hab => ?_
    rcases a with _ | a <;> rcases b with _ | b
    · exact next
    · exact hab.elim
    · exact hab.elim
    · refine (Term.tryDiv_rel hm hs hab).bind fun a b hab => ?_
      rcases a with _ | a <;> rcases b with _ | b
      · exact next
      · exact hab.elim
      · exact hab.elim
      · refine (Poly.addTerm_rel hm h.2 hab).bind fun q q' hq => ?_
        refine (Poly.mulTerm_rel hm h.1 hab).bind fun u v huv => ?_
        refine (Poly.sub_rel hm hf huv).bind fun x y hxy => ?_
        refine ⟨.cons hq ?_, hxy⟩
        rw [List.forall₂_map_left_iff, List.forall₂_map_right_iff]
        exact hl.imp fun _ _ h => h.2

omit ho hm [RField F] in
theorem forall₂_zip {α β γ δ : Type} {S : α → β → Prop} {T : γ → δ → Prop} {l : List α} {l' : List β}
    {k : List γ} {k' : List δ} (hl : List.Forall₂ S l l') (hk : List.Forall₂ T k k') :
    List.Forall₂ (fun x y => S x.1 y.1 ∧ T x.2 y.2) (l.zip k) (l'.zip k') := by
  induction hl generalizing k k' with
  | nil => exact .nil
  | cons h _ ih =>
    cases hk with
    | nil => exact .nil
    | cons h' hk => exact .cons ⟨h, h'⟩ (ih hk)

omit ho hm [RField F] in
theorem forall₂_dropLast {α β : Type} {S : α → β → Prop} {l : List α} {l' : List β}
    (hl : List.Forall₂ S l l') :
    ORel S l.getLast? l'.getLast? ∧ List.Forall₂ S l.dropLast l'.dropLast := by
  induction hl with
  | nil => exact ⟨trivial, .nil⟩
  | cons h hl ih =>
    cases hl with
    | nil => exact ⟨h, .nil⟩
    | cons h' hl =>
      rw [List.getLast?_cons_cons, List.getLast?_cons_cons]
      exact ⟨ih.1, .cons h ih.2⟩

/-- Related states of `divide`. -/
def DRel (R : MDeg → MDeg → Prop) (s t : DivState F) : Prop :=
  PRel R s.f t.f ∧ LRel R s.quotients t.quotients ∧ PRel R s.remainder t.remainder

theorem divideStep_rel {divs divs' : List (Poly F)} (hd : LRel R divs divs') {s t : DivState F}
    (hs : DRel R s t) :
    Rel (SRel (DRel R) fun x y => PRel R x.1 y.1 ∧ LRel R x.2 y.2) (divideStep O divs s)
      (divideStep O' divs' t) := by
  unfold divideStep
  refine (leadingTerm_rel ho hs.1).bind fun a b hab => ?_
  rcases a with _ | a <;> rcases b with _ | b
  · exact ⟨hs.2.2, hs.2.1⟩
  · exact hab.elim
  · exact hab.elim
  · refine (divideFor_rel ho hm hab hs.1 (forall₂_zip hd hs.2.1)).bind fun x y hxy => ?_
    rcases x with _ | ⟨qs, f'⟩ <;> rcases y with _ | ⟨qs', g'⟩
    · refine (sortTerms_rel ho hs.1).bind fun u v huv => ?_
      have h := forall₂_dropLast huv
      revert h
      cases u.getLast? <;> cases v.getLast? <;> intro h
      · exact ⟨huv, hs.2.1, hs.2.2⟩
      · exact h.1.elim
      · exact h.1.elim
      · exact (Poly.addTerm_rel hm hs.2.2 h.1).bind fun r r' hr => ⟨h.2, hs.2.1, hr⟩
    · exact hxy.elim
    · exact hxy.elim
    · exact ⟨hxy.2, hxy.1, hs.2.2⟩

theorem divide_rel {f g : Poly F} (hf : PRel R f g) {divs divs' : List (Poly F)} (hd : LRel R divs divs') :
    Rel (fun x y => PRel R x.1 y.1 ∧ LRel R x.2 y.2) (divide O f divs) (divide O' g divs') := by
  refine Rel.loop (R := DRel R) (fun a b hab => divideStep_rel ho hm hd hab) ⟨hf, ?_, .nil⟩
  dsimp only
  rw [hd.length_eq]
  generalize divs'.length = n
  induction n with
  | zero => exact .nil
  | succ n ih => exact .cons .nil ih

theorem tryReduce_rel {f g f' g' : Poly F} (hf : PRel R f f') (hg : PRel R g g') :
    Rel (ORel (PRel R)) (tryReduce O f g) (tryReduce O' f' g') := by
  unfold tryReduce
  refine (leadingTerm_rel ho hf).bind fun a b hab => ?_
  rcases a with _ | a <;> rcases b with _ | b
  · trivial
  · exact hab.elim
  · exact hab.elim
  refine (leadingTerm_rel ho hg).bind fun c d hcd => ?_
  rcases c with _ | c <;> rcases d with _ | d
  · trivial
  · exact hcd.elim
  · exact hcd.elim
  have hl := monicLcm_rel hm hab hcd
  dsimp only
  refine (Term.tryDiv_rel hm hl hab).bind fun u v huv => ?_
  rcases u with _ | u <;> rcases v with _ | v
  · trivial
  · exact huv.elim
  · exact huv.elim
  refine (Poly.mulTerm_rel hm hf huv).bind fun x y hxy => ?_
  refine (Term.tryDiv_rel hm hl hcd).bind fun u v huv => ?_
  rcases u with _ | u <;> rcases v with _ | v
  · trivial
  · exact huv.elim
  · exact huv.elim
  refine (Poly.mulTerm_rel hm hg huv).bind fun x' y' hxy' => ?_
  exact (Poly.sub_rel hm hxy hxy').bind fun _ _ h => h

omit ho hm [RField F] in
theorem index_rel {α β : Type} {S : α → β → Prop} {l : List α} {l' : List β} (hl : List.Forall₂ S l l')
    (i : ℕ) : Rel S (index l i) (index l' i) := by
  unfold index
  induction hl generalizing i with
  | nil => exact (rfl : Panic.indexOutOfBounds = _)
  | cons h _ ih =>
    cases i with
    | zero => exact h
    | succ i => simpa using ih i

theorem criterionFor_rel {gens gens' : List (Poly F)} (hg : LRel R gens gens') (l : List (ℕ × ℕ)) :
    Rel (· = ·) (criterionFor O gens l) (criterionFor O' gens' l) := by
  induction l with
  | nil => exact (rfl : true = true)
  | cons x rest ih =>
    obtain ⟨i, j⟩ := x
    unfold criterionFor
    refine (index_rel hg i).bind fun a b hab => (index_rel hg j).bind fun c d hcd => ?_
    refine (tryReduce_rel ho hm hab hcd).bind fun u v huv => ?_
    rcases u with _ | u <;> rcases v with _ | v
    · exact (rfl : Panic.explicit _ = _)
    · exact huv.elim
    · exact huv.elim
    · refine (divide_rel ho hm huv hg).bind ?_
      rintro ⟨r, qs⟩ ⟨r', qs'⟩ ⟨hr, -⟩
      dsimp only at hr ⊢
      rw [hr.isZero]
      split
      · exact (rfl : false = false)
      · exact ih

theorem buchbergerCriterion_rel {gens gens' : List (Poly F)} (hg : LRel R gens gens') :
    buchbergerCriterion O gens = buchbergerCriterion O' gens' := by
  unfold buchbergerCriterion
  rw [hg.length_eq]
  exact (criterionFor_rel ho hm hg _).eq

theorem extendFor_rel {gens gens' : List (Poly F)} (hg : LRel R gens gens') (i : ℕ) (l : List ℕ) :
    Rel (ORel (PRel R)) (extendFor O gens i l) (extendFor O' gens' i l) := by
  induction l with
  | nil => trivial
  | cons j rest ih =>
    unfold extendFor
    refine (index_rel hg i).bind fun a b hab => (index_rel hg j).bind fun c d hcd => ?_
    refine (tryReduce_rel ho hm hab hcd).bind fun u v huv => ?_
    rcases u with _ | u <;> rcases v with _ | v
    · exact (rfl : Panic.unwrapNone = _)
    · exact huv.elim
    · exact huv.elim
    · refine (divide_rel ho hm huv hg).bind ?_
      rintro ⟨r, qs⟩ ⟨r', qs'⟩ ⟨hr, -⟩
      dsimp only at hr ⊢
      rw [leadingCoef_rel ho hr]
      refine Rel.same fun o => ?_
      rcases o with _ | lc
      · exact ih
      · exact (Poly.divCoef_rel hm hr lc).bind fun _ _ h => h

theorem buchbergerExtend_rel {gens gens' : List (Poly F)} (hg : LRel R gens gens') :
    Rel (LRel R) (buchbergerExtend O gens) (buchbergerExtend O' gens') := by
  refine Rel.loop (R := fun x y => LRel R x.1 y.1 ∧ x.2 = y.2) ?_ ⟨hg, rfl⟩
  rintro ⟨gens, i⟩ ⟨gens', i'⟩ ⟨hg, hi⟩
  dsimp only at hg hi
  subst hi
  unfold extendStep
  refine Rel.ite (by rw [hg.length_eq]) (fun _ => ?_) fun _ => hg
  refine (extendFor_rel ho hm hg i _).bind fun u v huv => ?_
  rcases u with _ | u <;> rcases v with _ | v
  · exact ⟨hg, rfl⟩
  · exact huv.elim
  · exact huv.elim
  · exact ⟨List.rel_append hg (.cons huv .nil), rfl⟩

theorem minimizeFor_rel {gens gens' : List (Poly F)} (hg : LRel R gens gens') (l : List (ℕ × ℕ)) :
    Rel (· = ·) (minimizeFor O gens l) (minimizeFor O' gens' l) := by
  induction l with
  | nil => exact (rfl : none = none)
  | cons x rest ih =>
    obtain ⟨i, j⟩ := x
    unfold minimizeFor
    refine (index_rel hg j).bind fun a b hab => (unwrapLeadingTerm_rel ho hab).bind fun s t hst => ?_
    refine (index_rel hg i).bind fun a b hab => (unwrapLeadingTerm_rel ho hab).bind fun s' t' hst' => ?_
    rw [Term.divides_rel hm hst hst']
    split
    · exact (rfl : some i = _)
    · exact ih

omit ho hm [RField F] in
theorem forall₂_eraseIdx {α β : Type} {S : α → β → Prop} {l : List α} {l' : List β}
    (hl : List.Forall₂ S l l') (i : ℕ) : List.Forall₂ S (l.eraseIdx i) (l'.eraseIdx i) := by
  induction hl generalizing i with
  | nil => exact .nil
  | cons h hl ih =>
    cases i with
    | zero => exact hl
    | succ i => exact .cons h (ih i)

theorem buchbergerMinimize_rel {gens gens' : List (Poly F)} (hg : LRel R gens gens') :
    Rel (LRel R) (buchbergerMinimize O gens) (buchbergerMinimize O' gens') := by
  refine Rel.loop (fun gens gens' hg => ?_) hg
  unfold minimizeStep
  rw [hg.length_eq]
  refine (minimizeFor_rel ho hm hg _).bind fun u v huv => ?_
  subst huv
  rcases u with _ | i
  · exact hg
  · exact forall₂_eraseIdx hg i

theorem reduceTerms_rel {g g' : Poly F} (hg : PRel R g g') {l l' : List (Term F)} (hl : PRel R l l') :
    Rel (· = ·) (reduceTerms O g l) (reduceTerms O' g' l') := by
  induction hl with
  | nil => exact (rfl : false = false)
  | cons h _ ih =>
    unfold reduceTerms
    refine (unwrapLeadingTerm_rel ho hg).bind fun s t hst => ?_
    rw [Term.divides_rel hm hst h]
    split
    · exact (rfl : true = true)
    · exact ih

theorem reduceFor_rel {gens gens' : List (Poly F)} (hg : LRel R gens gens') (l : List (ℕ × ℕ)) :
    Rel (· = ·) (reduceFor O gens l) (reduceFor O' gens' l) := by
  induction l with
  | nil => exact (rfl : none = none)
  | cons x rest ih =>
    obtain ⟨i, j⟩ := x
    unfold reduceFor
    refine (index_rel hg i).bind fun a b hab => (index_rel hg j).bind fun c d hcd => ?_
    refine (reduceTerms_rel ho hm hcd hab).bind fun u v huv => ?_
    subst huv
    split
    · exact (rfl : some i = _)
    · exact ih

theorem buchbergerReduce_rel {gens gens' : List (Poly F)} (hg : LRel R gens gens') :
    Rel (LRel R) (buchbergerReduce O gens) (buchbergerReduce O' gens') := by
  refine Rel.loop (fun gens gens' hg => ?_) hg
  unfold reduceStep
  rw [hg.length_eq]
  refine (reduceFor_rel ho hm hg _).bind fun u v huv => ?_
  subst huv
  rcases u with _ | i
  · exact hg
  · refine (index_rel hg i).bind fun a b hab => ?_
    refine (divide_rel ho hm hab (forall₂_eraseIdx hg i)).bind ?_
    rintro ⟨r, qs⟩ ⟨r', qs'⟩ ⟨hr, -⟩
    exact List.rel_append (forall₂_eraseIdx hg i) (.cons hr .nil)

theorem buchbergerAlgorithm_rel {gens gens' : List (Poly F)} (hg : LRel R gens gens') :
    Rel (LRel R) (buchbergerAlgorithm O gens) (buchbergerAlgorithm O' gens') :=
  (buchbergerExtend_rel ho hm hg).bind fun _ _ h => (buchbergerMinimize_rel ho hm h).bind
    fun _ _ h => buchbergerReduce_rel ho hm h

end
end Verif
