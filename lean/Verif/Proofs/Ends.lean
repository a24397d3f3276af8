import Verif.Props.Pure
import Verif.Props.DivideSorted

/-!
# Calls that end

Everything of `src/poly` that has no loop ends if the operations on the coefficients do.
-/

namespace Verif
open Res Computer

namespace Res
variable {α β : Type}

/-- The call ends, with a value or a panic. -/
def Ends (x : Res α) : Prop := x ≠ .diverge

theorem Ends.ok (a : α) : Ends (.ok a) := by rintro ⟨⟩

theorem Ends.pure (a : α) : Ends (Pure.pure a : Res α) := by rintro ⟨⟩

theorem Ends.panic (p : Panic) : Ends (.panic p : Res α) := by rintro ⟨⟩

theorem Ends.bind {x : Res α} {f : α → Res β} (hx : Ends x) (hf : ∀ a, x = .ok a → Ends (f a)) :
    Ends (x >>= f) := by
  cases x with
  | ok a => exact hf a rfl
  | panic p => exact Ends.panic p
  | diverge => exact absurd rfl hx

theorem Ends.map {x : Res α} (f : α → β) (hx : Ends x) : Ends (f <$> x) := by
  cases x with
  | ok a => exact Ends.ok _
  | panic p => exact Ends.panic p
  | diverge => exact absurd rfl hx

theorem Ends.foldlM {f : β → α → Res β} (h : ∀ b a, Ends (f b a)) (l : List α) (b : β) : Ends (l.foldlM f b) := by
  induction l generalizing b with
  | nil => exact Ends.ok _
  | cons a l ih => rw [List.foldlM_cons]; exact (h b a).bind fun b _ => ih b

theorem Ends.mapM {f : α → Res β} (h : ∀ a, Ends (f a)) (l : List α) : Ends (l.mapM f) := by
  induction l with
  | nil => rw [List.mapM_nil]; exact Ends.ok _
  | cons a l ih =>
    rw [List.mapM_cons]
    exact (h a).bind fun b _ => ih.bind fun bs _ => Ends.ok _

theorem Ends.spec {x : Res α} {P : α → Prop} (hx : Ends x) (h : ∀ a, x = .ok a → P a) :
    Spec (fun _ => True) x P := by
  rw [spec_iff]
  exact ⟨hx, h, fun _ _ => trivial⟩

theorem Spec.ends {E : Panic → Prop} {x : Res α} {P : α → Prop} (h : Spec E x P) : Ends x := h.ne_diverge

end Res

theorem U8.norm_ends (b : Build) (x : ℕ) : Ends (U8.norm b x) := by
  unfold U8.norm
  split
  · exact Ends.ok _
  · cases b
    · exact Ends.panic _
    · exact Ends.ok _

theorem MDeg.addLoop_ends (b : Build) (l : List (EitherOrBoth ℕ)) (z : ℕ) (ds : List ℕ) :
    Ends (MDeg.addLoop b l z ds) := by
  induction l generalizing z ds with
  | nil => exact Ends.ok _
  | cons x l ih =>
    unfold MDeg.addLoop
    split
    all_goals first | exact ih _ _ | exact (U8.norm_ends _ _).bind fun _ _ => ih _ _

theorem MDeg.add_ends (b : Build) (x y : MDeg) : Ends (MDeg.add b x y) := MDeg.addLoop_ends _ _ _ _

theorem MOrder.grad_ends (b : Build) (x y : MDeg) : Ends (MOrder.grad b x y) :=
  (Ends.foldlM (fun _ _ => U8.norm_ends _ _) _ _).bind fun _ _ =>
    (Ends.foldlM (fun _ _ => U8.norm_ends _ _) _ _).bind fun _ _ => Ends.pure _

theorem OrdKind.ends (b : Build) (k : OrdKind) (x y : MDeg) : Ends ((k.order b).cmp x y) := by
  cases k
  · exact Ends.ok _
  · exact Ends.ok _
  · refine (MOrder.grad_ends _ _ _).bind fun o _ => ?_
    cases o <;> exact Ends.pure _
  · refine (MOrder.grad_ends _ _ _).bind fun o _ => ?_
    cases o <;> exact Ends.pure _

theorem maxBy_ends {α : Type} {f : α → α → Res Ordering} (h : ∀ a b, Ends (f a b)) (l : List α) :
    Ends (maxBy f l) := by
  unfold maxBy
  cases l with
  | nil => exact Ends.ok _
  | cons a l =>
    refine (Ends.foldlM (fun b a => (h b a).bind fun o _ => ?_) _ _).map _
    cases o <;> exact Ends.pure _

theorem insertBy_ends {α : Type} {f : α → α → Res Ordering} (h : ∀ a b, Ends (f a b)) (a : α) (l : List α) :
    Ends (insertBy f a l) := by
  induction l with
  | nil => exact Ends.ok _
  | cons b l ih =>
    unfold insertBy
    refine (h a b).bind fun o _ => ?_
    cases o
    · exact Ends.pure _
    · exact ih.bind fun _ _ => Ends.pure _
    · exact ih.bind fun _ _ => Ends.pure _

theorem sortBy_ends {α : Type} {f : α → α → Res Ordering} (h : ∀ a b, Ends (f a b)) (l : List α) :
    Ends (sortBy f l) := Ends.foldlM (fun _ _ => insertBy_ends h _ _) _ _

variable {F : Type} [RField F]

/-- The operations on the coefficients end. -/
structure OpsEnd (F : Type) [RField F] : Prop where
  add : ∀ x y : F, Ends (RField.add x y)
  neg : ∀ x : F, Ends (RField.neg x)
  mul : ∀ x y : F, Ends (RField.mul x y)
  div : ∀ x y : F, Ends (RField.div x y)
  inv : ∀ x : F, Ends (RField.inv x)

namespace OpsEnd
variable (h : OpsEnd F)
include h

theorem addNonzeroTerm (p : Poly F) (t : Term F) : Ends (Poly.addNonzeroTerm p t) := by
  induction p with
  | nil => exact Ends.ok _
  | cons s p ih =>
    unfold Poly.addNonzeroTerm
    split
    · refine (h.add _ _).bind fun c _ => ?_
      dsimp only
      split <;> exact Ends.pure _
    · exact ih.bind fun _ _ => Ends.pure _

theorem addTerm (p : Poly F) (t : Term F) : Ends (Poly.addTerm p t) := by
  unfold Poly.addTerm
  split
  · exact Ends.pure _
  · split
    · exact Ends.pure _
    · exact h.addNonzeroTerm _ _

theorem sub (p q : Poly F) : Ends (Poly.sub p q) :=
  (Ends.mapM (fun _ => (h.neg _).bind fun _ _ => Ends.pure _) _).bind fun _ _ =>
    Ends.foldlM (fun _ _ => h.addTerm _ _) _ _

theorem mulTerm (p : Poly F) (t : Term F) : Ends (Poly.mulTerm p t) := by
  unfold Poly.mulTerm
  split
  · exact Ends.pure _
  · refine Ends.mapM (fun s => ?_) _
    unfold Term.mul
    split
    · exact Ends.pure _
    · exact (h.mul _ _).bind fun _ _ => (MDeg.add_ends _ _ _).bind fun _ _ => Ends.pure _

theorem divCoef (p : Poly F) (c : F) : Ends (Poly.divCoef p c) :=
  (h.inv _).bind fun _ _ => h.mulTerm _ _

theorem tryDiv (s t : Term F) : Ends (s.tryDiv t) := by
  unfold Term.tryDiv
  split
  · exact Ends.pure _
  · split
    · exact Ends.pure _
    · refine (h.div _ _).bind fun c _ => ?_
      split <;> exact Ends.pure _

variable {O : MOrder} (hO : ∀ x y, Ends (O.cmp x y))
include hO

omit h in
omit [RField F] in
theorem leadingTerm (p : Poly F) : Ends (leadingTerm O p) := maxBy_ends (fun _ _ => hO _ _) _

theorem divideFor (lt : Term F) (f : Poly F) (L : List (Poly F × Poly F)) : Ends (divideFor O lt f L) := by
  induction L with
  | nil => exact Ends.ok _
  | cons x L ih =>
    obtain ⟨g, q⟩ := x
    have next : ∀ c : Option (List (Poly F) × Poly F) → Res (Option (List (Poly F) × Poly F)),
        (∀ o, Ends (c o)) → Ends (Computer.divideFor O lt f L >>= c) := fun c hc => ih.bind fun o _ => hc o
    rw [Computer.divideFor]
    refine (leadingTerm hO g).bind fun o _ => ?_
    rcases o with _ | ltG
    · refine next _ fun o => ?_
      rcases o with _ | ⟨qs, f'⟩ <;> exact Ends.pure _
    · refine (h.tryDiv _ _).bind fun o _ => ?_
      rcases o with _ | a
      · refine next _ fun o => ?_
        rcases o with _ | ⟨qs, f'⟩ <;> exact Ends.pure _
      · exact (h.addTerm _ _).bind fun _ _ => (h.mulTerm _ _).bind fun _ _ => (h.sub _ _).bind fun _ _ =>
          Ends.pure _

theorem divideStep (divs : List (Poly F)) (s : DivState F) : Ends (divideStep O divs s) := by
  unfold Computer.divideStep
  refine (leadingTerm hO _).bind fun o _ => ?_
  rcases o with _ | ltF
  · exact Ends.pure _
  · refine (h.divideFor hO _ _ _).bind fun o _ => ?_
    rcases o with _ | ⟨qs, f'⟩
    · refine (sortBy_ends (fun _ _ => hO _ _) _).bind fun l _ => ?_
      split
      · exact Ends.pure _
      · exact (h.addTerm _ _).bind fun _ _ => Ends.pure _
    · exact Ends.pure _

theorem tryReduce (f g : Poly F) : Ends (tryReduce O f g) := by
  unfold Computer.tryReduce
  refine (leadingTerm hO _).bind fun o _ => ?_
  rcases o with _ | ltF
  · exact Ends.pure _
  refine (leadingTerm hO _).bind fun o _ => ?_
  rcases o with _ | ltG
  · exact Ends.pure _
  refine (h.tryDiv _ _).bind fun o _ => ?_
  rcases o with _ | a
  · exact Ends.pure _
  refine (h.mulTerm _ _).bind fun _ _ => (h.tryDiv _ _).bind fun o _ => ?_
  rcases o with _ | b
  · exact Ends.pure _
  exact (h.mulTerm _ _).bind fun _ _ => (h.sub _ _).bind fun _ _ => Ends.pure _

omit h in
omit [RField F] in
theorem leadingCoef (f : Poly F) : Ends (leadingCoef O f) := (leadingTerm hO f).bind fun _ _ => Ends.pure _

omit h in
omit [RField F] in
theorem unwrapLeadingTerm (f : Poly F) : Ends (unwrapLeadingTerm O f) := by
  refine (leadingTerm hO f).bind fun o _ => ?_
  rcases o with _ | t
  · exact Ends.panic _
  · exact Ends.pure _

omit h hO in
omit [RField F] in
theorem index {α : Type} (l : List α) (i : ℕ) : Ends (Computer.index l i) := by
  unfold Computer.index
  split
  · exact Ends.ok _
  · exact Ends.panic _

omit h in
theorem minimizeFor (gens : List (Poly F)) (L : List (ℕ × ℕ)) : Ends (minimizeFor O gens L) := by
  induction L with
  | nil => exact Ends.ok _
  | cons x L ih =>
    obtain ⟨i, j⟩ := x
    unfold Computer.minimizeFor
    refine (index _ _).bind fun _ _ => (unwrapLeadingTerm hO _).bind fun _ _ => (index _ _).bind fun _ _ =>
      (unwrapLeadingTerm hO _).bind fun _ _ => ?_
    split
    · exact Ends.pure _
    · exact ih

omit h in
theorem reduceTerms (g : Poly F) (l : List (Term F)) : Ends (reduceTerms O g l) := by
  induction l with
  | nil => exact Ends.ok _
  | cons t l ih =>
    unfold Computer.reduceTerms
    refine (unwrapLeadingTerm hO _).bind fun _ _ => ?_
    split
    · exact Ends.pure _
    · exact ih

omit h in
theorem reduceFor (gens : List (Poly F)) (L : List (ℕ × ℕ)) : Ends (reduceFor O gens L) := by
  induction L with
  | nil => exact Ends.ok _
  | cons x L ih =>
    obtain ⟨i, j⟩ := x
    unfold Computer.reduceFor
    refine (index _ _).bind fun _ _ => (index _ _).bind fun _ _ => (reduceTerms hO _ _).bind fun b _ => ?_
    split
    · exact Ends.pure _
    · exact ih

end OpsEnd
end Verif
