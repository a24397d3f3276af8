import Verif.Proofs.Refine
import Verif.Proofs.Ord

/-!
# Runs that agree unless one of them stops

`Sim E x y` says that `x` and `y` are the same outcome (the same value, the same panic, or both run
for ever) unless `x` stops with a panic of `E`.  It is stronger than `Refines x y`, which says nothing
when `x` panics or runs for ever.  The lemmas run parallel to those of `Proofs/Refine.lean`.
-/

set_option linter.unusedSectionVars false

namespace Verif
open Res LinAlg

namespace Res
variable {α β : Type u} {E : Panic → Prop}

/-- The same outcome, unless the first one is a panic of `E`. -/
def Sim (E : Panic → Prop) (x y : Res α) : Prop := x = y ∨ ∃ p, x = .panic p ∧ E p

theorem Sim.refl (x : Res α) : Sim E x x := .inl rfl

theorem Sim.refines {x y : Res α} (h : Sim E x y) : Refines x y := by
  rintro a rfl
  rcases h with h | ⟨p, h, _⟩
  · exact h.symm
  · cases h

theorem Sim.mono {E' : Panic → Prop} (hE : ∀ p, E p → E' p) {x y : Res α} (h : Sim E x y) :
    Sim E' x y := h.imp_right fun ⟨p, hx, hp⟩ => ⟨p, hx, hE p hp⟩

theorem Sim.bind {x y : Res α} {f g : α → Res β} (h : Sim E x y)
    (hf : ∀ a, Sim E (f a) (g a)) : Sim E (x >>= f) (y >>= g) := by
  rcases h with rfl | ⟨p, rfl, hp⟩
  · cases x with
    | ok a => exact hf a
    | panic p => exact .inl rfl
    | diverge => exact .inl rfl
  · exact .inr ⟨p, rfl, hp⟩

theorem Sim.map {x y : Res α} (f : α → β) (h : Sim E x y) : Sim E (f <$> x) (f <$> y) := by
  rw [← bind_pure_comp, ← bind_pure_comp]
  exact h.bind fun _ => Sim.refl _

theorem Sim.foldlM {f g : β → α → Res β} (h : ∀ b a, Sim E (f b a) (g b a)) (l : List α) (b : β) :
    Sim E (l.foldlM f b) (l.foldlM g b) := by
  induction l generalizing b with
  | nil => exact Sim.refl _
  | cons a l ih => rw [List.foldlM_cons, List.foldlM_cons]; exact (h b a).bind fun c => ih c

theorem Sim.mapM {f g : α → Res β} (h : ∀ a, Sim E (f a) (g a)) (l : List α) :
    Sim E (l.mapM f) (l.mapM g) := by
  induction l with
  | nil => simp [Sim.refl]
  | cons a l ih =>
    rw [List.mapM_cons, List.mapM_cons]
    exact (h a).bind fun c => ih.bind fun _ => Sim.refl _

theorem Sim.iter {S R : Type u} {f g : S → Res (S ⊕ R)} (h : ∀ s, Sim E (f s) (g s)) (n : Nat)
    (s : S) : Sim E (Res.iter f n s) (Res.iter g n s) := by
  induction n generalizing s with
  | zero => exact Sim.refl _
  | succ n ih =>
    rw [Res.iter, Res.iter]
    refine (h s).bind fun x => ?_
    cases x with
    | inl s' => exact ih s'
    | inr r => exact Sim.refl _

theorem Sim.loop {S R : Type u} {f g : S → Res (S ⊕ R)} (h : ∀ s, Sim E (f s) (g s)) (s : S) :
    Sim E (Res.loop f s) (Res.loop g s) := by
  by_cases hd : Res.loop f s = .diverge
  · refine .inl ?_
    rw [hd]
    by_contra hg
    obtain ⟨n, hn⟩ := iter_of_loop_ne_diverge (step := g) (s := s) (fun e => hg e.symm)
    have hf : Res.iter f n s = .diverge := by
      by_contra hf
      exact hf ((loop_eq_of_iter (n := n) rfl hf).symm.trans hd)
    rcases Sim.iter h n s with e | ⟨p, e, _⟩
    · rw [hf, hn] at e
      exact hg e
    · rw [hf] at e
      cases e
  · obtain ⟨n, hn⟩ := iter_of_loop_ne_diverge (step := f) (s := s) hd
    rcases Sim.iter h n s with e | ⟨p, e, hp⟩
    · refine .inl (loop_eq_of_iter (n := n) ?_ hd).symm
      rw [← e, hn]
    · exact .inr ⟨p, by rw [← hn, e], hp⟩

end Res

variable {F : Type} {E : Panic → Prop}

/-- The build of the second run is that of the first, or the first checks for overflow and the panics
of these checks are among `E`. -/
def BuildSim (E : Panic → Prop) (b b' : Build) : Prop :=
  b' = b ∨ (b = .debug ∧ E .overflowU8 ∧ E .overflowUsize)

/-- Every operation of `d` has the outcome of that of `o`, unless it stops with a panic of `E`. -/
structure OpsSim (E : Panic → Prop) (d : RField F) (o : Ops F) : Prop where
  build : BuildSim E d.build o.build
  add : ∀ x y, Sim E (d.add x y) (o.add x y)
  sub : ∀ x y, Sim E (d.sub x y) (o.sub x y)
  neg : ∀ x, Sim E (d.neg x) (o.neg x)
  mul : ∀ x y, Sim E (d.mul x y) (o.mul x y)
  div : ∀ x y, Sim E (d.div x y) (o.div x y)
  inv : ∀ x, Sim E (d.inv x) (o.inv x)
  powi32 : ∀ x e, Sim E (d.powi32 x e) (o.powi32 x e)
  sum : ∀ l l', List.Forall₂ (Sim E) l l' → Sim E (d.sum l) (o.sum l')

/-- Extended below with one alternative for every lemma of this file. -/
syntax "slemma" : tactic

theorem Sim.ite' {α : Type} {c c' : Prop} {_ : Decidable c} {_ : Decidable c'} (hc : c = c')
    {a a' b b' : Res α} (h : Sim E a a') (h' : Sim E b b') :
    Sim E (if c then a else b) (if c' then a' else b') := by
  subst hc
  by_cases hc : c
  · rw [if_pos hc, if_pos hc]; exact h
  · rw [if_neg hc, if_neg hc]; exact h'

theorem Sim.allM {α : Type} {f g : α → Res Bool} (h : ∀ a, Sim E (f a) (g a)) (l : List α) :
    Sim E (l.allM f) (l.allM g) := by
  induction l with
  | nil => exact Sim.refl _
  | cons a l ih =>
    unfold List.allM
    refine (h a).bind fun b => ?_
    cases b
    · exact Sim.refl _
    · exact ih

theorem reduceM_sim' {α : Type} {f g : α → α → Res α}
    (h : ∀ x y, Sim E (f x y) (g x y)) (d : α) {l l' : List (Res α)}
    (hl : List.Forall₂ (Sim E) l l') : Sim E (reduceM f d l) (reduceM g d l') := by
  cases hl with
  | nil => exact Sim.refl _
  | @cons r r' l l' hr hl =>
    refine hr.bind fun a => ?_
    induction hl generalizing a with
    | nil => exact Sim.refl _
    | @cons r r' l l' hr hl ih =>
      rw [List.foldlM_cons, List.foldlM_cons]
      exact (hr.bind fun y => h _ _).bind fun c => ih c

theorem forall₂_map_sim {α β : Type} {f g : α → Res β} (h : ∀ a, Sim E (f a) (g a)) (l : List α) :
    List.Forall₂ (Sim E) (l.map f) (l.map g) := by
  induction l with
  | nil => exact .nil
  | cons a l ih => exact .cons (h a) ih

theorem U8.norm_sim {b b' : Build} (hb : BuildSim E b b') (x : Nat) :
    Sim E (U8.norm b x) (U8.norm b' x) := by
  rcases hb with rfl | ⟨rfl, h, _⟩
  · exact Sim.refl _
  · unfold U8.norm
    split
    · exact Sim.refl _
    · exact .inr ⟨_, rfl, h⟩

theorem Usize.norm_sim {b b' : Build} (hb : BuildSim E b b') (x : Nat) :
    Sim E (Usize.norm b x) (Usize.norm b' x) := by
  rcases hb with rfl | ⟨rfl, _, h⟩
  · exact Sim.refl _
  · unfold Usize.norm
    split
    · exact Sim.refl _
    · exact .inr ⟨_, rfl, h⟩

theorem Usize.sub_sim {b b' : Build} (hb : BuildSim E b b') (x y : Nat) :
    Sim E (Usize.sub b x y) (Usize.sub b' x y) := by
  rcases hb with rfl | ⟨rfl, _, h⟩
  · exact Sim.refl _
  · unfold Usize.sub
    split
    · exact Sim.refl _
    · exact .inr ⟨_, rfl, h⟩

theorem MDeg.totalDeg_sim {b b' : Build} (hb : BuildSim E b b') (m : MDeg) :
    Sim E (MDeg.totalDeg b m) (MDeg.totalDeg b' m) :=
  Sim.foldlM (fun _ _ => U8.norm_sim hb _) _ _

theorem MDeg.addLoop_sim {b b' : Build} (hb : BuildSim E b b') (l : List (EitherOrBoth Nat))
    (z : Nat) (ds : List Nat) : Sim E (MDeg.addLoop b l z ds) (MDeg.addLoop b' l z ds) := by
  induction l generalizing z ds with
  | nil => exact Sim.refl _
  | cons p l ih =>
    unfold MDeg.addLoop
    split
    · exact ih _ _
    · exact ih _ _
    · exact ih _ _
    · exact (U8.norm_sim hb _).bind fun _ => ih _ _
    · exact ih _ _
    · exact ih _ _

theorem MDeg.add_sim {b b' : Build} (hb : BuildSim E b b') (x y : MDeg) :
    Sim E (MDeg.add b x y) (MDeg.add b' x y) := MDeg.addLoop_sim hb _ _ _

/-- Every comparison of `O` has the outcome of that of `O'`, unless it stops with a panic of `E`. -/
def OrdSim (E : Panic → Prop) (O O' : MOrder) : Prop := ∀ a b, Sim E (O.cmp a b) (O'.cmp a b)

theorem MOrder.grad_sim {b b' : Build} (hb : BuildSim E b b') (x y : MDeg) :
    Sim E (MOrder.grad b x y) (MOrder.grad b' x y) :=
  (MDeg.totalDeg_sim hb x).bind fun _ => (MDeg.totalDeg_sim hb y).bind fun _ => Sim.refl _

theorem OrdSim.refl (O : MOrder) : OrdSim E O O := fun _ _ => Sim.refl _

theorem OrdKind.sim {b b' : Build} (hb : BuildSim E b b') (k : OrdKind) :
    OrdSim E (k.order b) (k.order b') := by
  cases k
  · exact OrdSim.refl _
  · exact OrdSim.refl _
  · exact fun _ _ => (MOrder.grad_sim hb _ _).bind fun _ => Sim.refl _
  · exact fun _ _ => (MOrder.grad_sim hb _ _).bind fun _ => Sim.refl _

theorem maxBy_sim {α : Type} {f g : α → α → Res Ordering}
    (h : ∀ x y, Sim E (f x y) (g x y)) (l : List α) : Sim E (maxBy f l) (maxBy g l) := by
  cases l with
  | nil => exact Sim.refl _
  | cons x xs =>
    exact (Sim.foldlM (fun _ _ => (h _ _).bind fun _ => Sim.refl _) _ _).map _

theorem insertBy_sim {α : Type} {f g : α → α → Res Ordering}
    (h : ∀ x y, Sim E (f x y) (g x y)) (x : α) (l : List α) :
    Sim E (insertBy f x l) (insertBy g x l) := by
  induction l with
  | nil => exact Sim.refl _
  | cons y ys ih =>
    refine (h x y).bind fun o => ?_
    cases o
    · exact Sim.refl _
    · exact ih.bind fun _ => Sim.refl _
    · exact ih.bind fun _ => Sim.refl _

theorem sortBy_sim {α : Type} {f g : α → α → Res Ordering}
    (h : ∀ x y, Sim E (f x y) (g x y)) (l : List α) : Sim E (sortBy f l) (sortBy g l) :=
  Sim.foldlM (fun _ _ => insertBy_sim h _ _) _ _

theorem getMaxIndex_sim {T : Type} {f g : T → T → Res (Option Ordering)}
    (h : ∀ x y, Sim E (f x y) (g x y)) (l : List T) :
    Sim E (getMaxIndex l f) (getMaxIndex l g) :=
  (maxBy_sim (fun _ _ => (h _ _).bind fun _ => Sim.refl _) _).bind fun _ => Sim.refl _

theorem numToSeq_sim {b b' : Build} (hb : BuildSim E b b') (n base : Nat) :
    Sim E (numToSeq b n base) (numToSeq b' n base) :=
  (Usize.norm_sim hb _).bind fun _ => Sim.refl _

theorem position_sim {α : Type} {f g : α → Res Bool} (h : ∀ x, Sim E (f x) (g x))
    (l : List α) : Sim E (Mat.position f l) (Mat.position g l) := by
  induction l with
  | nil => exact Sim.refl _
  | cons y ys ih =>
    refine (h y).bind fun o => ?_
    cases o
    · exact ih.bind fun _ => Sim.refl _
    · exact Sim.refl _

macro "sstep" : tactic => `(tactic| first
  | with_reducible exact Sim.refl _
  | with_reducible assumption
  | with_reducible slemma
  | with_reducible refine Sim.bind ?_ (fun _ => ?_)
  | with_reducible refine Sim.foldlM (fun _ _ => ?_) _ _
  | with_reducible refine Sim.mapM (fun _ => ?_) _
  | with_reducible refine Sim.allM (fun _ => ?_) _
  | with_reducible refine Sim.loop (fun _ => ?_) _
  | (refine Sim.ite' ?_ ?_ ?_; exact rfl)
  | split)

macro "sauto" : tactic => `(tactic| (rsimp; repeat' sstep))

section ops
variable {d : RField F} {o : Ops F} (h : OpsSim E d o)
include h

theorem sadd (x y : F) : Sim E (d.add x y) ((d.withOps o).add x y) := h.add x y
theorem ssub (x y : F) : Sim E (d.sub x y) ((d.withOps o).sub x y) := h.sub x y
theorem sneg (x : F) : Sim E (d.neg x) ((d.withOps o).neg x) := h.neg x
theorem smul (x y : F) : Sim E (d.mul x y) ((d.withOps o).mul x y) := h.mul x y
theorem sdiv (x y : F) : Sim E (d.div x y) ((d.withOps o).div x y) := h.div x y
theorem sinv (x : F) : Sim E (d.inv x) ((d.withOps o).inv x) := h.inv x
theorem spow (x : F) (e : Int) : Sim E (d.powi32 x e) ((d.withOps o).powi32 x e) := h.powi32 x e
theorem smdeg (x y : MDeg) :
    Sim E (MDeg.add d.build x y) (MDeg.add (d.withOps o).build x y) := MDeg.add_sim h.build _ _
theorem susub (x y : Nat) :
    Sim E (Usize.sub d.build x y) (Usize.sub (d.withOps o).build x y) := Usize.sub_sim h.build _ _
theorem suadd (x y : Nat) :
    Sim E (Usize.add d.build x y) (Usize.add (d.withOps o).build x y) := Usize.norm_sim h.build _
theorem sumul (x y : Nat) :
    Sim E (Usize.mul d.build x y) (Usize.mul (d.withOps o).build x y) := Usize.norm_sim h.build _
theorem supow (x y : Nat) :
    Sim E (Usize.pow d.build x y) (Usize.pow (d.withOps o).build x y) := Usize.norm_sim h.build _
theorem sseq (x y : Nat) :
    Sim E (numToSeq d.build x y) (numToSeq (d.withOps o).build x y) := numToSeq_sim h.build _ _

macro_rules | `(tactic| slemma) => `(tactic| (first
  | apply sadd | apply ssub | apply sneg | apply smul | apply sdiv | apply sinv | apply spow
  | apply smdeg | apply susub | apply suadd | apply sumul | apply supow | apply sseq) <;> assumption)

/-! ### Polynomials -/

theorem Term.eval_sim (t : Term F) (x : List F) :
    Sim E (@Term.eval F d t x) (@Term.eval F (d.withOps o) t x) := by
  unfold Term.eval; sauto

theorem Term.tryDiv_sim (s t : Term F) :
    Sim E (@Term.tryDiv F d s t) (@Term.tryDiv F (d.withOps o) s t) := by
  unfold Term.tryDiv; sauto

theorem Term.neg_sim (s : Term F) :
    Sim E (@Term.neg F d s) (@Term.neg F (d.withOps o) s) := by
  unfold Term.neg; sauto

theorem Term.mul_sim (s t : Term F) :
    Sim E (@Term.mul F d s t) (@Term.mul F (d.withOps o) s t) := by
  unfold Term.mul; sauto

theorem Poly.eval_sim (p : Poly F) (x : List F) :
    Sim E (@Poly.eval F d p x) (@Poly.eval F (d.withOps o) p x) :=
  h.sum _ _ (forall₂_map_sim (fun _ => Term.eval_sim h _ _) _)

theorem Poly.termAddTerm_sim (s t : Term F) :
    Sim E (@Poly.termAddTerm F d s t) (@Poly.termAddTerm F (d.withOps o) s t) := by
  unfold Poly.termAddTerm; sauto

theorem Poly.addNonzeroTerm_sim (p : Poly F) (t : Term F) :
    Sim E (@Poly.addNonzeroTerm F d p t) (@Poly.addNonzeroTerm F (d.withOps o) p t) := by
  induction p with
  | nil => exact Sim.refl _
  | cons s p ih => unfold Poly.addNonzeroTerm; sauto

macro_rules | `(tactic| slemma) => `(tactic| (first
  | apply Term.eval_sim | apply Term.tryDiv_sim | apply Term.neg_sim
  | apply Term.mul_sim | apply Poly.eval_sim | apply Poly.termAddTerm_sim
  | apply Poly.addNonzeroTerm_sim) <;> assumption)

theorem Poly.addTerm_sim (p : Poly F) (t : Term F) :
    Sim E (@Poly.addTerm F d p t) (@Poly.addTerm F (d.withOps o) p t) := by
  unfold Poly.addTerm; sauto

macro_rules | `(tactic| slemma) => `(tactic| apply Poly.addTerm_sim <;> assumption)

theorem Poly.add_sim (p q : Poly F) :
    Sim E (@Poly.add F d p q) (@Poly.add F (d.withOps o) p q) := by
  unfold Poly.add; sauto

theorem Poly.neg_sim (p : Poly F) :
    Sim E (@Poly.neg F d p) (@Poly.neg F (d.withOps o) p) := by
  unfold Poly.neg; sauto

theorem Poly.termSubTerm_sim (s t : Term F) :
    Sim E (@Poly.termSubTerm F d s t) (@Poly.termSubTerm F (d.withOps o) s t) := by
  unfold Poly.termSubTerm; sauto

macro_rules | `(tactic| slemma) => `(tactic| (first
  | apply Poly.add_sim | apply Poly.neg_sim) <;> assumption)

theorem Poly.termSub_sim (s : Term F) (q : Poly F) :
    Sim E (@Poly.termSub F d s q) (@Poly.termSub F (d.withOps o) s q) := by
  unfold Poly.termSub; sauto

theorem Poly.subTerm_sim (p : Poly F) (t : Term F) :
    Sim E (@Poly.subTerm F d p t) (@Poly.subTerm F (d.withOps o) p t) := by
  unfold Poly.subTerm; sauto

theorem Poly.sub_sim (p q : Poly F) :
    Sim E (@Poly.sub F d p q) (@Poly.sub F (d.withOps o) p q) := by
  unfold Poly.sub; sauto

theorem Poly.mulTerm_sim (p : Poly F) (t : Term F) :
    Sim E (@Poly.mulTerm F d p t) (@Poly.mulTerm F (d.withOps o) p t) := by
  unfold Poly.mulTerm; sauto

theorem Poly.mulCoef_sim (p : Poly F) (c : F) :
    Sim E (@Poly.mulCoef F d p c) (@Poly.mulCoef F (d.withOps o) p c) :=
  Poly.mulTerm_sim h _ _

theorem Poly.mul_sim (p q : Poly F) :
    Sim E (@Poly.mul F d p q) (@Poly.mul F (d.withOps o) p q) :=
  reduceM_sim' (fun _ _ => Poly.add_sim h _ _) _
    (forall₂_map_sim (fun _ => Poly.mulTerm_sim h _ _) _)

theorem Poly.divCoef_sim (p : Poly F) (c : F) :
    Sim E (@Poly.divCoef F d p c) (@Poly.divCoef F (d.withOps o) p c) :=
  (sinv h c).bind fun _ => Poly.mulCoef_sim h _ _

macro_rules | `(tactic| slemma) => `(tactic| (first
  | apply Poly.sub_sim | apply Poly.mulTerm_sim | apply Poly.mul_sim
  | apply Poly.divCoef_sim) <;> assumption)

/-! ### Division and Gröbner bases -/

section comp
variable {O O' : MOrder} (hO : OrdSim E O O')
include hO

omit h in
theorem Computer.leadingTerm_sim (p : Poly F) :
    Sim E (Computer.leadingTerm O p) (Computer.leadingTerm O' p) :=
  maxBy_sim (fun _ _ => hO _ _) _

omit h in
theorem Computer.sort_sim (p : Poly F) :
    Sim E (sortBy (fun s t : Term F => O.cmp s.mdeg t.mdeg) p)
      (sortBy (fun s t : Term F => O'.cmp s.mdeg t.mdeg) p) :=
  sortBy_sim (fun _ _ => hO _ _) _

omit h in
theorem Computer.leadingCoef_sim (p : Poly F) :
    Sim E (Computer.leadingCoef O p) (Computer.leadingCoef O' p) :=
  (Computer.leadingTerm_sim hO p).bind fun _ => Sim.refl _

omit h in
theorem Computer.unwrapLeadingTerm_sim (p : Poly F) :
    Sim E (Computer.unwrapLeadingTerm O p) (Computer.unwrapLeadingTerm O' p) :=
  (Computer.leadingTerm_sim hO p).bind fun _ => Sim.refl _

macro_rules | `(tactic| slemma) => `(tactic| (first
  | apply Computer.leadingTerm_sim | apply Computer.sort_sim
  | apply Computer.leadingCoef_sim | apply Computer.unwrapLeadingTerm_sim) <;> assumption)

theorem Computer.divideFor_sim (lt : Term F) (f : Poly F) (l : List (Poly F × Poly F)) :
    Sim E (@Computer.divideFor F d O lt f l) (@Computer.divideFor F (d.withOps o) O' lt f l) := by
  induction l with
  | nil => exact Sim.refl _
  | cons gq rest ih => unfold Computer.divideFor; sauto

macro_rules | `(tactic| slemma) => `(tactic| apply Computer.divideFor_sim <;> assumption)

theorem Computer.divideStep_sim (divs : List (Poly F)) (s : DivState F) :
    Sim E (@Computer.divideStep F d O divs s) (@Computer.divideStep F (d.withOps o) O' divs s) := by
  unfold Computer.divideStep; sauto

theorem Computer.divide_sim (f : Poly F) (divs : List (Poly F)) :
    Sim E (@Computer.divide F d O f divs) (@Computer.divide F (d.withOps o) O' f divs) :=
  Sim.loop (fun _ => Computer.divideStep_sim h hO _ _) _

theorem Computer.tryReduce_sim (f g : Poly F) :
    Sim E (@Computer.tryReduce F d O f g) (@Computer.tryReduce F (d.withOps o) O' f g) := by
  unfold Computer.tryReduce; sauto

macro_rules | `(tactic| slemma) => `(tactic| (first
  | apply Computer.divide_sim | apply Computer.tryReduce_sim) <;> assumption)

theorem Computer.criterionFor_sim (gens : List (Poly F)) (l : List (Nat × Nat)) :
    Sim E (@Computer.criterionFor F d O gens l)
      (@Computer.criterionFor F (d.withOps o) O' gens l) := by
  induction l with
  | nil => exact Sim.refl _
  | cons ij rest ih => unfold Computer.criterionFor; sauto

theorem Computer.buchbergerCriterion_sim (gens : List (Poly F)) :
    Sim E (@Computer.buchbergerCriterion F d O gens)
      (@Computer.buchbergerCriterion F (d.withOps o) O' gens) :=
  Computer.criterionFor_sim h hO _ _

theorem Computer.extendFor_sim (gens : List (Poly F)) (i : Nat) (l : List Nat) :
    Sim E (@Computer.extendFor F d O gens i l)
      (@Computer.extendFor F (d.withOps o) O' gens i l) := by
  induction l with
  | nil => exact Sim.refl _
  | cons ij rest ih => unfold Computer.extendFor; sauto

macro_rules | `(tactic| slemma) => `(tactic| apply Computer.extendFor_sim <;> assumption)

theorem Computer.extendStep_sim (s : List (Poly F) × Nat) :
    Sim E (@Computer.extendStep F d O s) (@Computer.extendStep F (d.withOps o) O' s) := by
  unfold Computer.extendStep; sauto

theorem Computer.buchbergerExtend_sim (gens : List (Poly F)) :
    Sim E (@Computer.buchbergerExtend F d O gens)
      (@Computer.buchbergerExtend F (d.withOps o) O' gens) :=
  Sim.loop (fun _ => Computer.extendStep_sim h hO _) _

theorem Computer.minimizeFor_sim (gens : List (Poly F)) (l : List (Nat × Nat)) :
    Sim E (@Computer.minimizeFor F d O gens l)
      (@Computer.minimizeFor F (d.withOps o) O' gens l) := by
  induction l with
  | nil => exact Sim.refl _
  | cons ij rest ih => unfold Computer.minimizeFor; sauto

macro_rules | `(tactic| slemma) => `(tactic| apply Computer.minimizeFor_sim <;> assumption)

theorem Computer.minimizeStep_sim (gens : List (Poly F)) :
    Sim E (@Computer.minimizeStep F d O gens)
      (@Computer.minimizeStep F (d.withOps o) O' gens) := by
  unfold Computer.minimizeStep; sauto

theorem Computer.buchbergerMinimize_sim (gens : List (Poly F)) :
    Sim E (@Computer.buchbergerMinimize F d O gens)
      (@Computer.buchbergerMinimize F (d.withOps o) O' gens) :=
  Sim.loop (fun _ => Computer.minimizeStep_sim h hO _) _

theorem Computer.reduceTerms_sim (g : Poly F) (l : List (Term F)) :
    Sim E (@Computer.reduceTerms F d O g l) (@Computer.reduceTerms F (d.withOps o) O' g l) := by
  induction l with
  | nil => exact Sim.refl _
  | cons ij rest ih => unfold Computer.reduceTerms; sauto

macro_rules | `(tactic| slemma) => `(tactic| apply Computer.reduceTerms_sim <;> assumption)

theorem Computer.reduceFor_sim (gens : List (Poly F)) (l : List (Nat × Nat)) :
    Sim E (@Computer.reduceFor F d O gens l) (@Computer.reduceFor F (d.withOps o) O' gens l) := by
  induction l with
  | nil => exact Sim.refl _
  | cons ij rest ih => unfold Computer.reduceFor; sauto

macro_rules | `(tactic| slemma) => `(tactic| apply Computer.reduceFor_sim <;> assumption)

theorem Computer.reduceStep_sim (gens : List (Poly F)) :
    Sim E (@Computer.reduceStep F d O gens) (@Computer.reduceStep F (d.withOps o) O' gens) := by
  unfold Computer.reduceStep; sauto

theorem Computer.buchbergerReduce_sim (gens : List (Poly F)) :
    Sim E (@Computer.buchbergerReduce F d O gens)
      (@Computer.buchbergerReduce F (d.withOps o) O' gens) :=
  Sim.loop (fun _ => Computer.reduceStep_sim h hO _) _

theorem Computer.buchbergerAlgorithm_sim (gens : List (Poly F)) :
    Sim E (@Computer.buchbergerAlgorithm F d O gens)
      (@Computer.buchbergerAlgorithm F (d.withOps o) O' gens) :=
  (Computer.buchbergerExtend_sim h hO _).bind fun _ =>
    (Computer.buchbergerMinimize_sim h hO _).bind fun _ =>
      Computer.buchbergerReduce_sim h hO _

end comp

/-! ### Matrices -/

theorem Mat.offset_sim (M : Mat F) (r c : Nat) :
    Sim E (@Mat.offset F d M r c) (@Mat.offset F (d.withOps o) M r c) := by
  unfold Mat.offset; sauto

macro_rules | `(tactic| slemma) => `(tactic| apply Mat.offset_sim <;> assumption)

theorem Mat.get_sim (M : Mat F) (r c : Nat) :
    Sim E (@Mat.get F d M r c) (@Mat.get F (d.withOps o) M r c) := by
  unfold Mat.get; sauto

theorem Mat.set_sim (M : Mat F) (r c : Nat) (x : F) :
    Sim E (@Mat.set F d M r c x) (@Mat.set F (d.withOps o) M r c x) := by
  unfold Mat.set; sauto

theorem Mat.swap_sim (M : Mat F) (p q : Nat × Nat) :
    Sim E (@Mat.swap F d M p q) (@Mat.swap F (d.withOps o) M p q) := by
  unfold Mat.swap; sauto

macro_rules | `(tactic| slemma) => `(tactic| (first
  | apply Mat.get_sim | apply Mat.set_sim | apply Mat.swap_sim) <;> assumption)

theorem Mat.fromColVectors_sim (vs : List (Mat F)) :
    Sim E (@Mat.fromColVectors F d vs) (@Mat.fromColVectors F (d.withOps o) vs) := by
  unfold Mat.fromColVectors; sauto

theorem Mat.fromRowVectors_sim (vs : List (Mat F)) :
    Sim E (@Mat.fromRowVectors F d vs) (@Mat.fromRowVectors F (d.withOps o) vs) := by
  unfold Mat.fromRowVectors; sauto

theorem Mat.transpose_sim (M : Mat F) :
    Sim E (@Mat.transpose F d M) (@Mat.transpose F (d.withOps o) M) := by
  unfold Mat.transpose; sauto

theorem Mat.scaleRow_sim (M : Mat F) (i : Nat) (x : F) :
    Sim E (@Mat.scaleRow F d M i x) (@Mat.scaleRow F (d.withOps o) M i x) := by
  unfold Mat.scaleRow; sauto

theorem Mat.permuteRows_sim (M : Mat F) (i j : Nat) :
    Sim E (@Mat.permuteRows F d M i j) (@Mat.permuteRows F (d.withOps o) M i j) := by
  unfold Mat.permuteRows; sauto

theorem Mat.replaceRow_sim (M : Mat F) (i j : Nat) (x : F) :
    Sim E (@Mat.replaceRow F d M i j x) (@Mat.replaceRow F (d.withOps o) M i j x) := by
  unfold Mat.replaceRow; sauto

theorem Mat.scale_sim (M : Mat F) (x : F) :
    Sim E (@Mat.scale F d M x) (@Mat.scale F (d.withOps o) M x) := by
  unfold Mat.scale; sauto

theorem Mat.getRowIter_sim (M : Mat F) (r : Nat) :
    Sim E (@Mat.getRowIter F d M r) (@Mat.getRowIter F (d.withOps o) M r) := by
  unfold Mat.getRowIter; sauto

theorem Mat.getColIter_sim (M : Mat F) (r : Nat) :
    Sim E (@Mat.getColIter F d M r) (@Mat.getColIter F (d.withOps o) M r) := by
  unfold Mat.getColIter; sauto

macro_rules | `(tactic| slemma) => `(tactic| (first
  | apply Mat.fromRowVectors_sim | apply Mat.fromColVectors_sim | apply Mat.scaleRow_sim
  | apply Mat.permuteRows_sim | apply Mat.replaceRow_sim | apply Mat.scale_sim
  | apply Mat.getRowIter_sim | apply Mat.getColIter_sim) <;> assumption)

theorem Mat.getRow_sim (M : Mat F) (r : Nat) :
    Sim E (@Mat.getRow F d M r) (@Mat.getRow F (d.withOps o) M r) := by
  unfold Mat.getRow; sauto

theorem Mat.getCol_sim (M : Mat F) (r : Nat) :
    Sim E (@Mat.getCol F d M r) (@Mat.getCol F (d.withOps o) M r) := by
  unfold Mat.getCol; sauto

theorem Mat.frobeniusNorm_sim (M : Mat F) :
    Sim E (@Mat.frobeniusNorm F d M) (@Mat.frobeniusNorm F (d.withOps o) M) := by
  unfold Mat.frobeniusNorm; sauto

theorem Mat.dot_sim (M N : Mat F) :
    Sim E (@Mat.dot F d M N) (@Mat.dot F (d.withOps o) M N) := by
  unfold Mat.dot; sauto

theorem Mat.isUpperTriangular_sim (M : Mat F) :
    Sim E (@Mat.isUpperTriangular F d M) (@Mat.isUpperTriangular F (d.withOps o) M) := by
  unfold Mat.isUpperTriangular; sauto

theorem Mat.isLowerTriangular_sim (M : Mat F) :
    Sim E (@Mat.isLowerTriangular F d M) (@Mat.isLowerTriangular F (d.withOps o) M) := by
  unfold Mat.isLowerTriangular; sauto

theorem Mat.add_sim (M N : Mat F) :
    Sim E (@Mat.add F d M N) (@Mat.add F (d.withOps o) M N) := by
  unfold Mat.add; sauto

theorem Mat.smul_sim (M : Mat F) (x : F) :
    Sim E (@Mat.smul F d M x) (@Mat.smul F (d.withOps o) M x) := by
  unfold Mat.smul; sauto

theorem Mat.mul_sim (M N : Mat F) :
    Sim E (@Mat.mul F d M N) (@Mat.mul F (d.withOps o) M N) := by
  unfold Mat.mul; sauto

macro_rules | `(tactic| slemma) => `(tactic| (first
  | apply Mat.getRow_sim | apply Mat.getCol_sim | apply Mat.frobeniusNorm_sim
  | apply Mat.dot_sim | apply Mat.add_sim | apply Mat.smul_sim
  | apply Mat.mul_sim) <;> assumption)

theorem matIterNext_sim (n m : Nat) (values : List F) (num : Nat) :
    Sim E (@matIterNext F d n m values num) (@matIterNext F (d.withOps o) n m values num) := by
  unfold matIterNext; sauto

theorem matIterator_sim (n m : Nat) (values : List F) :
    Sim E (@matIterator F d n m values) (@matIterator F (d.withOps o) n m values) :=
  Sim.loop (fun s : Nat × List (Mat F) =>
    show Sim E (@matIteratorStep F d n m values s) (@matIteratorStep F (d.withOps o) n m values s)
      from (matIterNext_sim h n m values s.1).bind fun _ => Sim.refl _) _

/-! ### Elimination -/

theorem Mat.permuteUnderDiagonal_sim (M : Mat F) (i j : Nat) :
    Sim E (@Mat.permuteUnderDiagonal F d M i j)
      (@Mat.permuteUnderDiagonal F (d.withOps o) M i j) := by
  unfold Mat.permuteUnderDiagonal; sauto

macro_rules | `(tactic| slemma) => `(tactic| apply Mat.permuteUnderDiagonal_sim <;> assumption)

theorem LUInternal.permute_sim (lu : LUInternal F) (i j : Nat) :
    Sim E (@LUInternal.permute F d lu i j) (@LUInternal.permute F (d.withOps o) lu i j) := by
  unfold LUInternal.permute; sauto

theorem LUInternal.scaleRow_sim (lu : LUInternal F) (i : Nat) (x : F) :
    Sim E (@LUInternal.scaleRow F d lu i x) (@LUInternal.scaleRow F (d.withOps o) lu i x) := by
  unfold LUInternal.scaleRow; sauto

theorem LUInternal.replaceColUnderRow_sim (lu : LUInternal F) (i j : Nat) :
    Sim E (@LUInternal.replaceColUnderRow F d lu i j)
      (@LUInternal.replaceColUnderRow F (d.withOps o) lu i j) := by
  unfold LUInternal.replaceColUnderRow; sauto

theorem Form.permuteRows_sim (f : Form F) (i j : Nat) :
    Sim E (@Form.permuteRows F d f i j) (@Form.permuteRows F (d.withOps o) f i j) := by
  unfold Form.permuteRows; sauto

theorem Form.scaleRow_sim (f : Form F) (i : Nat) (x : F) :
    Sim E (@Form.scaleRow F d f i x) (@Form.scaleRow F (d.withOps o) f i x) := by
  unfold Form.scaleRow; sauto

theorem Form.replaceStep_sim (r c : Nat) (f : Form F) (i : Nat) :
    Sim E (@Form.replaceStep F d r c f i) (@Form.replaceStep F (d.withOps o) r c f i) := by
  unfold Form.replaceStep; sauto

theorem Form.replaceColUnderRow_sim (f : Form F) (r c : Nat) :
    Sim E (@Form.replaceColUnderRow F d f r c)
      (@Form.replaceColUnderRow F (d.withOps o) f r c) :=
  Sim.foldlM (fun _ _ => Form.replaceStep_sim h _ _ _ _) _ _

theorem Form.replaceColAboveRow_sim (f : Form F) (r c : Nat) :
    Sim E (@Form.replaceColAboveRow F d f r c)
      (@Form.replaceColAboveRow F (d.withOps o) f r c) :=
  Sim.foldlM (fun _ _ => Form.replaceStep_sim h _ _ _ _) _ _

macro_rules | `(tactic| slemma) => `(tactic| (first
  | apply LUInternal.permute_sim | apply LUInternal.scaleRow_sim
  | apply LUInternal.replaceColUnderRow_sim | apply Form.permuteRows_sim
  | apply Form.scaleRow_sim | apply Form.replaceColUnderRow_sim
  | apply Form.replaceColAboveRow_sim) <;> assumption)

section eps
variable {e e' : EpsilonEquality F}
  (he : ∀ x y, Sim E (e.epsilonEquals x y) (e'.epsilonEquals x y))
include he

theorem Mat.epsilonEquals_sim (M N : Mat F) :
    Sim E (@Mat.epsilonEquals F d e M N) (@Mat.epsilonEquals F (d.withOps o) e' M N) := by
  unfold Mat.epsilonEquals; sauto; exact he _ _

theorem Mat.firstNonzero_sim (M : Mat F) (r : Nat) :
    Sim E (@Mat.firstNonzero F d e M r) (@Mat.firstNonzero F (d.withOps o) e' M r) := by
  unfold Mat.firstNonzero
  exact (Mat.getRow_sim h _ _).bind fun _ => position_sim
    (fun _ => (he _ _).bind fun _ => Sim.refl _) _

macro_rules | `(tactic| slemma) => `(tactic| apply Mat.firstNonzero_sim <;> assumption)

theorem Mat.zeroRows_sim (M : Mat F) :
    Sim E (@Mat.zeroRows F d e M) (@Mat.zeroRows F (d.withOps o) e' M) := by
  unfold Mat.zeroRows; sauto

macro_rules | `(tactic| slemma) => `(tactic| apply Mat.zeroRows_sim <;> assumption)

theorem Form.rank_sim (f : Form F) :
    Sim E (@Form.rank F d e f) (@Form.rank F (d.withOps o) e' f) := by
  unfold Form.rank; sauto

macro_rules | `(tactic| slemma) => `(tactic| apply Form.rank_sim <;> assumption)

theorem Form.nullity_sim (f : Form F) :
    Sim E (@Form.nullity F d e f) (@Form.nullity F (d.withOps o) e' f) := by
  unfold Form.nullity; sauto

theorem Form.toRref_sim (f : Form F) :
    Sim E (@Form.toRref F d e f) (@Form.toRref F (d.withOps o) e' f) := by
  unfold Form.toRref; sauto

theorem Form.boundVariables_sim (f : Form F) :
    Sim E (@Form.boundVariables F d e f) (@Form.boundVariables F (d.withOps o) e' f) := by
  unfold Form.boundVariables; sauto

macro_rules | `(tactic| slemma) => `(tactic| apply Form.boundVariables_sim <;> assumption)

theorem Form.computeKernel_sim (f : Form F) :
    Sim E (@Form.computeKernel F d e f) (@Form.computeKernel F (d.withOps o) e' f) := by
  unfold Form.computeKernel; sauto

theorem Form.computeRange_sim (order : List Nat → List Nat) (f : Form F) :
    Sim E (@Form.computeRange F d e order f) (@Form.computeRange F (d.withOps o) e' order f) := by
  unfold Form.computeRange; sauto

macro_rules | `(tactic| slemma) => `(tactic| (first
  | apply Form.toRref_sim | apply Form.computeKernel_sim) <;> assumption)

variable {s s' : StabilityCmp F}
  (hs : ∀ x y, Sim E (s.stabilityCmp x y) (s'.stabilityCmp x y))
include hs

theorem Mat.getStable_sim (M : Mat F) (c r : Nat) :
    Sim E (@Mat.getStable F d e s M c r) (@Mat.getStable F (d.withOps o) e' s' M c r) := by
  unfold Mat.getStable
  exact (Mat.getColIter_sim h _ _).bind fun _ => (getMaxIndex_sim hs _).bind fun _ =>
    (Mat.get_sim h _ _ _).bind fun _ => (he _ _).bind fun _ => Sim.refl _

macro_rules | `(tactic| slemma) => `(tactic| apply Mat.getStable_sim <;> assumption)

theorem Mat.luFor_sim (n : Nat) (l : List Nat) (r : Nat) (lu : LUInternal F) :
    Sim E (@Mat.luFor F d e s n l r lu) (@Mat.luFor F (d.withOps o) e' s' n l r lu) := by
  induction l generalizing r lu with
  | nil => exact Sim.refl _
  | cons c cs ih => unfold Mat.luFor; sauto <;> apply ih

theorem Mat.lu_sim (M : Mat F) :
    Sim E (@Mat.lu F d e s M) (@Mat.lu F (d.withOps o) e' s' M) := by
  unfold Mat.lu
  exact (Mat.luFor_sim h he hs _ _ _ _).bind fun _ => Sim.refl _

theorem Mat.rowEchelonFor_sim (n : Nat) (l : List Nat) (r : Nat) (f : Form F) :
    Sim E (@Mat.rowEchelonFor F d e s n l r f)
      (@Mat.rowEchelonFor F (d.withOps o) e' s' n l r f) := by
  induction l generalizing r f with
  | nil => exact Sim.refl _
  | cons c cs ih => unfold Mat.rowEchelonFor; sauto <;> apply ih

theorem Mat.rowEchelon_sim (M : Mat F) :
    Sim E (@Mat.rowEchelon F d e s M) (@Mat.rowEchelon F (d.withOps o) e' s' M) :=
  Mat.rowEchelonFor_sim h he hs _ _ _ _

macro_rules | `(tactic| slemma) => `(tactic| apply Mat.rowEchelon_sim <;> assumption)

/-! ### Cones -/

variable {p p' : FieldOrd F} (hp : ∀ x y, Sim E (p.partialCmp x y) (p'.partialCmp x y))
include hp

omit he hs in
theorem Cone.allAbove_sim (n : Mat F) (l : List (Mat F)) :
    Sim E (@Cone.allAbove F d p n l) (@Cone.allAbove F (d.withOps o) p' n l) := by
  induction l with
  | nil => exact Sim.refl _
  | cons g l ih => unfold Cone.allAbove; sauto; exact hp _ _

macro_rules | `(tactic| slemma) => `(tactic| apply Cone.allAbove_sim <;> assumption)

theorem Cone.facetOf_sim (gens : List (Mat F)) (k : Nat) (subset : List (Mat F)) :
    Sim E (@Cone.facetOf F d e s p gens k subset)
      (@Cone.facetOf F (d.withOps o) e' s' p' gens k subset) := by
  unfold Cone.facetOf; sauto; exact hp _ _

macro_rules | `(tactic| slemma) => `(tactic| apply Cone.facetOf_sim <;> assumption)

theorem Cone.new_sim (gens : List (Mat F)) :
    Sim E (@Cone.new F d e s p gens) (@Cone.new F (d.withOps o) e' s' p' gens) := by
  unfold Cone.new; sauto

end eps
end ops
end Verif
