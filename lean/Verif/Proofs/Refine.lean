import Verif.Props.Num
import Verif.Poly.Display
import Verif.LinAlg.Cone
import Verif.LinAlg.MatIter

/-!
# Lifting the agreement of build profiles from the scalars to the whole library

A program instantiated with the checked scalars and one instantiated with unchecked scalars differ
only in the arithmetic operations.  `RField.withOps d o` is the field `d` with the operations
replaced by those of `o`; `OpsRefine d o` says that each operation of `d` that returns a value
returns the same value in `o`.
-/

set_option linter.unusedSectionVars false

namespace Verif
open Res LinAlg

variable {F : Type}

/-- The operations of a field that can differ between build profiles. -/
structure Ops (F : Type) where
  build : Build
  add : F → F → Res F
  sub : F → F → Res F
  neg : F → Res F
  mul : F → F → Res F
  div : F → F → Res F
  inv : F → Res F
  powi32 : F → Int → Res F
  sum : List (Res F) → Res F

/-- The field `d` with other operations. -/
@[instance_reducible] def RField.withOps (d : RField F) (o : Ops F) : RField F where
  build := o.build
  zero := d.zero
  one := d.one
  beq := d.beq
  add := o.add
  sub := o.sub
  neg := o.neg
  mul := o.mul
  div := o.div
  inv := o.inv
  powi32 := o.powi32
  sum := o.sum

/-- Whatever an operation of `d` returns, the operation of `o` returns. -/
structure OpsRefine (d : RField F) (o : Ops F) : Prop where
  build : d.build = .debug
  add : ∀ x y, Refines (d.add x y) (o.add x y)
  sub : ∀ x y, Refines (d.sub x y) (o.sub x y)
  neg : ∀ x, Refines (d.neg x) (o.neg x)
  mul : ∀ x y, Refines (d.mul x y) (o.mul x y)
  div : ∀ x y, Refines (d.div x y) (o.div x y)
  inv : ∀ x, Refines (d.inv x) (o.inv x)
  powi32 : ∀ x e, Refines (d.powi32 x e) (o.powi32 x e)
  sum : ∀ l l', List.Forall₂ Refines l l' → Refines (d.sum l) (o.sum l')

/-- Extended below with one alternative for every lemma of this file. -/
syntax "rlemma" : tactic

theorem Refines.ite' {α : Type} {c c' : Prop} {_ : Decidable c} {_ : Decidable c'} (hc : c = c')
    {a a' b b' : Res α} (h : Refines a a') (h' : Refines b b') :
    Refines (if c then a else b) (if c' then a' else b') := by
  subst hc
  by_cases hc : c
  · rw [if_pos hc, if_pos hc]; exact h
  · rw [if_neg hc, if_neg hc]; exact h'

theorem Refines.allM {α : Type} {f g : α → Res Bool} (h : ∀ a, Refines (f a) (g a)) (l : List α) :
    Refines (l.allM f) (l.allM g) := by
  induction l with
  | nil => exact Refines.refl _
  | cons a l ih =>
    unfold List.allM
    refine (h a).bind fun b => ?_
    cases b
    · exact Refines.refl _
    · exact ih

theorem reduceM_refines' {α : Type} {f g : α → α → Res α}
    (h : ∀ x y, Refines (f x y) (g x y)) (d : α) {l l' : List (Res α)}
    (hl : List.Forall₂ Refines l l') : Refines (reduceM f d l) (reduceM g d l') := by
  cases hl with
  | nil => exact Refines.refl _
  | @cons r r' l l' hr hl =>
    refine hr.bind fun a => ?_
    induction hl generalizing a with
    | nil => exact Refines.refl _
    | @cons r r' l l' hr hl ih =>
      rw [List.foldlM_cons, List.foldlM_cons]
      exact (hr.bind fun y => h _ _).bind fun c => ih c

theorem forall₂_map {α β : Type} {f g : α → Res β} (h : ∀ a, Refines (f a) (g a)) (l : List α) :
    List.Forall₂ Refines (l.map f) (l.map g) := by
  induction l with
  | nil => exact .nil
  | cons a l ih => exact .cons (h a) ih

theorem U8.norm_refines (b : Build) (x : Nat) : Refines (U8.norm .debug x) (U8.norm b x) := by
  intro a h
  unfold U8.norm at *
  split at h
  · rename_i hx; simp [hx]; simpa using h
  · simp at h

theorem Usize.norm_refines (b : Build) (x : Nat) :
    Refines (Usize.norm .debug x) (Usize.norm b x) := by
  intro a h
  unfold Usize.norm at *
  split at h
  · rename_i hx; simp [hx]; simpa using h
  · simp at h

theorem Usize.sub_refines (b : Build) (x y : Nat) :
    Refines (Usize.sub .debug x y) (Usize.sub b x y) := by
  intro a h
  unfold Usize.sub at *
  split at h
  · rename_i hx; simp [hx]; simpa using h
  · simp at h

theorem I64.norm_refines' (b : Build) (x : Int) : Refines (I64.norm .debug x) (I64.norm b x) := by
  cases b
  · exact Refines.refl _
  · exact I64.norm_refines x

theorem MDeg.totalDeg_refines (b : Build) (m : MDeg) :
    Refines (MDeg.totalDeg .debug m) (MDeg.totalDeg b m) :=
  Refines.foldlM (fun _ _ => U8.norm_refines _ _) _ _

theorem MDeg.addLoop_refines (b : Build) (l : List (EitherOrBoth Nat)) (z : Nat) (ds : List Nat) :
    Refines (MDeg.addLoop .debug l z ds) (MDeg.addLoop b l z ds) := by
  induction l generalizing z ds with
  | nil => exact Refines.refl _
  | cons p l ih =>
    unfold MDeg.addLoop
    split
    · exact ih _ _
    · exact ih _ _
    · exact ih _ _
    · exact (U8.norm_refines _ _).bind fun _ => ih _ _
    · exact ih _ _
    · exact ih _ _

theorem MDeg.add_refines (b : Build) (x y : MDeg) :
    Refines (MDeg.add .debug x y) (MDeg.add b x y) := MDeg.addLoop_refines b _ _ _

/-- Whatever a comparison of `O` returns, that of `O'` returns. -/
def OrdRefines (O O' : MOrder) : Prop := ∀ a b, Refines (O.cmp a b) (O'.cmp a b)

theorem MOrder.grad_refines (b : Build) (x y : MDeg) :
    Refines (MOrder.grad .debug x y) (MOrder.grad b x y) :=
  (MDeg.totalDeg_refines b x).bind fun _ => (MDeg.totalDeg_refines b y).bind fun _ => Refines.refl _

theorem MOrder.grLex_refines (b : Build) : OrdRefines (MOrder.grLex .debug) (MOrder.grLex b) :=
  fun _ _ => (MOrder.grad_refines b _ _).bind fun _ => Refines.refl _

theorem MOrder.gRevLex_refines (b : Build) :
    OrdRefines (MOrder.gRevLex .debug) (MOrder.gRevLex b) :=
  fun _ _ => (MOrder.grad_refines b _ _).bind fun _ => Refines.refl _

theorem OrdRefines.refl (O : MOrder) : OrdRefines O O := fun _ _ => Refines.refl _

theorem maxBy_refines {α : Type} {f g : α → α → Res Ordering}
    (h : ∀ x y, Refines (f x y) (g x y)) (l : List α) : Refines (maxBy f l) (maxBy g l) := by
  cases l with
  | nil => exact Refines.refl _
  | cons x xs =>
    exact (Refines.foldlM (fun _ _ => (h _ _).bind fun _ => Refines.refl _) _ _).map _

theorem insertBy_refines {α : Type} {f g : α → α → Res Ordering}
    (h : ∀ x y, Refines (f x y) (g x y)) (x : α) (l : List α) :
    Refines (insertBy f x l) (insertBy g x l) := by
  induction l with
  | nil => exact Refines.refl _
  | cons y ys ih =>
    refine (h x y).bind fun o => ?_
    cases o
    · exact Refines.refl _
    · exact ih.bind fun _ => Refines.refl _
    · exact ih.bind fun _ => Refines.refl _

theorem sortBy_refines {α : Type} {f g : α → α → Res Ordering}
    (h : ∀ x y, Refines (f x y) (g x y)) (l : List α) : Refines (sortBy f l) (sortBy g l) :=
  Refines.foldlM (fun _ _ => insertBy_refines h _ _) _ _

theorem getMaxIndex_refines {T : Type} {f g : T → T → Res (Option Ordering)}
    (h : ∀ x y, Refines (f x y) (g x y)) (l : List T) :
    Refines (getMaxIndex l f) (getMaxIndex l g) :=
  (maxBy_refines (fun _ _ => (h _ _).bind fun _ => Refines.refl _) _).bind fun _ => Refines.refl _

theorem numToSeq_refines (b : Build) (n base : Nat) :
    Refines (numToSeq .debug n base) (numToSeq b n base) :=
  (Usize.norm_refines _ _).bind fun _ => Refines.refl _

theorem position_refines {α : Type} {f g : α → Res Bool} (h : ∀ x, Refines (f x) (g x))
    (l : List α) : Refines (Mat.position f l) (Mat.position g l) := by
  induction l with
  | nil => exact Refines.refl _
  | cons y ys ih =>
    refine (h y).bind fun o => ?_
    cases o
    · exact ih.bind fun _ => Refines.refl _
    · exact Refines.refl _

/-! ### The functions that do no arithmetic are the same -/

section pure
variable (d : RField F) (o : Ops F)

theorem zero_eq : (d.withOps o).zero = d.zero := rfl
theorem one_eq : (d.withOps o).one = d.one := rfl
theorem beq_eq : (d.withOps o).beq = d.beq := rfl
theorem isZero_eq (t : Term F) : @Term.isZero F (d.withOps o) t = @Term.isZero F d t := rfl
theorem tzero_eq : @Term.zero F (d.withOps o) = @Term.zero F d := rfl
theorem tone_eq : @Term.one F (d.withOps o) = @Term.one F d := rfl
theorem tnew_eq (c : F) (m : MDeg) :
    @Term.new F (d.withOps o) c m = @Term.new F d c m := rfl
theorem divides_eq (s t : Term F) :
    @Term.divides F (d.withOps o) s t = @Term.divides F d s t := rfl
theorem ofTerm_eq (t : Term F) : @Poly.ofTerm F (d.withOps o) t = @Poly.ofTerm F d t := rfl
theorem monicLcm_eq (s t : Term F) :
    @Computer.monicLcm F (d.withOps o) s t = @Computer.monicLcm F d s t := rfl
theorem identity_eq (n : Nat) : @Mat.identity F (d.withOps o) n = @Mat.identity F d n := rfl
theorem e_eq (k n : Nat) : @Mat.e F (d.withOps o) k n = @Mat.e F d k n := rfl
theorem permutationFromVec_eq (p : List Nat) :
    @Mat.permutationFromVec F (d.withOps o) p = @Mat.permutationFromVec F d p := rfl

end pure

/-- Rewrite the functions without arithmetic to those of `d`. -/
macro "rsimp" : tactic => `(tactic| try simp only [zero_eq, one_eq, beq_eq, isZero_eq, tzero_eq,
  tone_eq, tnew_eq, divides_eq, ofTerm_eq, monicLcm_eq, identity_eq, e_eq, permutationFromVec_eq])

macro "rstep" : tactic => `(tactic| first
  | with_reducible exact Refines.refl _
  | with_reducible assumption
  | with_reducible rlemma
  | with_reducible refine Refines.bind ?_ (fun _ => ?_)
  | with_reducible refine Refines.foldlM (fun _ _ => ?_) _ _
  | with_reducible refine Refines.mapM (fun _ => ?_) _
  | with_reducible refine Refines.allM (fun _ => ?_) _
  | with_reducible refine Refines.loop (fun _ => ?_) _
  | (refine Refines.ite' ?_ ?_ ?_; exact rfl)
  | split)

macro "rauto" : tactic => `(tactic| (rsimp; repeat' rstep))

section ops
variable {d : RField F} {o : Ops F} (h : OpsRefine d o)
include h

theorem radd (x y : F) : Refines (d.add x y) ((d.withOps o).add x y) := h.add x y
theorem rsub (x y : F) : Refines (d.sub x y) ((d.withOps o).sub x y) := h.sub x y
theorem rneg (x : F) : Refines (d.neg x) ((d.withOps o).neg x) := h.neg x
theorem rmul (x y : F) : Refines (d.mul x y) ((d.withOps o).mul x y) := h.mul x y
theorem rdiv (x y : F) : Refines (d.div x y) ((d.withOps o).div x y) := h.div x y
theorem rinv (x : F) : Refines (d.inv x) ((d.withOps o).inv x) := h.inv x
theorem rpow (x : F) (e : Int) : Refines (d.powi32 x e) ((d.withOps o).powi32 x e) := h.powi32 x e
theorem rmdeg (x y : MDeg) :
    Refines (MDeg.add d.build x y) (MDeg.add (d.withOps o).build x y) := by
  rw [h.build]; exact MDeg.add_refines _ _ _
theorem rusub (x y : Nat) :
    Refines (Usize.sub d.build x y) (Usize.sub (d.withOps o).build x y) := by
  rw [h.build]; exact Usize.sub_refines _ _ _
theorem ruadd (x y : Nat) :
    Refines (Usize.add d.build x y) (Usize.add (d.withOps o).build x y) := by
  rw [h.build]; exact Usize.norm_refines _ _
theorem rumul (x y : Nat) :
    Refines (Usize.mul d.build x y) (Usize.mul (d.withOps o).build x y) := by
  rw [h.build]; exact Usize.norm_refines _ _
theorem rupow (x y : Nat) :
    Refines (Usize.pow d.build x y) (Usize.pow (d.withOps o).build x y) := by
  rw [h.build]; exact Usize.norm_refines _ _
theorem rseq (x y : Nat) :
    Refines (numToSeq d.build x y) (numToSeq (d.withOps o).build x y) := by
  rw [h.build]; exact numToSeq_refines _ _ _

macro_rules | `(tactic| rlemma) => `(tactic| (first
  | apply radd | apply rsub | apply rneg | apply rmul | apply rdiv | apply rinv | apply rpow
  | apply rmdeg | apply rusub | apply ruadd | apply rumul | apply rupow | apply rseq) <;> assumption)

/-! ### Polynomials -/

theorem Term.eval_refines (t : Term F) (x : List F) :
    Refines (@Term.eval F d t x) (@Term.eval F (d.withOps o) t x) := by
  unfold Term.eval; rauto

theorem Term.tryDiv_refines (s t : Term F) :
    Refines (@Term.tryDiv F d s t) (@Term.tryDiv F (d.withOps o) s t) := by
  unfold Term.tryDiv; rauto

theorem Term.neg_refines (s : Term F) :
    Refines (@Term.neg F d s) (@Term.neg F (d.withOps o) s) := by
  unfold Term.neg; rauto

theorem Term.mul_refines (s t : Term F) :
    Refines (@Term.mul F d s t) (@Term.mul F (d.withOps o) s t) := by
  unfold Term.mul; rauto

theorem Poly.eval_refines (p : Poly F) (x : List F) :
    Refines (@Poly.eval F d p x) (@Poly.eval F (d.withOps o) p x) :=
  h.sum _ _ (forall₂_map (fun _ => Term.eval_refines h _ _) _)

theorem Poly.termAddTerm_refines (s t : Term F) :
    Refines (@Poly.termAddTerm F d s t) (@Poly.termAddTerm F (d.withOps o) s t) := by
  unfold Poly.termAddTerm; rauto

theorem Poly.addNonzeroTerm_refines (p : Poly F) (t : Term F) :
    Refines (@Poly.addNonzeroTerm F d p t) (@Poly.addNonzeroTerm F (d.withOps o) p t) := by
  induction p with
  | nil => exact Refines.refl _
  | cons s p ih => unfold Poly.addNonzeroTerm; rauto

macro_rules | `(tactic| rlemma) => `(tactic| (first
  | apply Term.eval_refines | apply Term.tryDiv_refines | apply Term.neg_refines
  | apply Term.mul_refines | apply Poly.eval_refines | apply Poly.termAddTerm_refines
  | apply Poly.addNonzeroTerm_refines) <;> assumption)

theorem Poly.addTerm_refines (p : Poly F) (t : Term F) :
    Refines (@Poly.addTerm F d p t) (@Poly.addTerm F (d.withOps o) p t) := by
  unfold Poly.addTerm; rauto

macro_rules | `(tactic| rlemma) => `(tactic| apply Poly.addTerm_refines <;> assumption)

theorem Poly.add_refines (p q : Poly F) :
    Refines (@Poly.add F d p q) (@Poly.add F (d.withOps o) p q) := by
  unfold Poly.add; rauto

theorem Poly.neg_refines (p : Poly F) :
    Refines (@Poly.neg F d p) (@Poly.neg F (d.withOps o) p) := by
  unfold Poly.neg; rauto

theorem Poly.termSubTerm_refines (s t : Term F) :
    Refines (@Poly.termSubTerm F d s t) (@Poly.termSubTerm F (d.withOps o) s t) := by
  unfold Poly.termSubTerm; rauto

macro_rules | `(tactic| rlemma) => `(tactic| (first
  | apply Poly.add_refines | apply Poly.neg_refines) <;> assumption)

theorem Poly.termSub_refines (s : Term F) (q : Poly F) :
    Refines (@Poly.termSub F d s q) (@Poly.termSub F (d.withOps o) s q) := by
  unfold Poly.termSub; rauto

theorem Poly.subTerm_refines (p : Poly F) (t : Term F) :
    Refines (@Poly.subTerm F d p t) (@Poly.subTerm F (d.withOps o) p t) := by
  unfold Poly.subTerm; rauto

theorem Poly.sub_refines (p q : Poly F) :
    Refines (@Poly.sub F d p q) (@Poly.sub F (d.withOps o) p q) := by
  unfold Poly.sub; rauto

theorem Poly.mulTerm_refines (p : Poly F) (t : Term F) :
    Refines (@Poly.mulTerm F d p t) (@Poly.mulTerm F (d.withOps o) p t) := by
  unfold Poly.mulTerm; rauto

theorem Poly.mulCoef_refines (p : Poly F) (c : F) :
    Refines (@Poly.mulCoef F d p c) (@Poly.mulCoef F (d.withOps o) p c) :=
  Poly.mulTerm_refines h _ _

theorem Poly.mul_refines (p q : Poly F) :
    Refines (@Poly.mul F d p q) (@Poly.mul F (d.withOps o) p q) :=
  reduceM_refines' (fun _ _ => Poly.add_refines h _ _) _
    (forall₂_map (fun _ => Poly.mulTerm_refines h _ _) _)

theorem Poly.divCoef_refines (p : Poly F) (c : F) :
    Refines (@Poly.divCoef F d p c) (@Poly.divCoef F (d.withOps o) p c) :=
  (rinv h c).bind fun _ => Poly.mulCoef_refines h _ _

macro_rules | `(tactic| rlemma) => `(tactic| (first
  | apply Poly.sub_refines | apply Poly.mulTerm_refines | apply Poly.mul_refines
  | apply Poly.divCoef_refines) <;> assumption)

/-! ### Division and Gröbner bases -/

section comp
variable {O O' : MOrder} (hO : OrdRefines O O')
include hO

omit h in
theorem Computer.leadingTerm_refines (p : Poly F) :
    Refines (Computer.leadingTerm O p) (Computer.leadingTerm O' p) :=
  maxBy_refines (fun _ _ => hO _ _) _

omit h in
theorem Computer.sort_refines (p : Poly F) :
    Refines (sortBy (fun s t : Term F => O.cmp s.mdeg t.mdeg) p)
      (sortBy (fun s t : Term F => O'.cmp s.mdeg t.mdeg) p) :=
  sortBy_refines (fun _ _ => hO _ _) _

omit h in
theorem Computer.leadingCoef_refines (p : Poly F) :
    Refines (Computer.leadingCoef O p) (Computer.leadingCoef O' p) :=
  (Computer.leadingTerm_refines hO p).bind fun _ => Refines.refl _

omit h in
theorem Computer.unwrapLeadingTerm_refines (p : Poly F) :
    Refines (Computer.unwrapLeadingTerm O p) (Computer.unwrapLeadingTerm O' p) :=
  (Computer.leadingTerm_refines hO p).bind fun _ => Refines.refl _

macro_rules | `(tactic| rlemma) => `(tactic| (first
  | apply Computer.leadingTerm_refines | apply Computer.sort_refines
  | apply Computer.leadingCoef_refines | apply Computer.unwrapLeadingTerm_refines) <;> assumption)

theorem Computer.divideFor_refines (lt : Term F) (f : Poly F) (l : List (Poly F × Poly F)) :
    Refines (@Computer.divideFor F d O lt f l) (@Computer.divideFor F (d.withOps o) O' lt f l) := by
  induction l with
  | nil => exact Refines.refl _
  | cons gq rest ih => unfold Computer.divideFor; rauto

macro_rules | `(tactic| rlemma) => `(tactic| apply Computer.divideFor_refines <;> assumption)

theorem Computer.divideStep_refines (divs : List (Poly F)) (s : DivState F) :
    Refines (@Computer.divideStep F d O divs s) (@Computer.divideStep F (d.withOps o) O' divs s) := by
  unfold Computer.divideStep; rauto

theorem Computer.divide_refines (f : Poly F) (divs : List (Poly F)) :
    Refines (@Computer.divide F d O f divs) (@Computer.divide F (d.withOps o) O' f divs) :=
  Refines.loop (fun _ => Computer.divideStep_refines h hO _ _) _

theorem Computer.tryReduce_refines (f g : Poly F) :
    Refines (@Computer.tryReduce F d O f g) (@Computer.tryReduce F (d.withOps o) O' f g) := by
  unfold Computer.tryReduce; rauto

macro_rules | `(tactic| rlemma) => `(tactic| (first
  | apply Computer.divide_refines | apply Computer.tryReduce_refines) <;> assumption)

theorem Computer.criterionFor_refines (gens : List (Poly F)) (l : List (Nat × Nat)) :
    Refines (@Computer.criterionFor F d O gens l)
      (@Computer.criterionFor F (d.withOps o) O' gens l) := by
  induction l with
  | nil => exact Refines.refl _
  | cons ij rest ih => unfold Computer.criterionFor; rauto

theorem Computer.buchbergerCriterion_refines (gens : List (Poly F)) :
    Refines (@Computer.buchbergerCriterion F d O gens)
      (@Computer.buchbergerCriterion F (d.withOps o) O' gens) :=
  Computer.criterionFor_refines h hO _ _

theorem Computer.extendFor_refines (gens : List (Poly F)) (i : Nat) (l : List Nat) :
    Refines (@Computer.extendFor F d O gens i l)
      (@Computer.extendFor F (d.withOps o) O' gens i l) := by
  induction l with
  | nil => exact Refines.refl _
  | cons ij rest ih => unfold Computer.extendFor; rauto

macro_rules | `(tactic| rlemma) => `(tactic| apply Computer.extendFor_refines <;> assumption)

theorem Computer.extendStep_refines (s : List (Poly F) × Nat) :
    Refines (@Computer.extendStep F d O s) (@Computer.extendStep F (d.withOps o) O' s) := by
  unfold Computer.extendStep; rauto

theorem Computer.buchbergerExtend_refines (gens : List (Poly F)) :
    Refines (@Computer.buchbergerExtend F d O gens)
      (@Computer.buchbergerExtend F (d.withOps o) O' gens) :=
  Refines.loop (fun _ => Computer.extendStep_refines h hO _) _

theorem Computer.minimizeFor_refines (gens : List (Poly F)) (l : List (Nat × Nat)) :
    Refines (@Computer.minimizeFor F d O gens l)
      (@Computer.minimizeFor F (d.withOps o) O' gens l) := by
  induction l with
  | nil => exact Refines.refl _
  | cons ij rest ih => unfold Computer.minimizeFor; rauto

macro_rules | `(tactic| rlemma) => `(tactic| apply Computer.minimizeFor_refines <;> assumption)

theorem Computer.minimizeStep_refines (gens : List (Poly F)) :
    Refines (@Computer.minimizeStep F d O gens)
      (@Computer.minimizeStep F (d.withOps o) O' gens) := by
  unfold Computer.minimizeStep; rauto

theorem Computer.buchbergerMinimize_refines (gens : List (Poly F)) :
    Refines (@Computer.buchbergerMinimize F d O gens)
      (@Computer.buchbergerMinimize F (d.withOps o) O' gens) :=
  Refines.loop (fun _ => Computer.minimizeStep_refines h hO _) _

theorem Computer.reduceTerms_refines (g : Poly F) (l : List (Term F)) :
    Refines (@Computer.reduceTerms F d O g l) (@Computer.reduceTerms F (d.withOps o) O' g l) := by
  induction l with
  | nil => exact Refines.refl _
  | cons ij rest ih => unfold Computer.reduceTerms; rauto

macro_rules | `(tactic| rlemma) => `(tactic| apply Computer.reduceTerms_refines <;> assumption)

theorem Computer.reduceFor_refines (gens : List (Poly F)) (l : List (Nat × Nat)) :
    Refines (@Computer.reduceFor F d O gens l) (@Computer.reduceFor F (d.withOps o) O' gens l) := by
  induction l with
  | nil => exact Refines.refl _
  | cons ij rest ih => unfold Computer.reduceFor; rauto

macro_rules | `(tactic| rlemma) => `(tactic| apply Computer.reduceFor_refines <;> assumption)

theorem Computer.reduceStep_refines (gens : List (Poly F)) :
    Refines (@Computer.reduceStep F d O gens) (@Computer.reduceStep F (d.withOps o) O' gens) := by
  unfold Computer.reduceStep; rauto

theorem Computer.buchbergerReduce_refines (gens : List (Poly F)) :
    Refines (@Computer.buchbergerReduce F d O gens)
      (@Computer.buchbergerReduce F (d.withOps o) O' gens) :=
  Refines.loop (fun _ => Computer.reduceStep_refines h hO _) _

theorem Computer.buchbergerAlgorithm_refines (gens : List (Poly F)) :
    Refines (@Computer.buchbergerAlgorithm F d O gens)
      (@Computer.buchbergerAlgorithm F (d.withOps o) O' gens) :=
  (Computer.buchbergerExtend_refines h hO _).bind fun _ =>
    (Computer.buchbergerMinimize_refines h hO _).bind fun _ =>
      Computer.buchbergerReduce_refines h hO _

end comp

/-! ### Matrices -/

theorem Mat.offset_refines (M : Mat F) (r c : Nat) :
    Refines (@Mat.offset F d M r c) (@Mat.offset F (d.withOps o) M r c) := by
  unfold Mat.offset; rauto

macro_rules | `(tactic| rlemma) => `(tactic| apply Mat.offset_refines <;> assumption)

theorem Mat.get_refines (M : Mat F) (r c : Nat) :
    Refines (@Mat.get F d M r c) (@Mat.get F (d.withOps o) M r c) := by
  unfold Mat.get; rauto

theorem Mat.set_refines (M : Mat F) (r c : Nat) (x : F) :
    Refines (@Mat.set F d M r c x) (@Mat.set F (d.withOps o) M r c x) := by
  unfold Mat.set; rauto

theorem Mat.swap_refines (M : Mat F) (p q : Nat × Nat) :
    Refines (@Mat.swap F d M p q) (@Mat.swap F (d.withOps o) M p q) := by
  unfold Mat.swap; rauto

macro_rules | `(tactic| rlemma) => `(tactic| (first
  | apply Mat.get_refines | apply Mat.set_refines | apply Mat.swap_refines) <;> assumption)

theorem Mat.fromColVectors_refines (vs : List (Mat F)) :
    Refines (@Mat.fromColVectors F d vs) (@Mat.fromColVectors F (d.withOps o) vs) := by
  unfold Mat.fromColVectors; rauto

theorem Mat.fromRowVectors_refines (vs : List (Mat F)) :
    Refines (@Mat.fromRowVectors F d vs) (@Mat.fromRowVectors F (d.withOps o) vs) := by
  unfold Mat.fromRowVectors; rauto

theorem Mat.transpose_refines (M : Mat F) :
    Refines (@Mat.transpose F d M) (@Mat.transpose F (d.withOps o) M) := by
  unfold Mat.transpose; rauto

theorem Mat.scaleRow_refines (M : Mat F) (i : Nat) (x : F) :
    Refines (@Mat.scaleRow F d M i x) (@Mat.scaleRow F (d.withOps o) M i x) := by
  unfold Mat.scaleRow; rauto

theorem Mat.permuteRows_refines (M : Mat F) (i j : Nat) :
    Refines (@Mat.permuteRows F d M i j) (@Mat.permuteRows F (d.withOps o) M i j) := by
  unfold Mat.permuteRows; rauto

theorem Mat.replaceRow_refines (M : Mat F) (i j : Nat) (x : F) :
    Refines (@Mat.replaceRow F d M i j x) (@Mat.replaceRow F (d.withOps o) M i j x) := by
  unfold Mat.replaceRow; rauto

theorem Mat.scale_refines (M : Mat F) (x : F) :
    Refines (@Mat.scale F d M x) (@Mat.scale F (d.withOps o) M x) := by
  unfold Mat.scale; rauto

theorem Mat.getRowIter_refines (M : Mat F) (r : Nat) :
    Refines (@Mat.getRowIter F d M r) (@Mat.getRowIter F (d.withOps o) M r) := by
  unfold Mat.getRowIter; rauto

theorem Mat.getColIter_refines (M : Mat F) (r : Nat) :
    Refines (@Mat.getColIter F d M r) (@Mat.getColIter F (d.withOps o) M r) := by
  unfold Mat.getColIter; rauto

macro_rules | `(tactic| rlemma) => `(tactic| (first
  | apply Mat.fromRowVectors_refines | apply Mat.fromColVectors_refines | apply Mat.scaleRow_refines
  | apply Mat.permuteRows_refines | apply Mat.replaceRow_refines | apply Mat.scale_refines
  | apply Mat.getRowIter_refines | apply Mat.getColIter_refines) <;> assumption)

theorem Mat.getRow_refines (M : Mat F) (r : Nat) :
    Refines (@Mat.getRow F d M r) (@Mat.getRow F (d.withOps o) M r) := by
  unfold Mat.getRow; rauto

theorem Mat.getCol_refines (M : Mat F) (r : Nat) :
    Refines (@Mat.getCol F d M r) (@Mat.getCol F (d.withOps o) M r) := by
  unfold Mat.getCol; rauto

theorem Mat.frobeniusNorm_refines (M : Mat F) :
    Refines (@Mat.frobeniusNorm F d M) (@Mat.frobeniusNorm F (d.withOps o) M) := by
  unfold Mat.frobeniusNorm; rauto

theorem Mat.dot_refines (M N : Mat F) :
    Refines (@Mat.dot F d M N) (@Mat.dot F (d.withOps o) M N) := by
  unfold Mat.dot; rauto

theorem Mat.isUpperTriangular_refines (M : Mat F) :
    Refines (@Mat.isUpperTriangular F d M) (@Mat.isUpperTriangular F (d.withOps o) M) := by
  unfold Mat.isUpperTriangular; rauto

theorem Mat.isLowerTriangular_refines (M : Mat F) :
    Refines (@Mat.isLowerTriangular F d M) (@Mat.isLowerTriangular F (d.withOps o) M) := by
  unfold Mat.isLowerTriangular; rauto

theorem Mat.add_refines (M N : Mat F) :
    Refines (@Mat.add F d M N) (@Mat.add F (d.withOps o) M N) := by
  unfold Mat.add; rauto

theorem Mat.smul_refines (M : Mat F) (x : F) :
    Refines (@Mat.smul F d M x) (@Mat.smul F (d.withOps o) M x) := by
  unfold Mat.smul; rauto

theorem Mat.mul_refines (M N : Mat F) :
    Refines (@Mat.mul F d M N) (@Mat.mul F (d.withOps o) M N) := by
  unfold Mat.mul; rauto

macro_rules | `(tactic| rlemma) => `(tactic| (first
  | apply Mat.getRow_refines | apply Mat.getCol_refines | apply Mat.frobeniusNorm_refines
  | apply Mat.dot_refines | apply Mat.add_refines | apply Mat.smul_refines
  | apply Mat.mul_refines) <;> assumption)

theorem matIterNext_refines (n m : Nat) (values : List F) (num : Nat) :
    Refines (@matIterNext F d n m values num) (@matIterNext F (d.withOps o) n m values num) := by
  unfold matIterNext; rauto

theorem matIterator_refines (n m : Nat) (values : List F) :
    Refines (@matIterator F d n m values) (@matIterator F (d.withOps o) n m values) :=
  Refines.loop (fun s : Nat × List (Mat F) =>
    show Refines (@matIteratorStep F d n m values s) (@matIteratorStep F (d.withOps o) n m values s)
      from (matIterNext_refines h n m values s.1).bind fun _ => Refines.refl _) _

/-! ### Elimination -/

theorem Mat.permuteUnderDiagonal_refines (M : Mat F) (i j : Nat) :
    Refines (@Mat.permuteUnderDiagonal F d M i j)
      (@Mat.permuteUnderDiagonal F (d.withOps o) M i j) := by
  unfold Mat.permuteUnderDiagonal; rauto

macro_rules | `(tactic| rlemma) => `(tactic| apply Mat.permuteUnderDiagonal_refines <;> assumption)

theorem LUInternal.permute_refines (lu : LUInternal F) (i j : Nat) :
    Refines (@LUInternal.permute F d lu i j) (@LUInternal.permute F (d.withOps o) lu i j) := by
  unfold LUInternal.permute; rauto

theorem LUInternal.scaleRow_refines (lu : LUInternal F) (i : Nat) (x : F) :
    Refines (@LUInternal.scaleRow F d lu i x) (@LUInternal.scaleRow F (d.withOps o) lu i x) := by
  unfold LUInternal.scaleRow; rauto

theorem LUInternal.replaceColUnderRow_refines (lu : LUInternal F) (i j : Nat) :
    Refines (@LUInternal.replaceColUnderRow F d lu i j)
      (@LUInternal.replaceColUnderRow F (d.withOps o) lu i j) := by
  unfold LUInternal.replaceColUnderRow; rauto

theorem Form.permuteRows_refines (f : Form F) (i j : Nat) :
    Refines (@Form.permuteRows F d f i j) (@Form.permuteRows F (d.withOps o) f i j) := by
  unfold Form.permuteRows; rauto

theorem Form.scaleRow_refines (f : Form F) (i : Nat) (x : F) :
    Refines (@Form.scaleRow F d f i x) (@Form.scaleRow F (d.withOps o) f i x) := by
  unfold Form.scaleRow; rauto

theorem Form.replaceStep_refines (r c : Nat) (f : Form F) (i : Nat) :
    Refines (@Form.replaceStep F d r c f i) (@Form.replaceStep F (d.withOps o) r c f i) := by
  unfold Form.replaceStep; rauto

theorem Form.replaceColUnderRow_refines (f : Form F) (r c : Nat) :
    Refines (@Form.replaceColUnderRow F d f r c)
      (@Form.replaceColUnderRow F (d.withOps o) f r c) :=
  Refines.foldlM (fun _ _ => Form.replaceStep_refines h _ _ _ _) _ _

theorem Form.replaceColAboveRow_refines (f : Form F) (r c : Nat) :
    Refines (@Form.replaceColAboveRow F d f r c)
      (@Form.replaceColAboveRow F (d.withOps o) f r c) :=
  Refines.foldlM (fun _ _ => Form.replaceStep_refines h _ _ _ _) _ _

macro_rules | `(tactic| rlemma) => `(tactic| (first
  | apply LUInternal.permute_refines | apply LUInternal.scaleRow_refines
  | apply LUInternal.replaceColUnderRow_refines | apply Form.permuteRows_refines
  | apply Form.scaleRow_refines | apply Form.replaceColUnderRow_refines
  | apply Form.replaceColAboveRow_refines) <;> assumption)

section eps
variable {e e' : EpsilonEquality F}
  (he : ∀ x y, Refines (e.epsilonEquals x y) (e'.epsilonEquals x y))
include he

theorem Mat.epsilonEquals_refines (M N : Mat F) :
    Refines (@Mat.epsilonEquals F d e M N) (@Mat.epsilonEquals F (d.withOps o) e' M N) := by
  unfold Mat.epsilonEquals; rauto; exact he _ _

theorem Mat.firstNonzero_refines (M : Mat F) (r : Nat) :
    Refines (@Mat.firstNonzero F d e M r) (@Mat.firstNonzero F (d.withOps o) e' M r) := by
  unfold Mat.firstNonzero
  exact (Mat.getRow_refines h _ _).bind fun _ => position_refines
    (fun _ => (he _ _).bind fun _ => Refines.refl _) _

macro_rules | `(tactic| rlemma) => `(tactic| apply Mat.firstNonzero_refines <;> assumption)

theorem Mat.zeroRows_refines (M : Mat F) :
    Refines (@Mat.zeroRows F d e M) (@Mat.zeroRows F (d.withOps o) e' M) := by
  unfold Mat.zeroRows; rauto

macro_rules | `(tactic| rlemma) => `(tactic| apply Mat.zeroRows_refines <;> assumption)

theorem Form.rank_refines (f : Form F) :
    Refines (@Form.rank F d e f) (@Form.rank F (d.withOps o) e' f) := by
  unfold Form.rank; rauto

macro_rules | `(tactic| rlemma) => `(tactic| apply Form.rank_refines <;> assumption)

theorem Form.nullity_refines (f : Form F) :
    Refines (@Form.nullity F d e f) (@Form.nullity F (d.withOps o) e' f) := by
  unfold Form.nullity; rauto

theorem Form.toRref_refines (f : Form F) :
    Refines (@Form.toRref F d e f) (@Form.toRref F (d.withOps o) e' f) := by
  unfold Form.toRref; rauto

theorem Form.boundVariables_refines (f : Form F) :
    Refines (@Form.boundVariables F d e f) (@Form.boundVariables F (d.withOps o) e' f) := by
  unfold Form.boundVariables; rauto

macro_rules | `(tactic| rlemma) => `(tactic| apply Form.boundVariables_refines <;> assumption)

theorem Form.computeKernel_refines (f : Form F) :
    Refines (@Form.computeKernel F d e f) (@Form.computeKernel F (d.withOps o) e' f) := by
  unfold Form.computeKernel; rauto

theorem Form.computeRange_refines (order : List Nat → List Nat) (f : Form F) :
    Refines (@Form.computeRange F d e order f) (@Form.computeRange F (d.withOps o) e' order f) := by
  unfold Form.computeRange; rauto

macro_rules | `(tactic| rlemma) => `(tactic| (first
  | apply Form.toRref_refines | apply Form.computeKernel_refines) <;> assumption)

variable {s s' : StabilityCmp F}
  (hs : ∀ x y, Refines (s.stabilityCmp x y) (s'.stabilityCmp x y))
include hs

theorem Mat.getStable_refines (M : Mat F) (c r : Nat) :
    Refines (@Mat.getStable F d e s M c r) (@Mat.getStable F (d.withOps o) e' s' M c r) := by
  unfold Mat.getStable
  exact (Mat.getColIter_refines h _ _).bind fun _ => (getMaxIndex_refines hs _).bind fun _ =>
    (Mat.get_refines h _ _ _).bind fun _ => (he _ _).bind fun _ => Refines.refl _

macro_rules | `(tactic| rlemma) => `(tactic| apply Mat.getStable_refines <;> assumption)

theorem Mat.luFor_refines (n : Nat) (l : List Nat) (r : Nat) (lu : LUInternal F) :
    Refines (@Mat.luFor F d e s n l r lu) (@Mat.luFor F (d.withOps o) e' s' n l r lu) := by
  induction l generalizing r lu with
  | nil => exact Refines.refl _
  | cons c cs ih => unfold Mat.luFor; rauto <;> apply ih

theorem Mat.lu_refines (M : Mat F) :
    Refines (@Mat.lu F d e s M) (@Mat.lu F (d.withOps o) e' s' M) := by
  unfold Mat.lu
  exact (Mat.luFor_refines h he hs _ _ _ _).bind fun _ => Refines.refl _

theorem Mat.rowEchelonFor_refines (n : Nat) (l : List Nat) (r : Nat) (f : Form F) :
    Refines (@Mat.rowEchelonFor F d e s n l r f)
      (@Mat.rowEchelonFor F (d.withOps o) e' s' n l r f) := by
  induction l generalizing r f with
  | nil => exact Refines.refl _
  | cons c cs ih => unfold Mat.rowEchelonFor; rauto <;> apply ih

theorem Mat.rowEchelon_refines (M : Mat F) :
    Refines (@Mat.rowEchelon F d e s M) (@Mat.rowEchelon F (d.withOps o) e' s' M) :=
  Mat.rowEchelonFor_refines h he hs _ _ _ _

macro_rules | `(tactic| rlemma) => `(tactic| apply Mat.rowEchelon_refines <;> assumption)

/-! ### Cones -/

variable {p p' : FieldOrd F} (hp : ∀ x y, Refines (p.partialCmp x y) (p'.partialCmp x y))
include hp

omit he hs in
theorem Cone.allAbove_refines (n : Mat F) (l : List (Mat F)) :
    Refines (@Cone.allAbove F d p n l) (@Cone.allAbove F (d.withOps o) p' n l) := by
  induction l with
  | nil => exact Refines.refl _
  | cons g l ih => unfold Cone.allAbove; rauto; exact hp _ _

macro_rules | `(tactic| rlemma) => `(tactic| apply Cone.allAbove_refines <;> assumption)

theorem Cone.facetOf_refines (gens : List (Mat F)) (k : Nat) (subset : List (Mat F)) :
    Refines (@Cone.facetOf F d e s p gens k subset)
      (@Cone.facetOf F (d.withOps o) e' s' p' gens k subset) := by
  unfold Cone.facetOf; rauto; exact hp _ _

macro_rules | `(tactic| rlemma) => `(tactic| apply Cone.facetOf_refines <;> assumption)

theorem Cone.new_refines (gens : List (Mat F)) :
    Refines (@Cone.new F d e s p gens) (@Cone.new F (d.withOps o) e' s' p' gens) := by
  unfold Cone.new; rauto

end eps
end ops
end Verif
