import Mathlib.Data.ZMod.Basic
import Verif.Proofs.Relate
import Verif.Proofs.Closed
import Verif.Proofs.Simulate
import Verif.Props.OrdWrap
import Verif.Props.Closed
import Verif.Proofs.Run

/-!
# Property C209: orders that agree on monomials of the same degree

If all terms of a polynomial have the same total degree, the routines of `Computer` only compare monomials of
the same degree.  So two orders that agree on these give the same runs, for instance `Lex` and `GrLex`.
-/

namespace Verif
open Res Computer

namespace Res
variable {α β : Type}

/-- The same outcome, a value of which satisfies `P`. -/
def Same (P : α → Prop) (x y : Res α) : Prop := Rel (fun a b => a = b ∧ P a) x y

variable {P : α → Prop} {Q : β → Prop}

theorem Same.of_holds {x : Res α} (h : Holds P x) : Same P x x := by
  cases x with
  | ok a => exact ⟨rfl, h a rfl⟩
  | panic p => exact (rfl : p = p)
  | diverge => trivial

theorem Same.bind {x y : Res α} {f g : α → Res β} (h : Same P x y) (hf : ∀ a, P a → Same Q (f a) (g a)) :
    Same Q (x >>= f) (y >>= g) :=
  Rel.bind h fun a b hab => by rw [← hab.1]; exact hf a hab.2

theorem Same.eq {x y : Res α} (h : Same P x y) : x = y := (Rel.imp h fun _ _ h => h.1).eq

theorem Same.imp {P' : α → Prop} {x y : Res α} (h : Same P x y) (hP : ∀ a, P a → P' a) : Same P' x y :=
  Rel.imp h fun _ _ h => ⟨h.1, hP _ h.2⟩

theorem Same.and {P' : α → Prop} {x y : Res α} (h : Same P x y) (h' : Holds P' x) :
    Same (fun a => P a ∧ P' a) x y := by
  cases x <;> cases y <;> first | exact h.elim | exact h | exact ⟨h.1, h.2, h' _ rfl⟩

theorem Same.loop {I : α → Prop} {step step' : α → Res (α ⊕ β)}
    (H : ∀ s, I s → Same (Sum.elim I Q) (step s) (step' s)) {s : α} (hs : I s) :
    Same Q (Res.loop step s) (Res.loop step' s) := by
  refine Rel.loop (R := fun a b => a = b ∧ I a) ?_ ⟨rfl, hs⟩
  rintro a _ ⟨rfl, ha⟩
  refine Rel.imp (H a ha) ?_
  rintro x _ ⟨rfl, hx⟩
  cases x with
  | inl a => exact ⟨rfl, hx⟩
  | inr a => exact ⟨rfl, hx⟩

end Res

/-! ### Degrees modulo 256 -/

namespace MDeg

/-- The total degree modulo 256, which additions that wrap around keep. -/
def wdeg (m : MDeg) : ZMod 256 := (m.sum : ℕ)

theorem wdeg_zero : wdeg MDeg.zero = 0 := rfl

/-- What an item of `zip_longest` adds to the difference of the sums. -/
def EitherOrBoth.sum : EitherOrBoth ℕ → ℕ
  | .both a b => a + b
  | .left a => a
  | .right b => b

theorem zipLongest_sum (a b : List ℕ) : ((zipLongest a b).map EitherOrBoth.sum).sum = a.sum + b.sum := by
  induction a generalizing b with
  | nil =>
    simp only [zipLongest, List.map_map, List.sum_nil, zero_add]
    congr 1
    exact (List.map_congr_left fun _ _ => rfl).trans (List.map_id b)
  | cons x xs ih =>
    cases b with
    | nil =>
      simp only [zipLongest, List.map_map, List.sum_nil, add_zero]
      congr 1
      exact (List.map_congr_left fun _ _ => rfl).trans (List.map_id _)
    | cons y ys =>
      simp only [zipLongest, List.map_cons, List.sum_cons, ih ys, EitherOrBoth.sum]
      omega

theorem norm_wdeg (b : Build) (x : ℕ) : Holds (fun c : ℕ => (c : ZMod 256) = (x : ℕ)) (U8.norm b x) := by
  unfold U8.norm
  split
  · exact Holds.ok rfl
  · cases b
    · exact Holds.panic
    · exact Holds.ok (by simp)

theorem addLoop_wdeg (b : Build) (l : List (EitherOrBoth ℕ)) (z : ℕ) (degs : List ℕ) :
    Holds (fun m => wdeg m = wdeg degs + ((l.map EitherOrBoth.sum).sum : ℕ)) (addLoop b l z degs) := by
  induction l generalizing z degs with
  | nil => exact Holds.ok (by simp)
  | cons x l ih =>
    unfold addLoop
    split
    · exact (ih _ _).imp fun m h => by simpa [EitherOrBoth.sum] using h
    · exact (ih _ _).imp fun m h => by simpa [EitherOrBoth.sum] using h
    · exact (ih _ _).imp fun m h => by simpa [EitherOrBoth.sum] using h
    · refine (norm_wdeg b _).bind fun c hc => (ih _ _).imp fun m h => ?_
      rw [h]
      simp [wdeg, EitherOrBoth.sum, hc]
      ring
    · refine (ih _ _).imp fun m h => ?_
      rw [h]
      simp [wdeg, EitherOrBoth.sum]
      ring
    · refine (ih _ _).imp fun m h => ?_
      rw [h]
      simp [wdeg, EitherOrBoth.sum]
      ring

theorem add_wdeg (b : Build) (m n : MDeg) : Holds (fun k => wdeg k = wdeg m + wdeg n) (MDeg.add b m n) := by
  refine (addLoop_wdeg b _ _ _).imp fun k h => ?_
  rw [h, zipLongest_sum]
  simp [wdeg]

theorem checkedSubLoop_wdeg (a b : List ℕ) (z : ℕ) (degs k : List ℕ)
    (h : checkedSubLoop (zipLongest a b) z degs = some k) : wdeg k + wdeg b = wdeg degs + wdeg a := by
  induction a generalizing b z degs with
  | nil =>
    cases b with
    | nil =>
      simp only [zipLongest, List.map_nil, checkedSubLoop, Option.some.injEq] at h
      simp [h]
    | cons y ys => simp [zipLongest, checkedSubLoop] at h
  | cons x xs ih =>
    cases b with
    | nil =>
      have : zipLongest (x :: xs) [] = .left x :: zipLongest xs [] := by
        cases xs <;> simp [zipLongest]
      rw [this, checkedSubLoop] at h
      have := ih _ _ _ h
      simp [wdeg] at this ⊢
      rw [this]; ring
    | cons y ys =>
      simp only [zipLongest, checkedSubLoop] at h
      split at h
      · cases h
      · rename_i hc
        have := ih _ _ _ h
        rw [compare_eq_iff_eq] at hc
        simp [wdeg, hc] at this ⊢
        linear_combination this
      · rename_i hc
        have := ih _ _ _ h
        rw [compare_gt_iff_gt] at hc
        simp [wdeg, Nat.cast_sub hc.le] at this ⊢
        linear_combination this

theorem checkedSub_wdeg {m n k : MDeg} (h : m.checkedSub n = some k) : wdeg k = wdeg m - wdeg n := by
  unfold checkedSub at h
  split at h
  · rename_i hz
    obtain rfl : n = [] := List.isEmpty_iff.mp hz
    cases h
    simp [wdeg]
  · split at h
    · cases h
    · have := checkedSubLoop_wdeg _ _ _ _ _ h
      rw [show wdeg ([] : List ℕ) = 0 from rfl, zero_add] at this
      exact eq_sub_of_add_eq this

end MDeg

/-! ### Polynomials all of whose terms have the same degree -/

section
variable {F : Type} [RField F]

/-- No term is zero and all terms have the degree `d` modulo 256. -/
def Poly.Even (d : ZMod 256) (p : Poly F) : Prop := ∀ t ∈ p, t.isZero = false ∧ t.mdeg.wdeg = d

/-- `P` is closed under the operations, no product of nonzero coefficients in `P` is zero, and one is not zero. -/
structure NoZeroProducts (P : F → Prop) : Prop extends ClosedField P where
  one_ne : RField.beq (RField.one : F) RField.zero = false
  mul_ne : ∀ a b : F, P a → P b → RField.beq a RField.zero = false → RField.beq b RField.zero = false →
    Holds (fun c => RField.beq c RField.zero = false) (RField.mul a b)

/-- Only the degrees. -/
def Poly.Level (d : ZMod 256) (p : Poly F) : Prop := ∀ t ∈ p, t.mdeg.wdeg = d

theorem Poly.Even.level {d : ZMod 256} {p : Poly F} (h : Poly.Even d p) : Poly.Level d p := fun t ht => (h t ht).2

theorem Poly.even_ofTerm {d : ZMod 256} {t : Term F} (h : t.mdeg.wdeg = d) : Poly.Even d (Poly.ofTerm t) := by
  unfold Poly.ofTerm
  cases hz : t.isZero
  · intro s hs
    rw [if_neg (by simp), Poly.termUnchecked, Poly.newUnchecked, List.mem_singleton] at hs
    rw [hs]
    exact ⟨hz, h⟩
  · intro s hs; cases hs

theorem Poly.addNonzeroTerm_even {d : ZMod 256} {p : Poly F} (hp : p.Even d) {t : Term F} (h : t.mdeg.wdeg = d)
    (hz : t.isZero = false) : Holds (Poly.Even d) (Poly.addNonzeroTerm p t) := by
  induction p with
  | nil => exact Holds.ok (by simpa [Poly.Even] using ⟨hz, h⟩)
  | cons s ts ih =>
    have hts : Poly.Even d ts := fun x hx => hp x (by simp [hx])
    unfold Poly.addNonzeroTerm
    split
    · refine Holds.bind' fun c => ?_
      dsimp only
      split
      · exact Holds.ok hts
      · rename_i hc
        exact Holds.ok (List.forall_mem_cons.mpr ⟨⟨by simpa using hc, (hp s (by simp)).2⟩, hts⟩)
    · exact (ih hts).bind fun ts' h' => Holds.ok (List.forall_mem_cons.mpr ⟨hp s (by simp), h'⟩)

theorem Poly.addTerm_even {d : ZMod 256} {p : Poly F} (hp : p.Even d) {t : Term F} (h : t.mdeg.wdeg = d) :
    Holds (Poly.Even d) (Poly.addTerm p t) := by
  unfold Poly.addTerm
  split
  · exact Holds.ok (Poly.even_ofTerm h)
  · split
    · exact Holds.ok hp
    · rename_i hz
      exact Poly.addNonzeroTerm_even hp h (by simpa using hz)

theorem Poly.sub_even {d : ZMod 256} {p q : Poly F} (hp : p.Even d) (hq : q.Level d) :
    Holds (Poly.Even d) (Poly.sub p q) := by
  refine Holds.bind (P := fun r => ∀ t ∈ r, t.mdeg.wdeg = d) (Holds.mapM fun t ht => ?_) fun r hr =>
    Holds.foldlM hp fun b t ht hb => Poly.addTerm_even hb (hr t ht)
  exact Holds.bind' fun c => Holds.ok (hq t ht)

theorem Term.mul_wdeg {s t : Term F} (hs : s.isZero = false) (ht : t.isZero = false) :
    Holds (fun u => u.mdeg.wdeg = s.mdeg.wdeg + t.mdeg.wdeg) (s.mul t) := by
  unfold Term.mul
  rw [hs, ht]
  exact Holds.bind' fun c => (MDeg.add_wdeg _ _ _).bind fun m hm => Holds.ok hm

theorem Poly.mulTerm_level {d : ZMod 256} {p : Poly F} (hp : p.Even d) (t : Term F) :
    Holds (Poly.Level (d + t.mdeg.wdeg)) (Poly.mulTerm p t) := by
  unfold Poly.mulTerm
  cases hz : t.isZero
  · rw [Bool.false_or]
    split
    · exact Holds.ok (by intro s hs; cases hs)
    · refine Holds.mapM fun s hs => ?_
      exact (Term.mul_wdeg (hp s hs).1 hz).imp fun u hu => by rw [hu, (hp s hs).2]
  · exact Holds.ok (by intro s hs; cases hs)

theorem Poly.mulTerm_even {P : F → Prop} (hF : NoZeroProducts P) {d : ZMod 256} {p : Poly F} (hp : p.Even d)
    (hP : p.Over P) (t : Term F) (ht : P t.coef) :
    Holds (Poly.Even (d + t.mdeg.wdeg)) (Poly.mulTerm p t) := by
  unfold Poly.mulTerm
  cases hz : t.isZero
  · rw [Bool.false_or]
    split
    · exact Holds.ok (by intro s hs; cases hs)
    · refine Holds.mapM fun s hs => ?_
      unfold Term.mul
      rw [(hp s hs).1, hz]
      refine (hF.mul_ne _ _ (hP s hs) ht (hp s hs).1 hz).bind fun c hc => (MDeg.add_wdeg _ _ _).bind fun m hm => Holds.ok ⟨hc, ?_⟩
      rw [← (hp s hs).2]
      exact hm
  · exact Holds.ok (by intro s hs; cases hs)

theorem Term.tryDiv_wdeg {s t : Term F} (hs : s.isZero = false) :
    Holds (fun o => ∀ a ∈ o, a.mdeg.wdeg = s.mdeg.wdeg - t.mdeg.wdeg) (s.tryDiv t) := by
  unfold Term.tryDiv
  rw [hs]
  rw [if_neg (by simp)]
  split
  · exact Holds.ok (by simp)
  · refine Holds.bind' fun c => ?_
    cases h : s.mdeg.checkedSub t.mdeg with
    | none => exact Holds.ok (by simp)
    | some m =>
      refine Holds.ok fun a ha => ?_
      cases ha
      exact MDeg.checkedSub_wdeg h

/-! ### Comparisons -/

variable {O O' : MOrder} (ho : ∀ a b : MDeg, a.wdeg = b.wdeg → O.cmp a b = O'.cmp a b)
include ho

omit [RField F] in
theorem cmp_level {d : ZMod 256} {f : Poly F} (hf : f.Level d) : ∀ a b a' b' : Term F, (a = b ∧ a ∈ f) →
    (a' = b' ∧ a' ∈ f) → O.cmp a.mdeg a'.mdeg = O'.cmp b.mdeg b'.mdeg := by
  rintro a _ a' _ ⟨rfl, ha⟩ ⟨rfl, ha'⟩
  exact ho _ _ ((hf a ha).trans (hf a' ha').symm)

omit ho [RField F] in
theorem forall₂_self (f : Poly F) : List.Forall₂ (fun a b => a = b ∧ a ∈ f) f f :=
  List.forall₂_same.mpr fun _ h => ⟨rfl, h⟩

omit [RField F] in
theorem leadingTerm_same {d : ZMod 256} {f : Poly F} (hf : f.Level d) :
    Same (fun o => ∀ t ∈ o, t ∈ f) (leadingTerm O f) (leadingTerm O' f) := by
  refine Rel.imp (maxBy_rel (cmp_level ho hf) (forall₂_self f)) fun a b hab => ?_
  rcases a with _ | a <;> rcases b with _ | b
  · exact ⟨rfl, by simp⟩
  · exact hab.elim
  · exact hab.elim
  · exact ⟨congrArg some hab.1, by simpa using hab.2⟩

omit [RField F] in
theorem sortTerms_same {d : ZMod 256} {f : Poly F} (hf : f.Level d) :
    Same (fun g => ∀ t ∈ g, t ∈ f) (sortTerms O f) (sortTerms O' f) := by
  refine Rel.imp (sortBy_rel (cmp_level ho hf) (forall₂_self f)) fun a b hab => ?_
  induction hab with
  | nil => exact ⟨rfl, by simp⟩
  | cons h _ ih =>
    obtain ⟨rfl, h⟩ := h
    obtain ⟨rfl, ih⟩ := ih
    exact ⟨rfl, List.forall_mem_cons.mpr ⟨h, ih⟩⟩

omit [RField F] in
theorem leadingCoef_same {d : ZMod 256} {f : Poly F} (hf : f.Level d) :
    leadingCoef O f = leadingCoef O' f :=
  congrArg (· >>= _) (leadingTerm_same ho hf).eq

omit [RField F] in
theorem unwrapLeadingTerm_same {d : ZMod 256} {f : Poly F} (hf : f.Level d) :
    unwrapLeadingTerm O f = unwrapLeadingTerm O' f :=
  congrArg (· >>= _) (leadingTerm_same ho hf).eq

theorem divideFor_same {d : ZMod 256} {f : Poly F} (hf : f.Even d) {lt : Term F} (hlt : lt ∈ f)
    {l : List (Poly F × Poly F)} (hl : ∀ x ∈ l, ∃ e, Poly.Even e x.1) :
    Same (fun o => ∀ x ∈ o, Poly.Even d x.2) (divideFor O lt f l) (divideFor O' lt f l) := by
  induction l with
  | nil => exact Same.of_holds (Holds.ok (by simp))
  | cons x rest ih =>
    obtain ⟨g, q⟩ := x
    obtain ⟨e, he⟩ := hl (g, q) (by simp)
    have ih := ih fun x hx => hl x (by simp [hx])
    unfold divideFor
    dsimp only
    have next : Same (fun o => ∀ x ∈ o, Poly.Even d x.2)
        (divideFor O lt f rest >>= fun o => match o with
          | none => pure none
          | some (qs, f') => pure (some (q :: qs, f')))
        (divideFor O' lt f rest >>= fun o => match o with
          | none => pure none
          | some (qs, f') => pure (some (q :: qs, f'))) := by
      refine ih.bind fun o h => Same.of_holds ?_
      rcases o with _ | ⟨qs, f'⟩
      · exact Holds.ok (by simp)
      · exact Holds.ok (by simpa using h)
    refine (leadingTerm_same ho he.level).bind fun o hlg => ?_
    rcases o with _ | ltG
    · exact next
    refine (Same.of_holds (Term.tryDiv_wdeg (hf lt hlt).1)).bind fun o ha => ?_
    rcases o with _ | a
    · exact next
    refine Same.of_holds (Holds.bind' fun q' => ?_)
    refine (Poly.mulTerm_level he a).bind fun ag hag => ?_
    have hag : Poly.Level d ag := by
      rw [ha a rfl, (hf lt hlt).2, (he ltG (hlg ltG rfl)).2, add_sub_cancel] at hag
      exact hag
    exact (Poly.sub_even hf hag).bind fun f' hf' => Holds.ok (by simpa using hf')

theorem divide_same {d : ZMod 256} {f : Poly F} (hf : f.Even d) {divs : List (Poly F)}
    (hd : ∀ g ∈ divs, ∃ e, Poly.Even e g) :
    Same (fun x => Poly.Even d x.1) (divide O f divs) (divide O' f divs) := by
  refine Same.loop (I := fun s => Poly.Even d s.f ∧ Poly.Even d s.remainder) ?_
    ⟨hf, by intro t ht; cases ht⟩
  rintro s ⟨hs, hr⟩
  unfold divideStep
  refine (leadingTerm_same ho hs.level).bind fun o hlt => ?_
  rcases o with _ | lt
  · exact Same.of_holds (Holds.ok hr)
  refine (divideFor_same ho hs (hlt lt rfl) fun x hx => hd x.1 ?_).bind fun o h => ?_
  · exact (List.of_mem_zip hx).1
  rcases o with _ | ⟨qs, f'⟩
  · refine (sortTerms_same ho hs.level).bind fun g hg => Same.of_holds ?_
    cases hl : g.getLast? with
    | none => exact Holds.ok ⟨fun t ht => hs t (hg t ht), hr⟩
    | some t =>
      refine (Poly.addTerm_even hr (hs t (hg t (List.mem_of_getLast? hl))).2).bind fun r hr' => Holds.ok ?_
      exact ⟨fun t ht => hs t (hg t (List.mem_of_mem_dropLast ht)), hr'⟩
  · exact Same.of_holds (Holds.ok ⟨h _ rfl, hr⟩)

/-! ### Buchberger's algorithm -/

variable {P : F → Prop} (hF : NoZeroProducts P)

/-- No zero terms, one degree, and coefficients in `P`. -/
def Poly.Fine (P : F → Prop) (g : Poly F) : Prop := (∃ d, Poly.Even d g) ∧ g.Over P

include hF

theorem tryReduce_same {f g : Poly F} (hf : f.Fine P) (hg : g.Fine P) :
    Same (fun o => ∀ h ∈ o, Poly.Fine P h) (tryReduce O f g) (tryReduce O' f g) := by
  obtain ⟨⟨d, hf⟩, hfP⟩ := hf
  obtain ⟨⟨e, hg⟩, hgP⟩ := hg
  refine Same.imp (P := fun o => (∀ h ∈ o, ∃ d, Poly.Even d h) ∧ ∀ h, o = some h → Poly.Over P h)
    (Same.and ?_ (over_tryReduce hF.toClosedField hfP hgP)) fun o h x hx => ⟨h.1 x hx, h.2 x hx⟩
  unfold tryReduce
  refine (leadingTerm_same ho hf.level).bind fun o hs => ?_
  rcases o with _ | s
  · exact Same.of_holds (Holds.ok (by simp))
  refine (leadingTerm_same ho hg.level).bind fun o ht => Same.of_holds ?_
  rcases o with _ | t
  · exact Holds.ok (by simp)
  have hsP := hfP s (hs s rfl)
  have hs := hf s (hs s rfl)
  have ht := hg t (ht t rfl)
  have hl : monicLcm s t = Term.monic (lcmMDeg s.mdeg t.mdeg) := by
    unfold monicLcm
    rw [hs.1, ht.1]
    rfl
  have hz : (monicLcm s t).isZero = false := by rw [hl]; exact hF.one_ne
  have h1 : P (monicLcm s t).coef := by rw [hl]; exact hF.one
  dsimp only
  refine Holds.bind (P := fun o => (∀ a ∈ o, a.mdeg.wdeg = _) ∧ ∀ a, o = some a → P a.coef)
    (fun o h => ⟨Term.tryDiv_wdeg hz o h, Term.over_tryDiv hF.zero hF.div h1 hsP o h⟩) fun o ha => ?_
  rcases o with _ | a
  · exact Holds.ok (by simp)
  refine (Poly.mulTerm_even hF hf hfP a (ha.2 a rfl)).bind fun af haf => ?_
  refine (Term.tryDiv_wdeg hz).bind fun o hb => ?_
  rcases o with _ | b
  · exact Holds.ok (by simp)
  refine (Poly.mulTerm_level hg b).bind fun bg hbg => ?_
  rw [ha.1 a rfl, hs.2, add_sub_cancel] at haf
  rw [hb b rfl, ht.2, add_sub_cancel] at hbg
  exact (Poly.sub_even haf hbg).bind fun h hh => Holds.ok (by simpa using ⟨_, hh⟩)

omit ho hF [RField F] in
theorem index_same {Q : Poly F → Prop} {gens : List (Poly F)} (hg : ∀ g ∈ gens, Q g) (i : ℕ) :
    Same Q (index gens i) (index gens i) :=
  Same.of_holds (index_holds_mem.imp hg)

theorem criterion_same {gens : List (Poly F)} (hg : ∀ g ∈ gens, Poly.Fine P g) :
    buchbergerCriterion O gens = buchbergerCriterion O' gens := by
  unfold buchbergerCriterion
  generalize pairsIter gens.length = l
  refine Same.eq (P := fun _ => True) ?_
  induction l with
  | nil => exact Same.of_holds (Holds.ok trivial)
  | cons x rest ih =>
    obtain ⟨i, j⟩ := x
    unfold criterionFor
    refine (index_same hg i).bind fun a ha => (index_same hg j).bind fun b hb => ?_
    refine (tryReduce_same ho hF ha hb).bind fun o h => ?_
    rcases o with _ | s
    · exact Same.of_holds Holds.panic
    obtain ⟨⟨d, hs⟩, hsP⟩ := h s rfl
    refine (divide_same ho hs fun g h => (hg g h).1).bind ?_
    rintro ⟨r, qs⟩ -
    dsimp only
    split
    · exact Same.of_holds (Holds.ok trivial)
    · exact ih

theorem extend_same {gens : List (Poly F)} (hg : ∀ g ∈ gens, Poly.Fine P g) :
    Same (fun G => ∀ g ∈ G, Poly.Fine P g) (buchbergerExtend O gens) (buchbergerExtend O' gens) := by
  refine Same.loop (I := fun s => ∀ g ∈ s.1, Poly.Fine P g) ?_ hg
  rintro ⟨gens, i⟩ hg
  dsimp only at hg
  have hfor : ∀ l, Same (fun o => ∀ r ∈ o, Poly.Fine P r) (extendFor O gens i l) (extendFor O' gens i l) := by
    intro l
    induction l with
    | nil => exact Same.of_holds (Holds.ok (by simp))
    | cons j rest ih =>
      unfold extendFor
      refine (index_same hg i).bind fun a ha => (index_same hg j).bind fun b hb => ?_
      refine (tryReduce_same ho hF ha hb).bind fun o h => ?_
      rcases o with _ | s
      · exact Same.of_holds Holds.panic
      obtain ⟨⟨d, hs⟩, hsP⟩ := h s rfl
      refine ((divide_same ho hs fun g h => (hg g h).1).and (over_divide hF.toClosedRing hF.div hsP fun g h =>
        ⟨(hg g h).2, leadsIn_of_over (hg g h).2⟩)).bind ?_
      rintro ⟨r, qs⟩ ⟨hr, hrP, -⟩
      dsimp only at hr hrP ⊢
      rw [leadingCoef_same ho hr.level]
      refine (Same.of_holds (P := fun o => ∀ a, o = some a → P a ∧ RField.beq a RField.zero = false) ?_).bind
        fun o hc => ?_
      · refine leadingTerm_holds_mem.bind fun o ho => Holds.ok fun a ha => ?_
        obtain ⟨t, rfl, rfl⟩ := Option.map_eq_some_iff.mp ha
        exact ⟨hrP t (ho t rfl), (hr t (ho t rfl)).1⟩
      rcases o with _ | lc
      · exact ih
      · refine Same.of_holds (Holds.bind (P := Poly.Fine P) ?_ fun r' h => Holds.ok (by simpa using h))
        obtain ⟨h1, h2⟩ := hc lc rfl
        refine fun r' h => ⟨?_, Poly.over_divCoef hF.toClosedField hrP h1 h2 r' h⟩
        exact ((hF.inv _ h1 h2).bind (fun c hc => (Poly.mulTerm_even hF hr hrP (Term.constantUnchecked c) hc).imp
          fun _ h => (⟨_, h⟩ : ∃ d, Poly.Even d _))) r' h
  unfold extendStep
  dsimp only
  split
  · refine (hfor _).bind fun o h => Same.of_holds ?_
    rcases o with _ | r
    · exact Holds.ok hg
    · refine Holds.ok (fun g hm => ?_)
      rcases List.mem_append.mp hm with hm | hm
      · exact hg g hm
      · rw [List.mem_singleton.mp hm]; exact h r rfl
  · exact Same.of_holds (Holds.ok hg)

omit hF in
theorem minimize_same {gens : List (Poly F)} (hg : ∀ g ∈ gens, ∃ d, Poly.Even d g) :
    Same (fun G => ∀ g ∈ G, ∃ d, Poly.Even d g) (buchbergerMinimize O gens) (buchbergerMinimize O' gens) := by
  refine Same.loop (I := fun s => ∀ g ∈ s, ∃ d, Poly.Even d g) (fun gens hg => ?_) hg
  unfold minimizeStep
  have hfor : ∀ l, minimizeFor O gens l = minimizeFor O' gens l := by
    intro l
    refine Same.eq (P := fun _ => True) ?_
    induction l with
    | nil => exact Same.of_holds (Holds.ok trivial)
    | cons x rest ih =>
      obtain ⟨i, j⟩ := x
      unfold minimizeFor
      refine (index_same hg j).bind fun a ⟨_, ha⟩ => ?_
      rw [unwrapLeadingTerm_same ho ha.level]
      refine (Same.of_holds (P := fun _ => True) fun _ _ => trivial).bind fun s _ => ?_
      refine (index_same hg i).bind fun b ⟨_, hb⟩ => ?_
      rw [unwrapLeadingTerm_same ho hb.level]
      refine (Same.of_holds (P := fun _ => True) fun _ _ => trivial).bind fun t _ => ?_
      split
      · exact Same.of_holds (Holds.ok trivial)
      · exact ih
  rw [hfor]
  refine Same.of_holds (Holds.bind' fun o => ?_)
  rcases o with _ | i
  · exact Holds.ok hg
  · exact Holds.ok fun g hm => hg g (List.mem_of_mem_eraseIdx hm)

omit hF in
theorem reduce_same {gens : List (Poly F)} (hg : ∀ g ∈ gens, ∃ d, Poly.Even d g) :
    buchbergerReduce O gens = buchbergerReduce O' gens := by
  refine Same.eq (P := fun _ => True)
    (Same.loop (I := fun s => ∀ g ∈ s, ∃ d, Poly.Even d g) (fun gens hg => ?_) hg)
  have hterms : ∀ {g : Poly F} {d}, g.Level d → ∀ l, reduceTerms O g l = reduceTerms O' g l := by
    intro g d hg l
    induction l with
    | nil => rfl
    | cons t ts ih =>
      unfold reduceTerms
      rw [unwrapLeadingTerm_same ho hg, ih]
  have hfor : ∀ l, reduceFor O gens l = reduceFor O' gens l := by
    intro l
    refine Same.eq (P := fun _ => True) ?_
    induction l with
    | nil => exact Same.of_holds (Holds.ok trivial)
    | cons x rest ih =>
      obtain ⟨i, j⟩ := x
      unfold reduceFor
      refine (index_same hg i).bind fun a _ => (index_same hg j).bind fun b ⟨_, hb⟩ => ?_
      rw [hterms hb.level]
      refine (Same.of_holds (P := fun _ => True) fun _ _ => trivial).bind fun c _ => ?_
      split
      · exact Same.of_holds (Holds.ok trivial)
      · exact ih
  unfold reduceStep
  rw [hfor]
  refine (Same.of_holds (P := fun _ => True) fun _ _ => trivial).bind fun o _ => ?_
  rcases o with _ | i
  · exact Same.of_holds (Holds.ok trivial)
  refine (index_same hg i).bind fun g ⟨d, h⟩ => ?_
  have he : ∀ g ∈ gens.eraseIdx i, ∃ d, Poly.Even d g := fun g hm => hg g (List.mem_of_mem_eraseIdx hm)
  refine (divide_same ho h he).bind ?_
  rintro ⟨r, qs⟩ hr
  refine Same.of_holds (Holds.ok fun g hm => ?_)
  rcases List.mem_append.mp hm with hm | hm
  · exact he g hm
  · rw [List.mem_singleton.mp hm]; exact ⟨d, hr⟩

theorem algorithm_same {gens : List (Poly F)} (hg : ∀ g ∈ gens, Poly.Fine P g) :
    buchbergerAlgorithm O gens = buchbergerAlgorithm O' gens :=
  Same.eq (P := fun _ => True) ((extend_same ho hF hg).bind fun _ h1 =>
    (minimize_same ho fun g h => (h1 g h).1).bind fun _ h2 => by
      rw [reduce_same ho h2]
      exact Same.of_holds fun _ _ => trivial)

end

/-! ### Orders that check for overflow -/

section
variable {F : Type} [RField F] {E : Panic → Prop} {O O' : MOrder} (hO : OrdSim E O O')
include hO

theorem divideFor_order (lt : Term F) (f : Poly F) (l : List (Poly F × Poly F)) :
    Sim E (divideFor O lt f l) (divideFor O' lt f l) := by
  induction l with
  | nil => exact Sim.refl _
  | cons gq rest ih => unfold divideFor; repeat' sstep

theorem divide_order (f : Poly F) (divs : List (Poly F)) : Sim E (divide O f divs) (divide O' f divs) := by
  refine Sim.loop (fun s => ?_) _
  have := divideFor_order hO (F := F)
  unfold divideStep
  repeat' first | exact this _ _ _ | sstep

theorem tryReduce_order (f g : Poly F) : Sim E (tryReduce O f g) (tryReduce O' f g) := by
  unfold tryReduce
  repeat' sstep

theorem criterion_order (gens : List (Poly F)) :
    Sim E (buchbergerCriterion O gens) (buchbergerCriterion O' gens) := by
  unfold buchbergerCriterion
  generalize pairsIter gens.length = l
  induction l with
  | nil => exact Sim.refl _
  | cons x rest ih =>
    unfold criterionFor
    repeat' first | exact tryReduce_order hO _ _ | exact divide_order hO _ _ | sstep

theorem extendFor_order (gens : List (Poly F)) (i : ℕ) (l : List ℕ) :
    Sim E (extendFor O gens i l) (extendFor O' gens i l) := by
  induction l with
  | nil => exact Sim.refl _
  | cons x rest ih =>
    unfold extendFor
    repeat' first | exact tryReduce_order hO _ _ | exact divide_order hO _ _ | sstep

theorem minimizeFor_order (gens : List (Poly F)) (l : List (ℕ × ℕ)) :
    Sim E (minimizeFor O gens l) (minimizeFor O' gens l) := by
  induction l with
  | nil => exact Sim.refl _
  | cons x rest ih => unfold minimizeFor; repeat' sstep

theorem reduceTerms_order (g : Poly F) (l : List (Term F)) :
    Sim E (reduceTerms O g l) (reduceTerms O' g l) := by
  induction l with
  | nil => exact Sim.refl _
  | cons x rest ih => unfold reduceTerms; repeat' sstep

theorem reduceFor_order (gens : List (Poly F)) (l : List (ℕ × ℕ)) :
    Sim E (reduceFor O gens l) (reduceFor O' gens l) := by
  induction l with
  | nil => exact Sim.refl _
  | cons x rest ih =>
    unfold reduceFor
    repeat' first | exact reduceTerms_order hO _ _ | sstep

theorem algorithm_order (gens : List (Poly F)) :
    Sim E (buchbergerAlgorithm O gens) (buchbergerAlgorithm O' gens) := by
  unfold buchbergerAlgorithm buchbergerExtend buchbergerMinimize buchbergerReduce
  refine Sim.bind (Sim.loop (fun s => ?_) _) fun _ => Sim.bind (Sim.loop (fun s => ?_) _) fun _ =>
    Sim.loop (fun s => ?_) _
  · unfold extendStep
    repeat' first | exact extendFor_order hO _ _ _ | sstep
  · unfold minimizeStep
    repeat' first | exact minimizeFor_order hO _ _ | sstep
  · unfold reduceStep
    repeat' first | exact reduceFor_order hO _ _ | exact divide_order hO _ _ | sstep

end

/-! ### The property -/

section
variable {F : Type} [RField F]

/-- No term is zero and all terms have the same total degree. -/
def Poly.OneTotalDegree (p : Poly F) : Prop := ∃ d, ∀ t ∈ p, t.isZero = false ∧ t.mdeg.sum = d

theorem Poly.OneTotalDegree.even {p : Poly F} (h : p.OneTotalDegree) : ∃ d, Poly.Even d p := by
  obtain ⟨d, hd⟩ := h
  exact ⟨d, fun t ht => ⟨(hd t ht).1, congrArg Nat.cast (hd t ht).2⟩⟩

theorem wdeg_eq_iff (a b : MDeg) : a.wdeg = b.wdeg ↔ a.sum % 256 = b.sum % 256 :=
  ZMod.natCast_eq_natCast_iff _ _ _

section
variable {O O' : MOrder} (ho : ∀ a b : MDeg, a.sum % 256 = b.sum % 256 → O.cmp a b = O'.cmp a b)
include ho

/-- **C209** Two orders that agree on monomials whose total degrees agree modulo 256 give the same division of
polynomials without zero terms in each of which all terms have the same total degree. This holds for every
coefficient type and in both build profiles. -/
theorem C209_divide (f : Poly F) (hf : f.OneTotalDegree) (divs : List (Poly F))
    (hd : ∀ g ∈ divs, g.OneTotalDegree) :
    leadingTerm O f = leadingTerm O' f ∧ sortTerms O f = sortTerms O' f ∧ divide O f divs = divide O' f divs := by
  have ho : ∀ a b : MDeg, a.wdeg = b.wdeg → O.cmp a b = O'.cmp a b := fun a b h => ho a b ((wdeg_eq_iff a b).mp h)
  obtain ⟨d, hf⟩ := hf.even
  exact ⟨(leadingTerm_same ho hf.level).eq, (sortTerms_same ho hf.level).eq,
    (divide_same ho hf fun g h => (hd g h).even).eq⟩

/-- **C209** If moreover no product of nonzero coefficients is zero (in a set `P` closed under the operations), they give the same S-polynomials, criterion and
bases. -/
theorem C209_algorithm {P : F → Prop} (hF : NoZeroProducts P) (gens : List (Poly F))
    (hg : ∀ g ∈ gens, g.OneTotalDegree ∧ g.Over P) :
    (∀ f ∈ gens, ∀ g ∈ gens, tryReduce O f g = tryReduce O' f g) ∧
    buchbergerCriterion O gens = buchbergerCriterion O' gens ∧
    buchbergerAlgorithm O gens = buchbergerAlgorithm O' gens := by
  have ho : ∀ a b : MDeg, a.wdeg = b.wdeg → O.cmp a b = O'.cmp a b := fun a b h => ho a b ((wdeg_eq_iff a b).mp h)
  have hg' : ∀ g ∈ gens, Poly.Fine P g := fun g h => ⟨(hg g h).1.even, (hg g h).2⟩
  exact ⟨fun f hf g hg => (tryReduce_same ho hF (hg' f hf) (hg' g hg)).eq,
    criterion_same ho hF hg', algorithm_same ho hF hg'⟩

end

theorem lex_grLex_cmp (a b : MDeg) (h : a.sum % 256 = b.sum % 256) :
    (MOrder.grLex .release).cmp a b = MOrder.lex.cmp a b := by
  simp only [MOrder.grLex, MOrder.grad, MDeg.totalDeg_release, h, MOrder.lex]
  simp

theorem grLex_sim : OrdSim (· = .overflowU8) (MOrder.grLex .debug) (MOrder.grLex .release) := by
  intro a b
  have hn : ∀ x, Sim (· = .overflowU8) (U8.norm .debug x) (U8.norm .release x) := by
    intro x
    unfold U8.norm
    split
    · exact Sim.refl _
    · exact .inr ⟨_, rfl, rfl⟩
  have ht : ∀ m : MDeg, Sim (· = .overflowU8) (m.totalDeg .debug) (m.totalDeg .release) :=
    fun m => Sim.foldlM (fun _ _ => hn _) _ _
  exact Sim.bind ((ht a).bind fun _ => (ht b).bind fun _ => Sim.refl _) fun _ => Sim.refl _

/-- **C209** On such polynomials `Lex` and `GrLex` give the same result without overflow checks, and with them unless
the run with `GrLex` stops because a total degree does not fit `u8`. -/
theorem C209_lex_grLex (f : Poly F) (hf : f.OneTotalDegree) (divs : List (Poly F))
    (hd : ∀ g ∈ divs, g.OneTotalDegree) :
    divide (MOrder.grLex .release) f divs = divide MOrder.lex f divs ∧
    Sim (· = .overflowU8) (divide (MOrder.grLex .debug) f divs) (divide MOrder.lex f divs) := by
  have h := (C209_divide lex_grLex_cmp f hf divs hd).2.2
  exact ⟨h, h ▸ divide_order grLex_sim f divs⟩

/-- **C209** The same for Buchberger's algorithm and criterion. -/
theorem C209_bases {P : F → Prop} (hF : NoZeroProducts P) (gens : List (Poly F))
    (hg : ∀ g ∈ gens, g.OneTotalDegree ∧ g.Over P) :
    buchbergerAlgorithm (MOrder.grLex .release) gens = buchbergerAlgorithm MOrder.lex gens ∧
    Sim (· = .overflowU8) (buchbergerAlgorithm (MOrder.grLex .debug) gens)
      (buchbergerAlgorithm MOrder.lex gens) ∧
    Sim (· = .overflowU8) (buchbergerCriterion (MOrder.grLex .debug) gens)
      (buchbergerCriterion MOrder.lex gens) := by
  have h := C209_algorithm lex_grLex_cmp hF gens hg
  exact ⟨h.2.2, h.2.2 ▸ algorithm_order grLex_sim gens, h.2.1 ▸ criterion_order grLex_sim gens⟩

end

section
open LawfulRField
variable {F K : Type} [RField F] [Field K] [LawfulRField F K]

theorem noZeroProducts : NoZeroProducts fun a : F => wf a ∧ val a ∈ (⊤ : Subfield K) where
  toClosedField := closedField_of_subfield ⊤
  one_ne := beq_zero_false_of_val (by rw [val_one]; exact one_ne_zero)
  mul_ne a b ha hb ha0 hb0 := fun c hc => by
    refine beq_zero_false_of_val (K := K) ?_
    rw [((mul_spec a b ha.1 hb.1).of_ok hc).2]
    exact mul_ne_zero (val_ne_zero_of_beq ha.1 ha0) (val_ne_zero_of_beq hb.1 hb0)

/-- **C209** Over `Rational`, as over every exact coefficient type, `Lex` and `GrLex` give the same basis and the same
answer of the criterion for generators in each of which all terms have the same total degree, unless the run with
`GrLex` stops because a total degree does not fit `u8`. -/
theorem C209_exact (gens : List (Poly F))
    (hg : ∀ g ∈ gens, ∃ d, ∀ t ∈ g, (wf t.coef ∧ val t.coef ≠ (0 : K)) ∧ t.mdeg.sum = d) :
    Sim (· = .overflowU8) (buchbergerAlgorithm (MOrder.grLex .debug) gens) (buchbergerAlgorithm MOrder.lex gens) ∧
    Sim (· = .overflowU8) (buchbergerCriterion (MOrder.grLex .debug) gens)
      (buchbergerCriterion MOrder.lex gens) := by
  refine (C209_bases noZeroProducts gens fun g h => ?_).2
  obtain ⟨d, hd⟩ := hg g h
  exact ⟨⟨d, fun t ht => ⟨Term.isZero_false (hd t ht).1.1 (hd t ht).1.2, (hd t ht).2⟩⟩,
    fun t ht => ⟨(hd t ht).1.1, trivial⟩⟩

end

/-- The hypotheses hold for `x^2 - y z` and `x y - z^2`, where the runs agree; on `x - y^2` they do not. -/
theorem C209_run : letI := Rational.field .debug
    (∀ O ∈ [MOrder.lex, MOrder.grLex .debug],
      buchbergerAlgorithm O ([[⟨⟨1, 1⟩, [2]⟩, ⟨⟨-1, 1⟩, [0, 1, 1]⟩], [⟨⟨1, 1⟩, [1, 1]⟩, ⟨⟨-1, 1⟩, [0, 0, 2]⟩]] :
        List (Poly Rational)) = .ok [[⟨⟨1, 1⟩, [2]⟩, ⟨⟨-1, 1⟩, [0, 1, 1]⟩], [⟨⟨1, 1⟩, [1, 1]⟩, ⟨⟨-1, 1⟩, [0, 0, 2]⟩],
          [⟨⟨1, 1⟩, [1, 0, 2]⟩, ⟨⟨-1, 1⟩, [0, 2, 1]⟩], [⟨⟨1, 1⟩, [0, 3, 1]⟩, ⟨⟨-1, 1⟩, [0, 0, 4]⟩]]) ∧
    divide MOrder.lex ([⟨⟨1, 1⟩, [1]⟩] : Poly Rational) [[⟨⟨1, 1⟩, [1]⟩, ⟨⟨-1, 1⟩, [0, 2]⟩]] =
      .ok ([⟨⟨1, 1⟩, [0, 2]⟩], [[⟨⟨1, 1⟩, []⟩]]) ∧
    divide (MOrder.grLex .debug) ([⟨⟨1, 1⟩, [1]⟩] : Poly Rational) [[⟨⟨1, 1⟩, [1]⟩, ⟨⟨-1, 1⟩, [0, 2]⟩]] =
      .ok ([⟨⟨1, 1⟩, [1]⟩], [[]]) := by
  let _ := Rational.field .debug
  refine ⟨?_, (divideN_approx 20 _ _).eq (by decide +kernel) (by simp),
    (divideN_approx 20 _ _).eq (by decide +kernel) (by simp)⟩
  intro O hO
  rcases List.mem_pair.mp hO with rfl | rfl
  · exact (buchbergerAlgorithmN_approx 60 _).eq (by decide +kernel) (by simp)
  · exact (buchbergerAlgorithmN_approx 60 _).eq (by decide +kernel) (by simp)

example : letI := Rational.field .debug
    letI := Rational.lawful
    ∀ g ∈ ([[⟨⟨1, 1⟩, [2]⟩, ⟨⟨-1, 1⟩, [0, 1, 1]⟩], [⟨⟨1, 1⟩, [1, 1]⟩, ⟨⟨-1, 1⟩, [0, 0, 2]⟩]] : List (Poly Rational)),
      ∃ d, ∀ t ∈ g, (LawfulRField.wf t.coef ∧ LawfulRField.val t.coef ≠ (0 : ℚ)) ∧ t.mdeg.sum = d := by
  intro g hg
  refine ⟨2, ?_⟩
  have h1 : ∀ n : Int, n = 1 ∨ n = -1 → Rational.WF ⟨n, 1⟩ ∧ (Rational.val ⟨n, 1⟩ ≠ 0) := by
    rintro n (rfl | rfl) <;> exact ⟨⟨by decide, by decide⟩, by simp [Rational.val]⟩
  rcases List.mem_pair.mp hg with rfl | rfl <;>
    exact List.forall_mem_cons.mpr ⟨⟨h1 _ (by simp), rfl⟩, List.forall_mem_cons.mpr ⟨⟨h1 _ (by simp), rfl⟩, by simp⟩⟩

end Verif
