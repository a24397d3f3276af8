import Verif.Props.F64Poly
import Verif.LinAlg.Cone
import Verif.LinAlg.MatIter

/-!
# Coefficients stay in sets closed under the operations

Partial correctness (`Res.Holds`): what is true of the result if there is one.  Nothing is assumed of the
coefficient type.
-/

namespace Verif
open Res LinAlg Computer

namespace Res

/-- If `x` returns, its value satisfies `P`. -/
def Holds {α : Type} (P : α → Prop) (x : Res α) : Prop := ∀ a, x = .ok a → P a

namespace Holds
variable {α β : Type} {P : α → Prop} {Q : β → Prop}

theorem ok {a : α} (h : P a) : Holds P (.ok a) := by rintro b ⟨⟩; exact h

theorem panic {p : Panic} : Holds P (.panic p) := by rintro b ⟨⟩

theorem bind {x : Res α} {f : α → Res β} (hx : Holds P x) (hf : ∀ a, P a → Holds Q (f a)) :
    Holds Q (x >>= f) := by
  intro b hb
  obtain ⟨a, h1, h2⟩ := bind_eq_ok.mp hb
  exact hf a (hx a h1) b h2

theorem bind' {x : Res α} {f : α → Res β} (hf : ∀ a, Holds Q (f a)) : Holds Q (x >>= f) :=
  Holds.bind (P := fun _ => True) (fun _ _ => trivial) fun a _ => hf a

theorem bind_eq {x : Res α} {f : α → Res β} (hf : ∀ a, x = .ok a → Holds Q (f a)) :
    Holds Q (x >>= f) :=
  Holds.bind (P := fun a => x = .ok a) (fun _ h => h) hf

theorem imp {x : Res α} {P' : α → Prop} (hx : Holds P x) (h : ∀ a, P a → P' a) : Holds P' x :=
  fun a ha => h a (hx a ha)

theorem foldlM {f : β → α → Res β} {l : List α} {b : β} (h0 : Q b)
    (hf : ∀ b, ∀ a ∈ l, Q b → Holds Q (f b a)) : Holds Q (l.foldlM f b) := by
  induction l generalizing b with
  | nil => exact Holds.ok h0
  | cons a l ih =>
    rw [List.foldlM_cons]
    exact (hf b a (by simp) h0).bind fun b' hb' => ih hb' fun b a ha => hf b a (by simp [ha])

theorem mapM {f : α → Res β} {l : List α} (hf : ∀ a ∈ l, Holds Q (f a)) :
    Holds (fun bs => ∀ b ∈ bs, Q b) (l.mapM f) := by
  induction l with
  | nil => rw [List.mapM_nil]; exact Holds.ok (by simp)
  | cons a l ih =>
    rw [List.mapM_cons]
    refine (hf a (by simp)).bind fun b hb => (ih fun a ha => hf a (by simp [ha])).bind
      fun bs hbs => Holds.ok ?_
    intro c hc
    rcases List.mem_cons.mp hc with rfl | hc
    · exact hb
    · exact hbs c hc

theorem reduceM {f : α → α → Res α} {d : α} {l : List (Res α)} (hd : P d) (hl : ∀ x ∈ l, Holds P x)
    (hf : ∀ a b, P a → P b → Holds P (f a b)) : Holds P (reduceM f d l) := by
  cases l with
  | nil => exact Holds.ok hd
  | cons x l =>
    refine (hl x (by simp)).bind fun a ha => Holds.foldlM ha fun b y hy hb => ?_
    exact (hl y (by simp [hy])).bind fun c hc => hf b c hb hc

theorem loop {S R : Type} {step : S → Res (S ⊕ R)} (Inv : S → Prop) {Post : R → Prop}
    (h : ∀ s, Inv s → Holds (fun x => match x with | .inl s' => Inv s' | .inr r => Post r) (step s))
    {s : S} (hs : Inv s) : Holds Post (Res.loop step s) := fun _ hr =>
  loop_partial Inv Post (fun s s' hs h' => h s hs (.inl s') h') (fun s r hs h' => h s hs (.inr r) h') hs hr

end Holds
end Res

variable {F : Type} [RField F]

/-- `P` contains zero and one and is closed under addition, subtraction, negation and multiplication. -/
structure ClosedRing (P : F → Prop) : Prop where
  zero : P RField.zero
  one : P RField.one
  add : ∀ a b, P a → P b → Holds P (RField.add a b)
  sub : ∀ a b, P a → P b → Holds P (RField.sub a b)
  neg : ∀ a, P a → Holds P (RField.neg a)
  mul : ∀ a b, P a → P b → Holds P (RField.mul a b)

/-- `P` is moreover closed under division by and inversion of what does not equal zero. -/
structure ClosedField (P : F → Prop) : Prop extends ClosedRing P where
  div : ∀ a b, P a → P b → RField.beq b RField.zero = false → Holds P (RField.div a b)
  inv : ∀ a, P a → RField.beq a RField.zero = false → Holds P (RField.inv a)

/-- The coefficients satisfy `P`. -/
def Poly.Over (P : F → Prop) (p : Poly F) : Prop := ∀ t ∈ p, P t.coef

/-- The entries satisfy `P`. -/
def Mat.Over (P : F → Prop) (M : Mat F) : Prop := ∀ x ∈ M.entries, P x

section Poly
variable {P : F → Prop}

theorem Poly.over_ofTerm {t : Term F} (h : P t.coef) : (Poly.ofTerm t).Over P := by
  unfold Poly.ofTerm
  split
  · intro s hs; cases hs
  · intro s hs
    rw [List.mem_singleton.mp hs]
    exact h

theorem Poly.over_addNonzeroTerm (c : ClosedRing P) {p : Poly F} {t : Term F} (hp : p.Over P)
    (ht : P t.coef) : Holds (Poly.Over P) (Poly.addNonzeroTerm p t) := by
  induction p with
  | nil =>
    refine Holds.ok ?_
    intro s hs
    rw [List.mem_singleton.mp hs]
    exact ht
  | cons s ts ih =>
    have hs : P s.coef := hp s (by simp)
    have hts : Poly.Over P ts := fun x hx => hp x (by simp [hx])
    unfold Poly.addNonzeroTerm
    split
    · refine (c.add _ _ hs ht).bind fun a ha => ?_
      dsimp only
      split
      · exact Holds.ok hts
      · refine Holds.ok ?_
        intro x hx
        rcases List.mem_cons.mp hx with rfl | hx
        · exact ha
        · exact hts x hx
    · refine (ih hts).bind fun ts' h' => Holds.ok ?_
      intro x hx
      rcases List.mem_cons.mp hx with rfl | hx
      · exact hs
      · exact h' x hx

theorem Poly.over_addTerm (c : ClosedRing P) {p : Poly F} {t : Term F} (hp : p.Over P)
    (ht : P t.coef) : Holds (Poly.Over P) (Poly.addTerm p t) := by
  unfold Poly.addTerm
  split
  · exact Holds.ok (Poly.over_ofTerm ht)
  · split
    · exact Holds.ok hp
    · exact Poly.over_addNonzeroTerm c hp ht

/-- `addTerm` keeps no zero coefficients it has made. -/
theorem Poly.nonzero_addTerm {p : Poly F} {t : Term F} (hp : ∀ s ∈ p, s.isZero = false) :
    Holds (fun q => ∀ s ∈ q, s.isZero = false) (Poly.addTerm p t) := by
  have key : ∀ p : Poly F, (∀ s ∈ p, s.isZero = false) → t.isZero = false →
      Holds (fun q => ∀ s ∈ q, s.isZero = false) (Poly.addNonzeroTerm p t) := by
    intro p hp ht
    induction p with
    | nil =>
      refine Holds.ok ?_
      intro s hs
      rw [List.mem_singleton.mp hs]
      exact ht
    | cons s ts ih =>
      have hs := hp s (by simp)
      have hts : ∀ x ∈ ts, x.isZero = false := fun x hx => hp x (by simp [hx])
      unfold Poly.addNonzeroTerm
      split
      · refine Holds.bind' fun a => ?_
        dsimp only
        split
        · exact Holds.ok hts
        · next h0 =>
          refine Holds.ok ?_
          intro x hx
          rcases List.mem_cons.mp hx with rfl | hx
          · simpa using h0
          · exact hts x hx
      · refine (ih hts).bind fun ts' h' => Holds.ok ?_
        intro x hx
        rcases List.mem_cons.mp hx with rfl | hx
        · exact hs
        · exact h' x hx
  unfold Poly.addTerm
  split
  · refine Holds.ok ?_
    unfold Poly.ofTerm
    split
    · intro s hs; cases hs
    · next h0 =>
      intro s hs
      rw [List.mem_singleton.mp hs]
      simpa using h0
  · split
    · exact Holds.ok hp
    · next h0 => exact key p hp (by simpa using h0)

theorem Poly.over_add (c : ClosedRing P) {p q : Poly F} (hp : p.Over P) (hq : q.Over P) :
    Holds (Poly.Over P) (Poly.add p q) :=
  Holds.foldlM hp fun _ t ht h => Poly.over_addTerm c h (hq t ht)

theorem Term.over_neg (c : ClosedRing P) {t : Term F} (ht : P t.coef) :
    Holds (fun t => P t.coef) t.neg :=
  (c.neg _ ht).bind fun _ h => Holds.ok h

theorem Poly.over_neg (c : ClosedRing P) {p : Poly F} (hp : p.Over P) :
    Holds (Poly.Over P) (Poly.neg p) :=
  Holds.mapM fun t ht => Term.over_neg c (hp t ht)

theorem Poly.over_sub (c : ClosedRing P) {p q : Poly F} (hp : p.Over P) (hq : q.Over P) :
    Holds (Poly.Over P) (Poly.sub p q) :=
  (Poly.over_neg c hq).bind fun _ h => Poly.over_add c hp h

theorem Term.over_mul (c : ClosedRing P) {s t : Term F} (hs : P s.coef) (ht : P t.coef) :
    Holds (fun t => P t.coef) (s.mul t) := by
  unfold Term.mul
  split
  · exact Holds.ok c.zero
  · exact (c.mul _ _ hs ht).bind fun _ h => Holds.bind' fun _ => Holds.ok h

theorem Poly.over_mulTerm (c : ClosedRing P) {p : Poly F} {t : Term F} (hp : p.Over P)
    (ht : P t.coef) : Holds (Poly.Over P) (Poly.mulTerm p t) := by
  unfold Poly.mulTerm
  split
  · refine Holds.ok ?_
    intro s hs; cases hs
  · exact Holds.mapM fun s hs => Term.over_mul c (hp s hs) ht

theorem Poly.over_mul (c : ClosedRing P) {p q : Poly F} (hp : p.Over P) (hq : q.Over P) :
    Holds (Poly.Over P) (Poly.mul p q) := by
  refine Holds.reduceM (by intro s hs; cases hs) ?_ fun _ _ h1 h2 => Poly.over_add c h1 h2
  intro x hx
  obtain ⟨t, ht, rfl⟩ := List.mem_map.mp hx
  exact Poly.over_mulTerm c hq (hp t ht)

theorem Poly.over_divCoef (c : ClosedField P) {p : Poly F} {a : F} (hp : p.Over P) (ha : P a)
    (h0 : RField.beq a RField.zero = false) : Holds (Poly.Over P) (Poly.divCoef p a) :=
  (c.inv _ ha h0).bind fun _ h => Poly.over_mulTerm c.toClosedRing hp h

/-! ### Leading terms and sorting -/

omit [RField F] in
theorem maxBy_mem {α : Type} {cmp : α → α → Res Ordering} {l : List α} :
    Holds (fun o => ∀ a, o = some a → a ∈ l) (maxBy cmp l) := by
  cases l with
  | nil => exact Holds.ok (by simp)
  | cons x xs =>
    have key : Holds (fun b => b ∈ x :: xs) (xs.foldlM (fun best y => do
        match ← cmp best y with
        | .gt => pure best
        | _ => pure y) x) := by
      refine Holds.foldlM (by simp) fun b a ha hb => Holds.bind' fun o => ?_
      cases o
      · exact Holds.ok (by simp [ha])
      · exact Holds.ok (by simp [ha])
      · exact Holds.ok hb
    intro o ho a hoa
    dsimp only [maxBy] at ho
    rw [map_eq_pure_bind] at ho
    obtain ⟨b, h1, h2⟩ := bind_eq_ok.mp ho
    cases h2
    cases hoa
    exact key _ h1

omit [RField F] in
theorem leadingTerm_holds_mem {O : MOrder} {f : Poly F} :
    Holds (fun o => ∀ t, o = some t → t ∈ f) (leadingTerm O f) := maxBy_mem

omit [RField F] in
theorem insertBy_mem {α : Type} {cmp : α → α → Res Ordering} {x : α} {l : List α} :
    Holds (fun l' => ∀ a ∈ l', a = x ∨ a ∈ l) (insertBy cmp x l) := by
  induction l with
  | nil => exact Holds.ok (by simp)
  | cons y ys ih =>
    unfold insertBy
    refine Holds.bind' fun o => ?_
    have h2 : Holds (fun l' => ∀ a ∈ l', a = x ∨ a ∈ y :: ys)
        (insertBy cmp x ys >>= fun ys' => pure (y :: ys')) := by
      refine ih.bind fun ys' h => Holds.ok ?_
      intro a ha
      rcases List.mem_cons.mp ha with rfl | ha
      · simp
      · rcases h a ha with h | h
        · exact .inl h
        · exact .inr (by simp [h])
    cases o
    · refine Holds.ok ?_
      intro a ha
      rcases List.mem_cons.mp ha with rfl | ha
      · exact .inl rfl
      · exact .inr ha
    · exact h2
    · exact h2

omit [RField F] in
theorem sortBy_mem {α : Type} {cmp : α → α → Res Ordering} {l : List α} :
    Holds (fun l' => ∀ a ∈ l', a ∈ l) (sortBy cmp l) := by
  refine Holds.foldlM (by simp) fun acc x hx h => insertBy_mem.imp fun l' h' a ha => ?_
  rcases h' a ha with rfl | h'
  · exact hx
  · exact h a h'

/-! ### Division -/

/-- `Q` are coefficients by which division leads from `P` to `P`. -/
def DivBy (P Q : F → Prop) : Prop :=
  ∀ a b, P a → Q b → RField.beq b RField.zero = false → Holds P (RField.div a b)

theorem Term.over_tryDiv {Q : F → Prop} (hz : P RField.zero) (hd : DivBy P Q) {s t : Term F}
    (hs : P s.coef) (ht : Q t.coef) :
    Holds (fun o => ∀ a, o = some a → P a.coef) (s.tryDiv t) := by
  unfold Term.tryDiv
  split
  · refine Holds.ok ?_
    rintro a ⟨⟩; exact hz
  · split
    · refine Holds.ok ?_
      rintro a ⟨⟩
    · next h0 =>
      refine (hd _ _ hs ht (by simpa [Term.isZero] using h0)).bind fun c hc => ?_
      split
      · refine Holds.ok ?_
        rintro a ⟨⟩
      · refine Holds.ok ?_
        rintro a ⟨⟩; exact hc

/-- The leading coefficient of `g` satisfies `Q`. -/
def LeadsIn (O : MOrder) (Q : F → Prop) (g : Poly F) : Prop :=
  ∀ t, leadingTerm O g = .ok (some t) → Q t.coef

theorem over_divideFor {Q : F → Prop} (c : ClosedRing P) (hd : DivBy P Q) {O : MOrder} {ltF : Term F}
    {f : Poly F} (hlt : P ltF.coef) (hf : f.Over P) (l : List (Poly F × Poly F))
    (hl : ∀ x ∈ l, x.1.Over P ∧ LeadsIn O Q x.1 ∧ x.2.Over P) :
    Holds (fun o => ∀ qs f', o = some (qs, f') → (∀ q ∈ qs, Poly.Over P q) ∧ Poly.Over P f')
      (divideFor O ltF f l) := by
  induction l with
  | nil => exact Holds.ok (by simp)
  | cons x rest ih =>
    obtain ⟨g, q⟩ := x
    obtain ⟨hg, hlg, hq⟩ := hl (g, q) (by simp)
    have hrest : ∀ x ∈ rest, x.1.Over P ∧ LeadsIn O Q x.1 ∧ x.2.Over P := fun x hx => hl x (by simp [hx])
    have next : Holds (fun o => ∀ qs f', o = some (qs, f') →
        (∀ q ∈ qs, Poly.Over P q) ∧ Poly.Over P f')
        (divideFor O ltF f rest >>= fun o => match o with
          | none => pure none
          | some (qs, f') => pure (some (q :: qs, f'))) := by
      refine (ih hrest).bind fun o ho => ?_
      rcases o with _ | ⟨qs, f'⟩
      · exact Holds.ok (by simp)
      · refine Holds.ok ?_
        rintro qs' f'' ⟨⟩
        obtain ⟨h1, h2⟩ := ho qs f' rfl
        refine ⟨fun q' hq' => ?_, h2⟩
        rcases List.mem_cons.mp hq' with rfl | hq'
        · exact hq
        · exact h1 q' hq'
    unfold divideFor
    refine Holds.bind_eq fun o ho => ?_
    rcases o with _ | ltG
    · exact next
    · refine (Term.over_tryDiv c.zero hd hlt (hlg ltG ho)).bind fun oa hoa => ?_
      rcases oa with _ | a
      · exact next
      · have ha := hoa a rfl
        refine (Poly.over_addTerm c hq ha).bind fun q' hq' => ?_
        refine (Poly.over_mulTerm c hg ha).bind fun ag hag => ?_
        refine (Poly.over_sub c hf hag).bind fun f' hf' => Holds.ok ?_
        rintro qs f'' ⟨⟩
        refine ⟨fun x hx => ?_, hf'⟩
        rcases List.mem_cons.mp hx with rfl | hx
        · exact hq'
        · obtain ⟨y, hy, rfl⟩ := List.mem_map.mp hx
          exact (hrest y hy).2.2

theorem over_divide {Q : F → Prop} (c : ClosedRing P) (hd : DivBy P Q) {O : MOrder} {f : Poly F}
    {divs : List (Poly F)} (hf : f.Over P) (hg : ∀ g ∈ divs, g.Over P ∧ LeadsIn O Q g) :
    Holds (fun x => x.1.Over P ∧ (∀ q ∈ x.2, Poly.Over P q) ∧ ∀ t ∈ x.1, t.isZero = false)
      (divide O f divs) := by
  refine Holds.loop (fun s : DivState F => s.f.Over P ∧ (∀ q ∈ s.quotients, Poly.Over P q) ∧
    s.remainder.Over P ∧ ∀ t ∈ s.remainder, t.isZero = false) ?_
    ⟨hf, ?_, (by intro t ht; cases ht), (by intro t ht; cases ht)⟩
  · rintro s ⟨h1, h2, h3, h0⟩
    unfold divideStep
    refine leadingTerm_holds_mem.bind fun o ho => ?_
    rcases o with _ | ltF
    · exact Holds.ok ⟨h3, h2, h0⟩
    · have hlt := h1 ltF (ho ltF rfl)
      refine (over_divideFor c hd hlt h1 (divs.zip s.quotients) fun x hx => ?_).bind fun o ho => ?_
      · obtain ⟨h4, h5⟩ := List.of_mem_zip (a := x.1) (b := x.2) hx
        exact ⟨(hg _ h4).1, (hg _ h4).2, h2 _ h5⟩
      · rcases o with _ | ⟨qs, f'⟩
        · refine sortBy_mem.bind fun sorted hsort => ?_
          split
          · exact Holds.ok ⟨fun t ht => h1 t (hsort t ht), h2, h3, h0⟩
          · next lt hlast =>
            have hmem := hsort lt (List.mem_of_getLast? hlast)
            refine Holds.bind_eq fun r hr => Holds.ok ⟨?_, h2,
              Poly.over_addTerm c h3 (h1 lt hmem) r hr, Poly.nonzero_addTerm h0 r hr⟩
            exact fun t ht => h1 t (hsort t (List.dropLast_subset _ ht))
        · obtain ⟨h4, h5⟩ := ho qs f' rfl
          exact Holds.ok ⟨h5, h4, h3, h0⟩
  · intro q hq
    rw [List.eq_of_mem_replicate hq]
    intro t ht; cases ht

omit [RField F] in
theorem leadsIn_of_over {O : MOrder} {g : Poly F} (hg : g.Over P) : LeadsIn O P g :=
  fun t ht => hg t (leadingTerm_holds_mem _ ht t rfl)

/-! ### Gröbner bases -/

theorem over_tryReduce (c : ClosedField P) {O : MOrder} {f g : Poly F} (hf : f.Over P)
    (hg : g.Over P) : Holds (fun o => ∀ h, o = some h → Poly.Over P h) (tryReduce O f g) := by
  unfold tryReduce
  refine leadingTerm_holds_mem.bind fun o ho => ?_
  rcases o with _ | ltF
  · exact Holds.ok (by simp)
  refine leadingTerm_holds_mem.bind fun o' ho' => ?_
  rcases o' with _ | ltG
  · exact Holds.ok (by simp)
  have h1 := hf ltF (ho ltF rfl)
  have h2 := hg ltG (ho' ltG rfl)
  have hl : P (monicLcm ltF ltG).coef := by
    unfold monicLcm
    split
    · exact c.zero
    · exact c.one
  refine (Term.over_tryDiv c.zero c.div hl h1).bind fun oa hoa => ?_
  rcases oa with _ | a
  · exact Holds.ok (by simp)
  refine (Poly.over_mulTerm c.toClosedRing hf (hoa a rfl)).bind fun af haf => ?_
  refine (Term.over_tryDiv c.zero c.div hl h2).bind fun ob hob => ?_
  rcases ob with _ | b
  · exact Holds.ok (by simp)
  refine (Poly.over_mulTerm c.toClosedRing hg (hob b rfl)).bind fun bg hbg => ?_
  refine (Poly.over_sub c.toClosedRing haf hbg).bind fun s hs => Holds.ok ?_
  rintro h ⟨⟩
  exact hs

omit [RField F] in
theorem index_holds_mem {α : Type} {l : List α} {i : ℕ} : Holds (fun a => a ∈ l) (index l i) := by
  unfold index
  split
  · next a h => exact Holds.ok (List.mem_of_getElem? h)
  · exact Holds.panic

theorem over_extendFor (c : ClosedField P) {O : MOrder} {gens : List (Poly F)} {i : ℕ}
    (hg : ∀ g ∈ gens, Poly.Over P g) (l : List ℕ) :
    Holds (fun o => ∀ r, o = some r → Poly.Over P r) (extendFor O gens i l) := by
  induction l with
  | nil => exact Holds.ok (by simp)
  | cons j rest ih =>
    unfold extendFor
    refine index_holds_mem.bind fun gi hgi => index_holds_mem.bind fun gj hgj => ?_
    refine (over_tryReduce c (hg gi hgi) (hg gj hgj)).bind fun o ho => ?_
    rcases o with _ | s
    · exact Holds.panic
    · refine (over_divide c.toClosedRing c.div (ho s rfl) fun g hgm =>
        ⟨hg g hgm, leadsIn_of_over (hg g hgm)⟩).bind fun x hx => ?_
      obtain ⟨r, qs⟩ := x
      refine Holds.bind (P := fun o => ∀ a, o = some a → P a ∧ RField.beq a RField.zero = false) ?_
        fun o ho => ?_
      · unfold leadingCoef
        refine leadingTerm_holds_mem.bind fun o ho => Holds.ok ?_
        intro a ha
        obtain ⟨t, rfl, rfl⟩ := Option.map_eq_some_iff.mp ha
        exact ⟨hx.1 t (ho t rfl), hx.2.2 t (ho t rfl)⟩
      · rcases o with _ | lc
        · exact ih
        · refine (Poly.over_divCoef c hx.1 (ho lc rfl).1 (ho lc rfl).2).bind fun r' hr' => Holds.ok ?_
          rintro r ⟨⟩
          exact hr'

theorem over_buchbergerExtend (c : ClosedField P) {O : MOrder} {gens : List (Poly F)}
    (hg : ∀ g ∈ gens, Poly.Over P g) :
    Holds (fun l => ∀ g ∈ l, Poly.Over P g) (buchbergerExtend O gens) := by
  refine Holds.loop (fun s : List (Poly F) × ℕ => ∀ g ∈ s.1, Poly.Over P g) (fun s hs => ?_) hg
  unfold extendStep
  split
  · refine (over_extendFor c hs _).bind fun o ho => ?_
    rcases o with _ | r
    · exact Holds.ok hs
    · refine Holds.ok ?_
      intro g hg
      rcases List.mem_append.mp hg with hg | hg
      · exact hs g hg
      · rw [List.mem_singleton.mp hg]; exact ho r rfl
  · exact Holds.ok hs

theorem over_buchbergerMinimize {O : MOrder} {gens : List (Poly F)}
    (hg : ∀ g ∈ gens, Poly.Over P g) :
    Holds (fun l => ∀ g ∈ l, Poly.Over P g) (buchbergerMinimize O gens) := by
  refine Holds.loop (fun s : List (Poly F) => ∀ g ∈ s, Poly.Over P g) (fun s hs => ?_) hg
  unfold minimizeStep
  refine Holds.bind' fun o => ?_
  rcases o with _ | i
  · exact Holds.ok hs
  · exact Holds.ok fun g hg => hs g (List.mem_of_mem_eraseIdx hg)

theorem over_buchbergerReduce (c : ClosedField P) {O : MOrder} {gens : List (Poly F)}
    (hg : ∀ g ∈ gens, Poly.Over P g) :
    Holds (fun l => ∀ g ∈ l, Poly.Over P g) (buchbergerReduce O gens) := by
  refine Holds.loop (fun s : List (Poly F) => ∀ g ∈ s, Poly.Over P g) (fun s hs => ?_) hg
  unfold reduceStep
  refine Holds.bind' fun o => ?_
  rcases o with _ | i
  · exact Holds.ok hs
  · refine index_holds_mem.bind fun g hgm => ?_
    have hs' : ∀ g ∈ s.eraseIdx i, Poly.Over P g := fun g hg => hs g (List.mem_of_mem_eraseIdx hg)
    refine (over_divide c.toClosedRing c.div (hs g hgm) fun g hgm =>
      ⟨hs' g hgm, leadsIn_of_over (hs' g hgm)⟩).bind fun x hx => Holds.ok ?_
    intro g hg
    rcases List.mem_append.mp hg with hg | hg
    · exact hs' g hg
    · rw [List.mem_singleton.mp hg]; exact hx.1

theorem over_buchbergerAlgorithm (c : ClosedField P) {O : MOrder} {gens : List (Poly F)}
    (hg : ∀ g ∈ gens, Poly.Over P g) :
    Holds (fun l => ∀ g ∈ l, Poly.Over P g) (buchbergerAlgorithm O gens) :=
  (over_buchbergerExtend c hg).bind fun _ h1 => (over_buchbergerMinimize h1).bind fun _ h2 =>
    over_buchbergerReduce c h2

end Poly

/-! ### Matrices -/

namespace Mat
variable {P : F → Prop}

theorem over_get {M : Mat F} (h : M.Over P) {r c : ℕ} : Holds P (M.get r c) := by
  unfold Mat.get
  refine Holds.bind' fun i => ?_
  split
  · next x hx => exact Holds.ok (h x (List.mem_of_getElem? hx))
  · exact Holds.panic

theorem over_set {M : Mat F} (h : M.Over P) {r c : ℕ} {x : F} (hx : P x) :
    Holds (Mat.Over P) (M.set r c x) := by
  unfold Mat.set
  refine Holds.bind' fun i => ?_
  split
  · refine Holds.ok ?_
    intro y hy
    rcases List.mem_or_eq_of_mem_set hy with hy | rfl
    · exact h y hy
    · exact hx
  · exact Holds.panic

omit [RField F] in
theorem swapList_mem {α : Type} {l : List α} {i j : ℕ} :
    Holds (fun l' => ∀ a ∈ l', a ∈ l) (swapList l i j) := by
  unfold swapList
  split
  · next x y hx hy =>
    refine Holds.ok ?_
    intro a ha
    rcases List.mem_or_eq_of_mem_set ha with ha | rfl
    · rcases List.mem_or_eq_of_mem_set ha with ha | rfl
      · exact ha
      · exact List.mem_of_getElem? hy
    · exact List.mem_of_getElem? hx
  · exact Holds.panic

theorem over_swap {M : Mat F} (h : M.Over P) {p q : ℕ × ℕ} : Holds (Mat.Over P) (M.swap p q) :=
  Holds.bind' fun _ => Holds.bind' fun _ => swapList_mem.bind fun _ hl => Holds.ok fun x hx => h x (hl x hx)

theorem over_identity (c : ClosedRing P) (n : ℕ) : (Mat.identity n : Mat F).Over P := by
  intro x hx
  obtain ⟨p, -, rfl⟩ := List.mem_map.mp hx
  dsimp only
  split
  · exact c.one
  · exact c.zero

theorem over_permutationFromVec (c : ClosedRing P) (l : List ℕ) :
    (Mat.permutationFromVec l : Mat F).Over P := by
  intro x hx
  obtain ⟨p, -, rfl⟩ := List.mem_map.mp hx
  dsimp only
  split
  · exact c.one
  · exact c.zero

theorem over_e (c : ClosedRing P) (k n : ℕ) : (Mat.e k n : Mat F).Over P := by
  intro x hx
  obtain ⟨p, -, rfl⟩ := List.mem_map.mp hx
  split
  · exact c.one
  · exact c.zero

theorem over_scaleRow (c : ClosedRing P) {M : Mat F} (h : M.Over P) {i : ℕ} {s : F} (hs : P s) :
    Holds (Mat.Over P) (M.scaleRow i s) :=
  Holds.foldlM h fun _ _ _ hM => (over_get hM).bind fun _ hx => (c.mul _ _ hs hx).bind fun _ hy =>
    over_set hM hy

theorem over_permuteRows {M : Mat F} (h : M.Over P) {s t : ℕ} :
    Holds (Mat.Over P) (M.permuteRows s t) :=
  Holds.foldlM h fun _ _ _ hM => (over_get hM).bind fun _ hx => (over_get hM).bind fun _ hy =>
    (over_set hM hy).bind fun _ hM' => over_set hM' hx

theorem over_replaceRow (c : ClosedRing P) {M : Mat F} (h : M.Over P) {s t : ℕ} {a : F} (ha : P a) :
    Holds (Mat.Over P) (M.replaceRow s t a) :=
  Holds.foldlM h fun _ _ _ hM => (over_get hM).bind fun _ hx => (over_get hM).bind fun _ hy =>
    (c.mul _ _ hy ha).bind fun _ hz => (c.add _ _ hx hz).bind fun _ hw => over_set hM hw

theorem over_getColIter {M : Mat F} (h : M.Over P) {c : ℕ} :
    Holds (fun l => ∀ x ∈ l, P x) (M.getColIter c) :=
  Holds.mapM fun _ _ => over_get h

theorem over_add (c : ClosedRing P) {M N : Mat F} (hM : M.Over P) (hN : N.Over P) :
    Holds (Mat.Over P) (M.add N) := by
  unfold Mat.add
  split
  · exact Holds.panic
  · refine (Holds.mapM (Q := P) fun x hx => ?_).bind fun l hl => Holds.ok hl
    obtain ⟨h1, h2⟩ := List.of_mem_zip (a := x.1) (b := x.2) hx
    exact c.add _ _ (hM _ h1) (hN _ h2)

theorem over_scale (c : ClosedRing P) {M : Mat F} (hM : M.Over P) {s : F} (hs : P s) :
    Holds (Mat.Over P) (M.scale s) :=
  (Holds.mapM (Q := P) fun x hx => c.mul _ _ (hM x hx) hs).bind fun _ hl => Holds.ok hl

theorem over_getRowIter {M : Mat F} (h : M.Over P) {r : ℕ} :
    Holds (fun l => ∀ x ∈ l, P x) (M.getRowIter r) := by
  unfold Mat.getRowIter
  refine Holds.bind' fun i => Holds.bind' fun r1 => Holds.bind' fun j => ?_
  split
  · exact Holds.ok fun x hx => h x (List.mem_of_mem_drop (List.mem_of_mem_take hx))
  · exact Holds.panic

theorem over_mul (c : ClosedRing P) {M N : Mat F} (hM : M.Over P) (hN : N.Over P) :
    Holds (Mat.Over P) (M.mul N) := by
  unfold Mat.mul
  split
  · exact Holds.panic
  · refine (Holds.mapM (Q := P) fun x hx => ?_).bind fun l hl => Holds.ok hl
    refine (over_getRowIter hM).bind fun row hrow => Holds.foldlM c.zero fun a y hy ha => ?_
    obtain ⟨h1, -⟩ := List.of_mem_zip (a := y.1) (b := y.2) hy
    exact (over_get hN).bind fun b hb => (c.mul _ _ (hrow _ h1) hb).bind fun z hz => c.add _ _ ha hz

theorem over_dot (c : ClosedRing P) {M N : Mat F} (hM : M.Over P) (hN : N.Over P) :
    Holds P (M.dot N) := by
  refine Holds.foldlM c.zero fun a y hy ha => ?_
  obtain ⟨h1, h2⟩ := List.of_mem_zip (a := y.1) (b := y.2) hy
  exact (c.mul _ _ (hM _ h1) (hN _ h2)).bind fun z hz => c.add _ _ ha hz

end Mat

/-! ### Elimination -/

section Elim
variable {P : F → Prop} [EpsilonEquality F] [StabilityCmp F]

variable (heps : ∀ a : F, P a → EpsilonEquality.epsilonEquals a RField.zero = .ok false →
  RField.beq a RField.zero = false)

include heps in
theorem Mat.over_getStable {M : Mat F} (h : M.Over P) {c r : ℕ} :
    Holds (fun o => ∀ i x, o = some (i, x) → P x ∧ RField.beq x RField.zero = false)
      (M.getStable c r) := by
  unfold Mat.getStable
  refine Holds.bind' fun col => Holds.bind' fun k => (Mat.over_get h).bind fun x hx =>
    Holds.bind_eq fun b hb => ?_
  cases b
  · refine Holds.ok ?_
    rintro i y ⟨⟩
    exact ⟨hx, heps _ hx hb⟩
  · exact Holds.ok (by simp)

/-- The matrices of a row equivalent form have entries in `P`. -/
def Form.Over (P : F → Prop) (f : Form F) : Prop := f.p.Over P ∧ f.b.Over P

omit [EpsilonEquality F] [StabilityCmp F] in
theorem Form.over_replaceStep (c : ClosedRing P) {r col : ℕ} {f : Form F} (hf : f.Over P) (r2 : ℕ) :
    Holds (Form.Over P) (Form.replaceStep r col f r2) :=
  (Mat.over_get hf.2).bind fun _ hx => (c.sub _ _ c.zero hx).bind fun _ hs =>
    (Mat.over_replaceRow c hf.1 hs).bind fun _ hp => (c.sub _ _ c.zero hx).bind fun _ hs' =>
    (Mat.over_replaceRow c hf.2 hs').bind fun _ hb => Holds.ok ⟨hp, hb⟩

include heps in
theorem over_rowEchelonFor (c : ClosedField P) {n : ℕ} (cs : List ℕ) (r : ℕ) (f : Form F)
    (hf : f.Over P) : Holds (Form.Over P) (Mat.rowEchelonFor n cs r f) := by
  induction cs generalizing r f with
  | nil => exact Holds.ok hf
  | cons col cs ih =>
    unfold Mat.rowEchelonFor
    split
    · exact Holds.ok hf
    · refine (Mat.over_getStable heps hf.2).bind fun o ho => ?_
      rcases o with _ | ⟨i, x⟩
      · exact ih r f hf
      · refine Holds.bind (P := Form.Over P) ?_ fun f hf => ?_
        · exact (Mat.over_permuteRows hf.1).bind fun _ h1 => (Mat.over_permuteRows hf.2).bind fun _ h2 =>
            Holds.ok ⟨h1, h2⟩
        refine (c.div _ _ c.one (ho i x rfl).1 (ho i x rfl).2).bind fun s hs => ?_
        refine Holds.bind (P := Form.Over P) ?_ fun f hf => ?_
        · exact (Mat.over_scaleRow c.toClosedRing hf.1 hs).bind fun _ h1 =>
            (Mat.over_scaleRow c.toClosedRing hf.2 hs).bind fun _ h2 => Holds.ok ⟨h1, h2⟩
        refine Holds.bind (P := Form.Over P) ?_ fun f hf => ih (r + 1) f hf
        exact Holds.foldlM hf fun f r2 _ hf => Form.over_replaceStep c.toClosedRing hf r2

include heps in
theorem over_rowEchelon (c : ClosedField P) {M : Mat F} (hM : M.Over P) :
    Holds (Form.Over P) M.rowEchelon :=
  over_rowEchelonFor heps c _ _ _ ⟨Mat.over_identity c.toClosedRing _, hM⟩

omit [StabilityCmp F] in
theorem over_toRref (c : ClosedRing P) {f : Form F} (hf : f.Over P) : Holds (Form.Over P) f.toRref := by
  refine Holds.foldlM hf fun f r _ hf => Holds.bind' fun o => ?_
  rcases o with _ | col
  · exact Holds.ok hf
  · exact Holds.foldlM hf fun f r2 _ hf => Form.over_replaceStep c hf r2

omit [StabilityCmp F] in
theorem over_computeKernel (c : ClosedRing P) {f : Form F} (hf : f.b.Over P) :
    Holds (fun l => ∀ v ∈ l, Mat.Over P v) f.computeKernel := by
  unfold Form.computeKernel
  refine Holds.bind' fun bound => Holds.mapM fun col _ => ?_
  refine Holds.foldlM (Mat.over_e c _ _) fun v r _ hv => Holds.bind' fun o => ?_
  rcases o with _ | c2
  · exact Holds.ok hv
  · dsimp only
    split
    · exact (Mat.over_get hf).bind fun x hx => (c.sub _ _ c.zero hx).bind fun y hy => Mat.over_set hv hy
    · exact Holds.ok hv

include heps in
theorem over_luFor (c : ClosedField P) {n : ℕ} (cs : List ℕ) (r : ℕ) (lu : LUInternal F)
    (hl : lu.l.Over P) (hu : lu.u.Over P) :
    Holds (fun lu => lu.l.Over P ∧ lu.u.Over P) (Mat.luFor n cs r lu) := by
  induction cs generalizing r lu with
  | nil => exact Holds.ok ⟨hl, hu⟩
  | cons col cs ih =>
    unfold Mat.luFor
    split
    · exact Holds.ok ⟨hl, hu⟩
    · refine (Mat.over_getStable heps hu).bind fun o ho => ?_
      rcases o with _ | ⟨i, x⟩
      · exact ih r lu hl hu
      · obtain ⟨hx, hx0⟩ := ho i x rfl
        refine Holds.bind (P := fun lu => lu.l.Over P ∧ lu.u.Over P) ?_ fun lu ⟨hl, hu⟩ => ?_
        · unfold LUInternal.permute
          refine Holds.bind' fun p => (Mat.over_permuteRows hu).bind fun u h1 => ?_
          refine Holds.bind (P := Mat.Over P) ?_ fun l h2 => Holds.ok ⟨h2, h1⟩
          exact Holds.foldlM hl fun M _ _ hM => Mat.over_swap hM
        refine Holds.bind (P := fun lu => lu.l.Over P ∧ lu.u.Over P) ?_ fun lu ⟨hl, hu⟩ => ?_
        · exact (Mat.over_set hl hx).bind fun l h1 => (c.div _ _ c.one hx hx0).bind fun s hs =>
            (Mat.over_scaleRow c.toClosedRing hu hs).bind fun u h2 => Holds.ok ⟨h1, h2⟩
        refine Holds.bind (P := fun lu => lu.l.Over P ∧ lu.u.Over P) ?_ fun lu h => ih (r + 1) lu h.1 h.2
        refine Holds.foldlM ⟨hl, hu⟩ fun lu r2 _ h => ?_
        exact (Mat.over_get h.2).bind fun y hy => (c.sub _ _ c.zero hy).bind fun s hs =>
          (Mat.over_replaceRow c.toClosedRing h.2 hs).bind fun u h1 =>
          (Mat.over_set h.1 hy).bind fun l h2 => Holds.ok ⟨h2, h1⟩

include heps in
theorem over_lu (c : ClosedField P) {M : Mat F} (hM : M.Over P) :
    Holds (fun d => d.p.Over P ∧ d.l.Over P ∧ d.u.Over P) M.lu :=
  (over_luFor heps c _ _ _ (Mat.over_identity c.toClosedRing _) hM).bind fun _ h =>
    Holds.ok ⟨Mat.over_permutationFromVec c.toClosedRing _, h.1, h.2⟩

omit [RField F] [EpsilonEquality F] [StabilityCmp F] in
theorem nth_mem {α : Type} {l : List α} {i : ℕ} : Holds (fun a => a ∈ l) (Mat.nth l i) := by
  unfold Mat.nth
  split
  · next a h => exact Holds.ok (List.mem_of_getElem? h)
  · exact Holds.panic

omit [EpsilonEquality F] [StabilityCmp F] in
theorem Mat.over_fromRowVectors {vs : List (Mat F)} (h : ∀ v ∈ vs, Mat.Over P v) :
    Holds (Mat.Over P) (Mat.fromRowVectors vs) :=
  Holds.bind' fun _ => (Holds.mapM (Q := P) fun _ _ => nth_mem.bind fun v hv => Mat.over_get (h v hv)).bind
    fun _ hl => Holds.ok hl

omit [EpsilonEquality F] [StabilityCmp F] in
theorem Mat.over_getCol {M : Mat F} (h : M.Over P) {c : ℕ} : Holds (Mat.Over P) (M.getCol c) :=
  (Mat.over_getColIter h).bind fun _ hl => Holds.ok hl

include heps in
omit heps [StabilityCmp F] in
theorem over_computeRange {f : Form F} (hf : f.original.Over P) (order : List ℕ → List ℕ) :
    Holds (fun l => ∀ v ∈ l, Mat.Over P v) (f.computeRange order) :=
  Holds.bind' fun _ => Holds.mapM fun _ _ => Mat.over_getCol hf

variable [FieldOrd F]

/-- The generators, normals, generators of facets and the basis of the orthogonal complement of a cone
have entries in `P`. -/
structure Cone.Over (P : F → Prop) (c : Cone F) : Prop where
  generators : ∀ v ∈ c.generators, Mat.Over P v
  normal : ∀ f ∈ c.facets, Mat.Over P f.normal
  facet : ∀ f ∈ c.facets, ∀ v ∈ f.generators, Mat.Over P v
  orthComp : ∀ v ∈ c.orthCompBasis, Mat.Over P v

omit [RField F] [EpsilonEquality F] [StabilityCmp F] [FieldOrd F] in
theorem mem_of_mem_combinationsList {α : Type} {k : ℕ} {l s : List α} (hs : s ∈ combinationsList k l) :
    ∀ a ∈ s, a ∈ l := by
  induction l generalizing k s with
  | nil =>
    cases k with
    | zero => rw [combinationsList, List.mem_singleton] at hs; simp [hs]
    | succ k => simp [combinationsList] at hs
  | cons x xs ih =>
    cases k with
    | zero => rw [combinationsList, List.mem_singleton] at hs; simp [hs]
    | succ k =>
      rw [combinationsList, List.mem_append, List.mem_map] at hs
      intro a ha
      rcases hs with ⟨t, ht, rfl⟩ | hs
      · rcases List.mem_cons.mp ha with rfl | ha
        · simp
        · exact List.mem_cons_of_mem _ (ih ht a ha)
      · exact List.mem_cons_of_mem _ (ih hs a ha)

include heps in
theorem over_facetOf (c : ClosedField P) {gens : List (Mat F)} {k : ℕ} {subset : List (Mat F)}
    (hs : ∀ v ∈ subset, Mat.Over P v) :
    Holds (fun o => ∀ f, o = some f → f.normal.Over P ∧ ∀ v ∈ f.generators, Mat.Over P v)
      (Cone.facetOf gens k subset) := by
  unfold Cone.facetOf
  refine (Mat.over_fromRowVectors hs).bind fun M hM => (over_rowEchelon heps c hM).bind fun f hf =>
    (over_toRref c.toClosedRing hf).bind fun f hf => Holds.bind' fun rank => ?_
  split
  · exact Holds.ok (by simp)
  · refine (over_computeKernel c.toClosedRing hf.2).bind fun ker hker => nth_mem.bind fun n hn =>
      Holds.bind' fun g0 => Holds.bind' fun d => Holds.bind' fun o => ?_
    have hn := hker n hn
    rcases o with _ | o
    · exact Holds.ok (by simp)
    · have key : ∀ n : Mat F, n.Over P →
          Holds (fun o : Option (Face F) => ∀ f, o = some f → f.normal.Over P ∧
              ∀ v ∈ f.generators, Mat.Over P v)
            (Cone.allAbove n gens >>= fun b =>
              if b = true then pure (some ⟨n, subset⟩) else pure none) := by
        intro n hn
        refine Holds.bind' fun b => ?_
        split
        · refine Holds.ok ?_
          rintro f ⟨⟩
          exact ⟨hn, hs⟩
        · exact Holds.ok (by simp)
      cases o
      · exact (c.sub _ _ c.zero c.one).bind fun s hs =>
          (Mat.over_scale c.toClosedRing hn hs).bind key
      · exact key n hn
      · exact key n hn

include heps in
theorem over_coneNew (c : ClosedField P) {gens : List (Mat F)} (hg : ∀ v ∈ gens, Mat.Over P v) :
    Holds (Cone.Over P) (Cone.new gens) := by
  unfold Cone.new
  refine Holds.bind' fun g0 => (Mat.over_fromRowVectors hg).bind fun M hM =>
    (over_rowEchelon heps c hM).bind fun f hf => (over_toRref c.toClosedRing hf).bind fun f hf =>
    Holds.bind' fun dim => (over_computeKernel c.toClosedRing hf.2).bind fun ker hker =>
    Holds.bind' fun k => Holds.bind (P := fun l => ∀ s ∈ l, ∀ v ∈ s, Mat.Over P v) ?_ fun l hl => ?_
  · unfold combinations
    split
    · exact Holds.panic
    · exact Holds.ok fun s hs v hv => hg v (mem_of_mem_combinationsList hs v hv)
  · refine Holds.bind (P := fun fs : List (Face F) => ∀ f ∈ fs, f.normal.Over P ∧
      ∀ v ∈ f.generators, Mat.Over P v) ?_ fun fs hfs => Holds.ok
        ⟨hg, fun f hf => (hfs f hf).1, fun f hf => (hfs f hf).2, hker⟩
    refine Holds.foldlM (by simp) fun fs s hs hfs => (over_facetOf heps c (hl s hs)).bind fun o ho => ?_
    rcases o with _ | f
    · exact Holds.ok hfs
    · refine Holds.ok ?_
      intro f' hf'
      rcases List.mem_append.mp hf' with hf' | hf'
      · exact hfs f' hf'
      · rw [List.mem_singleton.mp hf']; exact ho f rfl

end Elim
end Verif
