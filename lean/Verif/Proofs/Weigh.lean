import Verif.Proofs.Relate
import Verif.Proofs.Closed
import Mathlib.Algebra.Group.Basic

/-!
# Runs on coefficients that differ by factors

`W u x y` says that `y` is `u` times `x`, for `u` in a group of factors.  If the operations respect `W`, a run on
terms whose coefficients differ by a factor that depends on the polynomial and, multiplicatively, on the monomial
takes the same course.  The two coefficient types may differ.
-/

namespace Verif
open Res Computer

namespace Res
variable {α β γ δ : Type}

/-- The same outcome up to `R`, unless one of the two panics with a panic in `E`. -/
def Near (E : Panic → Prop) (R : α → β → Prop) (x : Res α) (y : Res β) : Prop :=
  (∃ p, E p ∧ x = .panic p) ∨ (∃ p, E p ∧ y = .panic p) ∨ Rel R x y

variable {E : Panic → Prop} {R : α → β → Prop} {S : γ → δ → Prop}

theorem Rel.near {x : Res α} {y : Res β} (h : Rel R x y) : Near E R x y := .inr (.inr h)

theorem Near.ok {a : α} {b : β} (h : R a b) : Near E R (.ok a) (.ok b) := .inr (.inr h)

theorem Near.panic {p : Panic} : Near E R (.panic p) (.panic p) := .inr (.inr rfl)

theorem Near.rel {x : Res α} {y : Res β} (h : Near (fun _ => False) R x y) : Rel R x y := by
  rcases h with ⟨p, h, -⟩ | ⟨p, h, -⟩ | h
  · exact h.elim
  · exact h.elim
  · exact h

theorem Near.bind {x : Res α} {y : Res β} {f : α → Res γ} {g : β → Res δ} (h : Near E R x y)
    (hf : ∀ a b, R a b → Near E S (f a) (g b)) : Near E S (x >>= f) (y >>= g) := by
  rcases h with ⟨p, hp, rfl⟩ | ⟨p, hp, rfl⟩ | h
  · exact .inl ⟨p, hp, rfl⟩
  · exact .inr (.inl ⟨p, hp, rfl⟩)
  · cases x with
    | ok a => cases y with
      | ok b => exact hf a b h
      | panic q => exact h.elim
      | diverge => exact h.elim
    | panic p => cases y with
      | ok b => exact h.elim
      | panic q => exact .inr (.inr h)
      | diverge => exact h.elim
    | diverge => cases y with
      | ok b => exact h.elim
      | panic q => exact h.elim
      | diverge => exact .inr (.inr trivial)

theorem Near.same {x : Res α} {f : α → Res γ} {g : α → Res δ} (hf : ∀ a, Near E S (f a) (g a)) :
    Near E S (x >>= f) (x >>= g) := by
  cases x with
  | ok a => exact hf a
  | panic p => exact Near.panic
  | diverge => exact .inr (.inr trivial)

theorem Near.imp {R' : α → β → Prop} {x : Res α} {y : Res β} (h : Near E R x y)
    (hR : ∀ a b, R a b → R' a b) : Near E R' x y := by
  rcases h with h | h | h
  · exact .inl h
  · exact .inr (.inl h)
  · exact .inr (.inr (h.imp hR))

theorem Near.mono {E' : Panic → Prop} {x : Res α} {y : Res β} (h : Near E R x y)
    (hE : ∀ p, E p → E' p) : Near E' R x y := by
  rcases h with ⟨p, hp, h⟩ | ⟨p, hp, h⟩ | h
  · exact .inl ⟨p, hE p hp, h⟩
  · exact .inr (.inl ⟨p, hE p hp, h⟩)
  · exact .inr (.inr h)

/-- A value of the first run may be assumed to satisfy what such values satisfy. -/
theorem Near.and {P : α → Prop} {x : Res α} {y : Res β} (h : Near E R x y) (hP : Holds P x) :
    Near E (fun a b => R a b ∧ P a) x y := by
  rcases h with h | h | h
  · exact .inl h
  · exact .inr (.inl h)
  · refine .inr (.inr ?_)
    cases x <;> cases y <;> first | exact h.elim | exact h | exact ⟨h, hP _ rfl⟩

theorem Near.mapM {f : α → Res γ} {g : β → Res δ} {l : List α} {l' : List β} (hl : List.Forall₂ R l l')
    (hf : ∀ a b, R a b → Near E S (f a) (g b)) : Near E (List.Forall₂ S) (l.mapM f) (l'.mapM g) := by
  induction hl with
  | nil => exact Near.ok List.Forall₂.nil
  | cons h _ ih =>
    rw [List.mapM_cons, List.mapM_cons]
    exact (hf _ _ h).bind fun c d hcd => ih.bind fun cs ds hcs => Near.ok (List.Forall₂.cons hcd hcs)

theorem Near.foldlM {f : γ → α → Res γ} {g : δ → β → Res δ} {l : List α} {l' : List β}
    (hl : List.Forall₂ R l l') (hf : ∀ c d a b, S c d → R a b → Near E S (f c a) (g d b)) {c : γ} {d : δ}
    (h : S c d) : Near E S (l.foldlM f c) (l'.foldlM g d) := by
  induction hl generalizing c d with
  | nil => exact Near.ok h
  | cons h' _ ih =>
    rw [List.foldlM_cons, List.foldlM_cons]
    exact (hf _ _ _ _ h h').bind fun c d hcd => ih hcd

theorem Near.reduceM {f : α → α → Res α} {g : β → β → Res β} {a : α} {b : β}
    (hf : ∀ a b a' b', R a b → R a' b' → Near E R (f a a') (g b b')) (h0 : R a b) {l : List (Res α)}
    {l' : List (Res β)} (hl : List.Forall₂ (Near E R) l l') : Near E R (reduceM f a l) (reduceM g b l') := by
  cases hl with
  | nil => exact Near.ok h0
  | cons h hl =>
    refine h.bind fun a b hab => Near.foldlM hl (fun c d x y hcd hxy => ?_) hab
    exact hxy.bind fun a' b' h => hf _ _ _ _ hcd h

theorem Near.loop {step : α → Res (α ⊕ γ)} {step' : β → Res (β ⊕ δ)}
    (H : ∀ a b, R a b → Near E (SRel R S) (step a) (step' b)) {a : α} {b : β} (h : R a b) :
    Near E S (Res.loop step a) (Res.loop step' b) := by
  have hit : ∀ n a b, R a b → Near E S (iter step n a) (iter step' n b) := by
    intro n
    induction n with
    | zero => intro a b _; exact .inr (.inr trivial)
    | succ n ih =>
      intro a b h
      change Near E S (step a >>= fun x => _) (step' b >>= fun x => _)
      refine (H a b h).bind fun x y hxy => ?_
      rcases x with x | x <;> rcases y with y | y
      · exact ih _ _ hxy
      · exact hxy.elim
      · exact hxy.elim
      · exact Near.ok hxy
  by_cases hd : Res.loop step a = .diverge
  · by_cases hd' : Res.loop step' b = .diverge
    · rw [hd, hd']; exact .inr (.inr trivial)
    · obtain ⟨n, hn⟩ := iter_of_loop_ne_diverge hd'
      rcases hit n a b h with ⟨p, hp, he⟩ | ⟨p, hp, he⟩ | hr
      · exact .inl ⟨p, hp, loop_eq_of_iter he (by simp)⟩
      · exact .inr (.inl ⟨p, hp, loop_eq_of_iter he (by simp)⟩)
      · rw [hn] at hr
        have hne : iter step n a ≠ .diverge := fun h0 => by
          rw [h0] at hr
          cases hl : Res.loop step' b with
          | ok r => rw [hl] at hr; exact hr
          | panic p => rw [hl] at hr; exact hr
          | diverge => exact hd' hl
        exact absurd ((loop_eq_of_iter rfl hne).symm.trans hd) hne
  · obtain ⟨n, hn⟩ := iter_of_loop_ne_diverge hd
    rcases hit n a b h with ⟨p, hp, he⟩ | ⟨p, hp, he⟩ | hr
    · exact .inl ⟨p, hp, loop_eq_of_iter he (by simp)⟩
    · exact .inr (.inl ⟨p, hp, loop_eq_of_iter he (by simp)⟩)
    · rw [hn] at hr
      have hne : iter step' n b ≠ .diverge := fun h0 => by
        rw [h0] at hr
        cases hl : Res.loop step a with
        | ok r => rw [hl] at hr; exact hr
        | panic p => rw [hl] at hr; exact hr
        | diverge => exact hd hl
      refine .inr (.inr ?_)
      rwa [loop_eq_of_iter rfl hne]

end Res

/-! ### Polynomials without zero coefficients -/

section
variable {F : Type} [RField F]

/-- No coefficient is zero. -/
def Poly.NoZero (p : Poly F) : Prop := ∀ t ∈ p, t.isZero = false

theorem Poly.NoZero.addNonzeroTerm {p : Poly F} (hp : p.NoZero) {s : Term F} (hs : s.isZero = false) :
    Holds Poly.NoZero (Poly.addNonzeroTerm p s) := by
  induction p with
  | nil => exact Holds.ok (by intro t ht; simp only [List.mem_singleton] at ht; subst ht; exact hs)
  | cons a as ih =>
    have ha : Poly.NoZero as := fun t ht => hp t (List.mem_cons_of_mem _ ht)
    unfold Poly.addNonzeroTerm
    split
    · refine Holds.bind' fun c => ?_
      dsimp only
      split
      · exact Holds.ok ha
      · rename_i hc
        refine Holds.ok fun t ht => ?_
        rcases List.mem_cons.mp ht with rfl | ht
        · simpa using hc
        · exact ha t ht
    · refine (ih ha).bind fun r hr => Holds.ok fun t ht => ?_
      rcases List.mem_cons.mp ht with rfl | ht
      · exact hp _ (List.mem_cons_self ..)
      · exact hr t ht

theorem Poly.NoZero.addTerm {p : Poly F} (hp : p.NoZero) (s : Term F) :
    Holds Poly.NoZero (Poly.addTerm p s) := by
  unfold Poly.addTerm
  split
  · refine Holds.ok ?_
    unfold Poly.ofTerm
    split
    · exact fun t ht => absurd ht (by simp [Poly.zero, Poly.newUnchecked])
    · rename_i h
      intro t ht
      simp only [Poly.termUnchecked, Poly.newUnchecked, List.mem_singleton] at ht
      subst ht
      simpa using h
  · split
    · exact Holds.ok hp
    · rename_i h
      exact Poly.NoZero.addNonzeroTerm hp (by simpa using h)

theorem divide_noZero (O : MOrder) (f : Poly F) (divs : List (Poly F)) :
    Holds (fun x => Poly.NoZero x.1) (divide O f divs) := by
  refine Holds.loop (fun s => Poly.NoZero s.remainder) (fun s hs => ?_) (fun t ht => nomatch ht)
  unfold divideStep
  refine Holds.bind' fun o => ?_
  rcases o with _ | lt
  · exact Holds.ok hs
  · refine Holds.bind' fun o => ?_
    rcases o with _ | ⟨qs, f'⟩
    · refine Holds.bind' fun l => ?_
      split
      · exact Holds.ok hs
      · exact (Poly.NoZero.addTerm hs _).bind fun r hr => Holds.ok hr
    · exact Holds.ok hs

end

/-! ### Terms and polynomials -/

section
variable {F G U : Type} [RField F] [RField G] [CommGroup U]

/-- The operations respect `W`, which relates `x` with `u` times `x`. -/
structure WeighOps (E : Panic → Prop) (W : U → F → G → Prop) : Prop where
  build : RField.build F = RField.build G
  zero : ∀ u, W u RField.zero RField.zero
  one : W 1 RField.one RField.one
  isZero : ∀ {u x y}, W u x y → RField.beq x RField.zero = RField.beq y RField.zero
  add : ∀ {u x y x' y'}, W u x y → W u x' y' → Near E (W u) (RField.add x x') (RField.add y y')
  neg : ∀ {u x y}, W u x y → Near E (W u) (RField.neg x) (RField.neg y)
  mul : ∀ {u v x y x' y'}, W u x y → W v x' y' → Near E (W (u * v)) (RField.mul x x') (RField.mul y y')
  div : ∀ {u v x y x' y'}, W u x y → W v x' y' → RField.beq x' RField.zero = false →
    Near E (W (u * v⁻¹)) (RField.div x x') (RField.div y y')
  inv : ∀ {u x y}, W u x y → RField.beq x RField.zero = false → Near E (W u⁻¹) (RField.inv x) (RField.inv y)

/-- A factor for every monomial, multiplicatively. -/
structure Character (b : Build) (χ : MDeg → U) : Prop where
  zero : χ MDeg.zero = 1
  add : ∀ {m n k}, MDeg.add b m n = .ok k → χ k = χ m * χ n
  sub : ∀ {m n k}, MDeg.checkedSub m n = some k → χ m = χ k * χ n

/-- The same multidegree, and coefficients that differ by the factor `u` times that of the monomial. -/
def TW (W : U → F → G → Prop) (χ : MDeg → U) (u : U) (s : Term F) (t : Term G) : Prop :=
  s.mdeg = t.mdeg ∧ W (u * χ s.mdeg) s.coef t.coef

/-- Related terms in the same places. -/
abbrev PW (W : U → F → G → Prop) (χ : MDeg → U) (u : U) (p : Poly F) (q : Poly G) : Prop :=
  List.Forall₂ (TW W χ u) p q

/-- Polynomials in the same places, each with its own factor. -/
abbrev LW (W : U → F → G → Prop) (χ : MDeg → U) (p : List (Poly F)) (q : List (Poly G)) : Prop :=
  List.Forall₂ (fun f g => ∃ u, PW W χ u f g) p q

variable {E : Panic → Prop} {W : U → F → G → Prop} {χ : MDeg → U} {u v : U}

omit [RField F] [RField G] in
theorem PW.isZero {p : Poly F} {q : Poly G} (h : PW W χ u p q) : Poly.isZero p = Poly.isZero q := by
  cases h <;> rfl

omit [RField F] [RField G] in
theorem PW.mdegs {p : Poly F} {q : Poly G} (h : PW W χ u p q) : p.map (·.mdeg) = q.map (·.mdeg) := by
  induction h with
  | nil => rfl
  | cons h _ ih => rw [List.map_cons, List.map_cons, h.1, ih]

variable (hw : WeighOps E W)
include hw

theorem TW.isZero {s : Term F} {t : Term G} (h : TW W χ u s t) : s.isZero = t.isZero := hw.isZero h.2

theorem PW.ofTerm {s : Term F} {t : Term G} (h : TW W χ u s t) : PW W χ u (Poly.ofTerm s) (Poly.ofTerm t) := by
  unfold Poly.ofTerm
  rw [TW.isZero hw h]
  split
  · exact .nil
  · exact .cons h .nil

theorem TW.zero : TW W χ u (Term.zero : Term F) (Term.zero : Term G) := ⟨rfl, hw.zero _⟩

theorem Term.neg_w {s : Term F} {t : Term G} (h : TW W χ u s t) : Near E (TW W χ u) s.neg t.neg := by
  unfold Term.neg
  exact (hw.neg h.2).bind fun c d hcd => Near.ok ⟨h.1, hcd⟩

theorem Poly.neg_w {p : Poly F} {q : Poly G} (h : PW W χ u p q) :
    Near E (PW W χ u) (Poly.neg p) (Poly.neg q) :=
  Near.mapM h fun _ _ => Term.neg_w hw

theorem Poly.addNonzeroTerm_w {p : Poly F} {q : Poly G} (h : PW W χ u p q) {s : Term F} {t : Term G}
    (hs : TW W χ u s t) : Near E (PW W χ u) (Poly.addNonzeroTerm p s) (Poly.addNonzeroTerm q t) := by
  induction h with
  | nil => exact Near.ok (.cons hs .nil)
  | @cons a b as bs hab hl ih =>
    unfold Poly.addNonzeroTerm
    by_cases hm : a.mdeg = s.mdeg
    · rw [if_pos hm, if_pos (by rw [← hab.1, ← hs.1]; exact hm)]
      refine (hw.add hab.2 (by rw [hm]; exact hs.2)).bind fun c d hcd => ?_
      have h' : TW W χ u (⟨c, a.mdeg⟩ : Term F) ⟨d, b.mdeg⟩ := ⟨hab.1, hcd⟩
      dsimp only
      rw [TW.isZero hw h']
      split
      · exact Near.ok hl
      · exact Near.ok (.cons h' hl)
    · rw [if_neg hm, if_neg (by rw [← hab.1, ← hs.1]; exact hm)]
      exact ih.bind fun x y hxy => Near.ok (.cons hab hxy)

theorem Poly.addTerm_w {p : Poly F} {q : Poly G} (h : PW W χ u p q) {s : Term F} {t : Term G}
    (hs : TW W χ u s t) : Near E (PW W χ u) (Poly.addTerm p s) (Poly.addTerm q t) := by
  unfold Poly.addTerm
  rw [PW.isZero h, TW.isZero hw hs]
  split
  · exact Near.ok (PW.ofTerm hw hs)
  · split
    · exact Near.ok h
    · exact Poly.addNonzeroTerm_w hw h hs

theorem Poly.add_w {p p' : Poly F} {q q' : Poly G} (h : PW W χ u p q) (h' : PW W χ u p' q') :
    Near E (PW W χ u) (Poly.add p p') (Poly.add q q') :=
  Near.foldlM h' (fun _ _ _ _ hc ha => Poly.addTerm_w hw hc ha) h

theorem Poly.sub_w {p p' : Poly F} {q q' : Poly G} (h : PW W χ u p q) (h' : PW W χ u p' q') :
    Near E (PW W χ u) (Poly.sub p p') (Poly.sub q q') :=
  (Poly.neg_w hw h').bind fun _ _ hr => Poly.add_w hw h hr

variable (hχ : Character (RField.build F) χ)
include hχ

theorem Term.mul_w {s s' : Term F} {t t' : Term G} (h : TW W χ u s t) (h' : TW W χ v s' t') :
    Near E (TW W χ (u * v)) (s.mul s') (t.mul t') := by
  unfold Term.mul
  rw [TW.isZero hw h, TW.isZero hw h', ← hw.build, h.1, h'.1]
  split
  · exact Near.ok (TW.zero hw)
  · refine (hw.mul h.2 h'.2).bind fun c d hcd => ?_
    cases hm : MDeg.add (RField.build F) t.mdeg t'.mdeg with
    | ok k =>
      refine Near.ok ⟨rfl, ?_⟩
      dsimp only [Term.newUnchecked]
      rw [hχ.add hm, mul_mul_mul_comm, ← h.1, ← h'.1]
      exact hcd
    | panic p => exact Near.panic
    | diverge => exact .inr (.inr trivial)

theorem Poly.mulTerm_w {p : Poly F} {q : Poly G} (h : PW W χ u p q) {s : Term F} {t : Term G}
    (hs : TW W χ v s t) : Near E (PW W χ (u * v)) (Poly.mulTerm p s) (Poly.mulTerm q t) := by
  unfold Poly.mulTerm
  rw [PW.isZero h, TW.isZero hw hs]
  split
  · exact Near.ok .nil
  · exact Near.mapM h fun _ _ hab => Term.mul_w hw hχ hab hs

theorem Poly.mul_w {p p' : Poly F} {q q' : Poly G} (h : PW W χ u p q) (h' : PW W χ v p' q') :
    Near E (PW W χ (u * v)) (Poly.mul p p') (Poly.mul q q') := by
  refine Near.reduceM (fun _ _ _ _ => Poly.add_w hw) List.Forall₂.nil ?_
  rw [List.forall₂_map_left_iff, List.forall₂_map_right_iff, mul_comm u v]
  exact h.imp fun _ _ hab => Poly.mulTerm_w hw hχ h' hab

theorem Poly.mulCoef_w {p : Poly F} {q : Poly G} (h : PW W χ u p q) {a : F} {b : G} (hab : W v a b) :
    Near E (PW W χ (u * v)) (Poly.mulCoef p a) (Poly.mulCoef q b) :=
  Poly.mulTerm_w hw hχ h ⟨rfl, by
    dsimp only [Term.constantUnchecked, Term.newUnchecked]; rw [hχ.zero, mul_one]; exact hab⟩

theorem Poly.divCoef_w {p : Poly F} {q : Poly G} (h : PW W χ u p q) {a : F} {b : G} (hab : W v a b)
    (ha : RField.beq a RField.zero = false) :
    Near E (PW W χ (u * v⁻¹)) (Poly.divCoef p a) (Poly.divCoef q b) :=
  (hw.inv hab ha).bind fun _ _ hcd => Poly.mulCoef_w hw hχ h hcd

theorem Term.tryDiv_w {s s' : Term F} {t t' : Term G} (h : TW W χ u s t) (h' : TW W χ v s' t') :
    Near E (ORel (TW W χ (u * v⁻¹))) (s.tryDiv s') (t.tryDiv t') := by
  unfold Term.tryDiv
  rw [← TW.isZero hw h, ← TW.isZero hw h', ← h.1, ← h'.1]
  split
  · exact Near.ok (TW.zero hw)
  · split
    · exact Near.ok trivial
    · rename_i hz
      refine (hw.div h.2 h'.2 (by simpa [Term.isZero] using hz)).bind fun c d hcd => ?_
      cases hm : MDeg.checkedSub s.mdeg s'.mdeg with
      | none => exact Near.ok trivial
      | some k =>
        refine Near.ok ⟨rfl, ?_⟩
        dsimp only [Term.newUnchecked]
        have e : u * χ s.mdeg * (v * χ s'.mdeg)⁻¹ = u * v⁻¹ * χ k := by
          rw [hχ.sub hm, mul_inv, mul_mul_mul_comm, mul_inv_cancel_right]
        rw [← e]
        exact hcd

omit hχ in
theorem monicLcm_w {s s' : Term F} {t t' : Term G} (h : TW W χ u s t) (h' : TW W χ v s' t') :
    ∃ w, TW W χ w (monicLcm s s') (monicLcm t t') := by
  unfold monicLcm
  rw [TW.isZero hw h, TW.isZero hw h', h.1, h'.1]
  split
  · exact ⟨1, TW.zero hw⟩
  · refine ⟨(χ (lcmMDeg t.mdeg t'.mdeg))⁻¹, rfl, ?_⟩
    dsimp only [Term.monic, Term.newUnchecked]
    rw [inv_mul_cancel]
    exact hw.one

omit hχ in
theorem Term.divides_w {s s' : Term F} {t t' : Term G} (h : TW W χ u s t) (h' : TW W χ v s' t') :
    s.divides s' = t.divides t' := by
  unfold Term.divides
  rw [TW.isZero hw h, h.1, h'.1]

/-! ### Leading terms, sorting and division -/

variable (O : MOrder)

omit hw hχ [RField F] [RField G] in
theorem leadingTerm_w {f : Poly F} {g : Poly G} (h : PW W χ u f g) :
    Near E (ORel (TW W χ u)) (leadingTerm O f) (leadingTerm O g) :=
  (maxBy_rel (fun _ _ _ _ h h' => by rw [h.1, h'.1]) h).near

omit hw hχ [RField F] [RField G] in
theorem sortTerms_w {f : Poly F} {g : Poly G} (h : PW W χ u f g) :
    Near E (PW W χ u) (sortTerms O f) (sortTerms O g) :=
  (sortBy_rel (fun _ _ _ _ h h' => by rw [h.1, h'.1]) h).near

omit hw hχ [RField F] [RField G] in
theorem unwrapLeadingTerm_w {f : Poly F} {g : Poly G} (h : PW W χ u f g) :
    Near E (TW W χ u) (unwrapLeadingTerm O f) (unwrapLeadingTerm O g) := by
  refine (leadingTerm_w O h).bind fun a b hab => ?_
  rcases a with _ | a <;> rcases b with _ | b
  · exact Near.panic
  · exact hab.elim
  · exact hab.elim
  · exact Near.ok hab

omit hw hχ [RField G] in
theorem leadingCoef_w {f : Poly F} {g : Poly G} (h : PW W χ u f g) (hz : f.NoZero) :
    Near E (ORel fun a b => ∃ v, W v a b ∧ RField.beq a RField.zero = false) (leadingCoef O f)
      (leadingCoef O g) := by
  refine ((leadingTerm_w O h).and leadingTerm_holds_mem).bind fun a b hab => ?_
  obtain ⟨hab, hmem⟩ := hab
  rcases a with _ | a <;> rcases b with _ | b
  · exact Near.ok trivial
  · exact hab.elim
  · exact hab.elim
  · exact Near.ok ⟨_, hab.2, hz a (hmem a rfl)⟩

/-- A divisor and its quotient; the factor of the quotient makes up for that of the divisor. -/
def GQ (W : U → F → G → Prop) (χ : MDeg → U) (u : U) (x : Poly F × Poly F) (y : Poly G × Poly G) : Prop :=
  ∃ v, PW W χ v x.1 y.1 ∧ PW W χ (u * v⁻¹) x.2 y.2

theorem divideFor_w {s : Term F} {t : Term G} (hs : TW W χ u s t) {f : Poly F} {g : Poly G}
    (hf : PW W χ u f g) {l : List (Poly F × Poly F)} {l' : List (Poly G × Poly G)}
    (hl : List.Forall₂ (GQ W χ u) l l') :
    Near E (ORel fun x y => List.Forall₂ (GQ W χ u) ((l.map (·.1)).zip x.1) ((l'.map (·.1)).zip y.1) ∧
        x.1.length = l.length ∧ y.1.length = l'.length ∧ PW W χ u x.2 y.2)
      (divideFor O s f l) (divideFor O t g l') := by
  induction hl with
  | nil => exact Near.ok trivial
  | @cons x y rest rest' h hl ih =>
    obtain ⟨g₁, q₁⟩ := x
    obtain ⟨g₂, q₂⟩ := y
    unfold divideFor
    dsimp only
    have next : Near E (ORel fun x y => List.Forall₂ (GQ W χ u)
            ((((g₁, q₁) :: rest).map (·.1)).zip x.1) ((((g₂, q₂) :: rest').map (·.1)).zip y.1) ∧
          x.1.length = ((g₁, q₁) :: rest).length ∧ y.1.length = ((g₂, q₂) :: rest').length ∧
          PW W χ u x.2 y.2)
        (divideFor O s f rest >>= fun o => match o with
          | none => pure none
          | some (qs, f') => pure (some (q₁ :: qs, f')))
        (divideFor O t g rest' >>= fun o => match o with
          | none => pure none
          | some (qs, f') => pure (some (q₂ :: qs, f'))) := by
      refine ih.bind fun a b hab => ?_
      rcases a with _ | ⟨qs, f'⟩ <;> rcases b with _ | ⟨qs', g'⟩
      · exact Near.ok trivial
      · exact hab.elim
      · exact hab.elim
      · exact Near.ok ⟨.cons h hab.1, by simpa using hab.2.1, by simpa using hab.2.2.1, hab.2.2.2⟩
    obtain ⟨v, hg, hq⟩ := h
    refine (leadingTerm_w O hg).bind fun a b hab => ?_
    rcases a with _ | a <;> rcases b with _ | b
    · exact next
    · exact hab.elim
    · exact hab.elim
    · refine (Term.tryDiv_w hw hχ hs hab).bind fun a b hab => ?_
      rcases a with _ | a <;> rcases b with _ | b
      · exact next
      · exact hab.elim
      · exact hab.elim
      · refine (Poly.addTerm_w hw hq hab).bind fun q q' hq' => ?_
        refine (Poly.mulTerm_w hw hχ hg hab).bind fun x y hxy => ?_
        have e : v * (u * v⁻¹) = u := by rw [mul_comm u, mul_inv_cancel_left]
        rw [e] at hxy
        refine (Poly.sub_w hw hf hxy).bind fun x y hxy => ?_
        refine Near.ok ⟨?_, by simp, by simp, hxy⟩
        have key : ∀ {k : List (Poly F × Poly F)} {k' : List (Poly G × Poly G)},
            List.Forall₂ (GQ W χ u) k k' →
            List.Forall₂ (GQ W χ u) ((k.map (·.1)).zip (k.map (·.2))) ((k'.map (·.1)).zip (k'.map (·.2))) := by
          intro k k' hk
          induction hk with
          | nil => exact .nil
          | cons h _ ih => exact .cons h ih
        exact .cons ⟨v, hg, hq'⟩ (key hl)

/-- Related states of `divide`. -/
structure DW (W : U → F → G → Prop) (χ : MDeg → U) (u : U) (divs : List (Poly F)) (divs' : List (Poly G))
    (s : DivState F) (t : DivState G) : Prop where
  f : PW W χ u s.f t.f
  q : List.Forall₂ (GQ W χ u) (divs.zip s.quotients) (divs'.zip t.quotients)
  len : s.quotients.length = divs.length
  len' : t.quotients.length = divs'.length
  r : PW W χ u s.remainder t.remainder

/-- Related results of `divide`. -/
def RW (W : U → F → G → Prop) (χ : MDeg → U) (u : U) (divs : List (Poly F)) (divs' : List (Poly G))
    (x : Poly F × List (Poly F)) (y : Poly G × List (Poly G)) : Prop :=
  PW W χ u x.1 y.1 ∧ List.Forall₂ (GQ W χ u) (divs.zip x.2) (divs'.zip y.2)

theorem divideStep_w {divs : List (Poly F)} {divs' : List (Poly G)} {s : DivState F} {t : DivState G}
    (hs : DW W χ u divs divs' s t) :
    Near E (SRel (DW W χ u divs divs') (RW W χ u divs divs')) (divideStep O divs s) (divideStep O divs' t) := by
  unfold divideStep
  refine (leadingTerm_w O hs.f).bind fun a b hab => ?_
  rcases a with _ | a <;> rcases b with _ | b
  · exact Near.ok ⟨hs.r, hs.q⟩
  · exact hab.elim
  · exact hab.elim
  · refine (divideFor_w hw hχ O hab hs.f hs.q).bind fun x y hxy => ?_
    rcases x with _ | ⟨qs, f'⟩ <;> rcases y with _ | ⟨qs', g'⟩
    · refine (sortTerms_w O hs.f).bind fun u v huv => ?_
      have h := forall₂_dropLast huv
      revert h
      cases u.getLast? <;> cases v.getLast? <;> intro h
      · exact Near.ok ⟨huv, hs.q, hs.len, hs.len', hs.r⟩
      · exact h.1.elim
      · exact h.1.elim
      · exact (Poly.addTerm_w hw hs.r h.1).bind fun r r' hr => Near.ok ⟨h.2, hs.q, hs.len, hs.len', hr⟩
    · exact hxy.elim
    · exact hxy.elim
    · obtain ⟨h1, h2, h3, h4⟩ := hxy
      rw [List.map_fst_zip (by rw [hs.len]), List.map_fst_zip (by rw [hs.len'])] at h1
      exact Near.ok ⟨h4, h1, by rw [h2, List.length_zip, hs.len, min_self],
        by rw [h3, List.length_zip, hs.len', min_self], hs.r⟩

theorem divide_w {f : Poly F} {g : Poly G} (hf : PW W χ u f g) {divs : List (Poly F)}
    {divs' : List (Poly G)} (hd : LW W χ divs divs') :
    Near E (RW W χ u divs divs') (divide O f divs) (divide O g divs') := by
  refine Near.loop (R := DW W χ u divs divs') (fun a b hab => divideStep_w hw hχ O hab)
    ⟨hf, ?_, by simp, by simp, .nil⟩
  dsimp only
  induction hd with
  | nil => exact .nil
  | cons h _ ih =>
    obtain ⟨v, hv⟩ := h
    exact .cons ⟨v, hv, .nil⟩ ih

theorem tryReduce_w {f g : Poly F} {f' g' : Poly G} (hf : PW W χ u f f') (hg : PW W χ v g g') :
    Near E (ORel fun x y => ∃ w, PW W χ w x y) (tryReduce O f g) (tryReduce O f' g') := by
  unfold tryReduce
  refine (leadingTerm_w O hf).bind fun a b hab => ?_
  rcases a with _ | a <;> rcases b with _ | b
  · exact Near.ok trivial
  · exact hab.elim
  · exact hab.elim
  refine (leadingTerm_w O hg).bind fun c d hcd => ?_
  rcases c with _ | c <;> rcases d with _ | d
  · exact Near.ok trivial
  · exact hcd.elim
  · exact hcd.elim
  obtain ⟨w, hl⟩ := monicLcm_w hw hab hcd
  dsimp only
  refine (Term.tryDiv_w hw hχ hl hab).bind fun x y hxy => ?_
  rcases x with _ | x <;> rcases y with _ | y
  · exact Near.ok trivial
  · exact hxy.elim
  · exact hxy.elim
  refine (Poly.mulTerm_w hw hχ hf hxy).bind fun p q hpq => ?_
  refine (Term.tryDiv_w hw hχ hl hcd).bind fun x y hxy => ?_
  rcases x with _ | x <;> rcases y with _ | y
  · exact Near.ok trivial
  · exact hxy.elim
  · exact hxy.elim
  refine (Poly.mulTerm_w hw hχ hg hxy).bind fun p' q' hpq' => ?_
  have e : ∀ u : U, u * (w * u⁻¹) = w := fun u => by rw [mul_comm w, mul_inv_cancel_left]
  rw [e] at hpq hpq'
  exact (Poly.sub_w hw hpq hpq').bind fun _ _ h => Near.ok ⟨w, h⟩

/-! ### The Buchberger routines -/

theorem criterionFor_w {gens : List (Poly F)} {gens' : List (Poly G)} (hg : LW W χ gens gens')
    (l : List (ℕ × ℕ)) : Near E (· = ·) (criterionFor O gens l) (criterionFor O gens' l) := by
  induction l with
  | nil => exact Near.ok rfl
  | cons x rest ih =>
    obtain ⟨i, j⟩ := x
    unfold criterionFor
    refine (index_rel hg i).near.bind fun a b ⟨u, hab⟩ => (index_rel hg j).near.bind fun c d ⟨v, hcd⟩ => ?_
    refine (tryReduce_w hw hχ O hab hcd).bind fun x y hxy => ?_
    rcases x with _ | x <;> rcases y with _ | y
    · exact Near.panic
    · exact hxy.elim
    · exact hxy.elim
    · obtain ⟨w, hxy⟩ := hxy
      refine (divide_w hw hχ O hxy hg).bind ?_
      rintro ⟨r, qs⟩ ⟨r', qs'⟩ ⟨hr, -⟩
      dsimp only at hr ⊢
      rw [PW.isZero hr]
      split
      · exact Near.ok rfl
      · exact ih

theorem buchbergerCriterion_w {gens : List (Poly F)} {gens' : List (Poly G)} (hg : LW W χ gens gens') :
    Near E (· = ·) (buchbergerCriterion O gens) (buchbergerCriterion O gens') := by
  unfold buchbergerCriterion
  rw [hg.length_eq]
  exact criterionFor_w hw hχ O hg _

theorem extendFor_w {gens : List (Poly F)} {gens' : List (Poly G)} (hg : LW W χ gens gens') (i : ℕ)
    (l : List ℕ) :
    Near E (ORel fun x y => ∃ w, PW W χ w x y) (extendFor O gens i l) (extendFor O gens' i l) := by
  induction l with
  | nil => exact Near.ok trivial
  | cons j rest ih =>
    unfold extendFor
    refine (index_rel hg i).near.bind fun a b ⟨u, hab⟩ => (index_rel hg j).near.bind fun c d ⟨v, hcd⟩ => ?_
    refine (tryReduce_w hw hχ O hab hcd).bind fun x y hxy => ?_
    rcases x with _ | x <;> rcases y with _ | y
    · exact Near.panic
    · exact hxy.elim
    · exact hxy.elim
    · obtain ⟨w, hxy⟩ := hxy
      refine ((divide_w hw hχ O hxy hg).and (divide_noZero O _ _)).bind ?_
      rintro ⟨r, qs⟩ ⟨r', qs'⟩ ⟨⟨hr, -⟩, hz⟩
      dsimp only at hr hz ⊢
      refine (leadingCoef_w O hr hz).bind fun a b hab => ?_
      rcases a with _ | a <;> rcases b with _ | b
      · exact ih
      · exact hab.elim
      · exact hab.elim
      · obtain ⟨v, hv, ha⟩ := hab
        exact (Poly.divCoef_w hw hχ hr hv ha).bind fun _ _ h => Near.ok ⟨_, h⟩

theorem buchbergerExtend_w {gens : List (Poly F)} {gens' : List (Poly G)} (hg : LW W χ gens gens') :
    Near E (LW W χ) (buchbergerExtend O gens) (buchbergerExtend O gens') := by
  refine Near.loop (R := fun x y => LW W χ x.1 y.1 ∧ x.2 = y.2) ?_ ⟨hg, rfl⟩
  rintro ⟨gens, i⟩ ⟨gens', i'⟩ ⟨hg, hi⟩
  dsimp only at hg hi
  subst hi
  unfold extendStep
  dsimp only
  rw [hg.length_eq]
  split
  · refine (extendFor_w hw hχ O hg i _).bind fun u v huv => ?_
    rcases u with _ | u <;> rcases v with _ | v
    · exact Near.ok ⟨hg, rfl⟩
    · exact huv.elim
    · exact huv.elim
    · exact Near.ok ⟨List.rel_append hg (.cons huv .nil), rfl⟩
  · exact Near.ok hg

omit hχ in
theorem minimizeFor_w {gens : List (Poly F)} {gens' : List (Poly G)} (hg : LW W χ gens gens')
    (l : List (ℕ × ℕ)) : Near E (· = ·) (minimizeFor O gens l) (minimizeFor O gens' l) := by
  induction l with
  | nil => exact Near.ok rfl
  | cons x rest ih =>
    obtain ⟨i, j⟩ := x
    unfold minimizeFor
    refine (index_rel hg j).near.bind fun a b ⟨u, hab⟩ => (unwrapLeadingTerm_w O hab).bind fun s t hst => ?_
    refine (index_rel hg i).near.bind fun a b ⟨v, hab⟩ => (unwrapLeadingTerm_w O hab).bind fun s' t' hst' => ?_
    rw [Term.divides_w hw hst hst']
    split
    · exact Near.ok rfl
    · exact ih

omit hχ in
theorem buchbergerMinimize_w {gens : List (Poly F)} {gens' : List (Poly G)} (hg : LW W χ gens gens') :
    Near E (LW W χ) (buchbergerMinimize O gens) (buchbergerMinimize O gens') := by
  refine Near.loop (fun gens gens' hg => ?_) hg
  unfold minimizeStep
  rw [hg.length_eq]
  refine (minimizeFor_w hw O hg _).bind fun u v huv => ?_
  subst huv
  rcases u with _ | i
  · exact Near.ok hg
  · exact Near.ok (forall₂_eraseIdx hg i)

omit hχ in
theorem reduceTerms_w {g : Poly F} {g' : Poly G} (hg : PW W χ u g g') {l : List (Term F)} {l' : List (Term G)}
    (hl : PW W χ v l l') : Near E (· = ·) (reduceTerms O g l) (reduceTerms O g' l') := by
  induction hl with
  | nil => exact Near.ok rfl
  | cons h _ ih =>
    unfold reduceTerms
    refine (unwrapLeadingTerm_w O hg).bind fun s t hst => ?_
    rw [Term.divides_w hw hst h]
    split
    · exact Near.ok rfl
    · exact ih

omit hχ in
theorem reduceFor_w {gens : List (Poly F)} {gens' : List (Poly G)} (hg : LW W χ gens gens')
    (l : List (ℕ × ℕ)) : Near E (· = ·) (reduceFor O gens l) (reduceFor O gens' l) := by
  induction l with
  | nil => exact Near.ok rfl
  | cons x rest ih =>
    obtain ⟨i, j⟩ := x
    unfold reduceFor
    refine (index_rel hg i).near.bind fun a b ⟨u, hab⟩ => (index_rel hg j).near.bind fun c d ⟨v, hcd⟩ => ?_
    refine (reduceTerms_w hw O hcd hab).bind fun x y hxy => ?_
    subst hxy
    split
    · exact Near.ok rfl
    · exact ih

theorem buchbergerReduce_w {gens : List (Poly F)} {gens' : List (Poly G)} (hg : LW W χ gens gens') :
    Near E (LW W χ) (buchbergerReduce O gens) (buchbergerReduce O gens') := by
  refine Near.loop (fun gens gens' hg => ?_) hg
  unfold reduceStep
  rw [hg.length_eq]
  refine (reduceFor_w hw O hg _).bind fun x y hxy => ?_
  subst hxy
  rcases x with _ | i
  · exact Near.ok hg
  · refine (index_rel hg i).near.bind fun a b ⟨u, hab⟩ => ?_
    refine (divide_w hw hχ O hab (forall₂_eraseIdx hg i)).bind ?_
    rintro ⟨r, qs⟩ ⟨r', qs'⟩ ⟨hr, -⟩
    exact Near.ok (List.rel_append (forall₂_eraseIdx hg i) (.cons ⟨u, hr⟩ .nil))

theorem buchbergerAlgorithm_w {gens : List (Poly F)} {gens' : List (Poly G)} (hg : LW W χ gens gens') :
    Near E (LW W χ) (buchbergerAlgorithm O gens) (buchbergerAlgorithm O gens') :=
  (buchbergerExtend_w hw hχ O hg).bind fun _ _ h => (buchbergerMinimize_w hw O h).bind
    fun _ _ h => buchbergerReduce_w hw hχ O h

end

end Verif
