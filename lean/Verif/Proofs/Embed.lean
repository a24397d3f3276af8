import Verif.Poly.Comp
import Verif.LinAlg.Cone
import Verif.Props.Endless

/-!
# Embeddings of coefficients and monomials commute with every routine

`φ` maps coefficients and `ψ` multidegrees; if they commute with the operations of the coefficient types and
of multidegrees, then they commute with everything built from these.  Nothing is assumed of the coefficient
types.
-/

namespace Verif
open Res LinAlg Computer

/-! ### Maps and sequencing -/

namespace Res
variable {α β γ δ : Type}

theorem map_mapM {f : α → Res β} {f' : γ → Res δ} {g : α → γ} {h : β → δ} {l : List α}
    (H : ∀ a ∈ l, f' (g a) = h <$> f a) : (l.map g).mapM f' = List.map h <$> l.mapM f := by
  induction l with
  | nil => rfl
  | cons a l ih =>
    rw [List.map_cons, List.mapM_cons, List.mapM_cons, H a (by simp), ih fun a ha => H a (by simp [ha])]
    cases f a with
    | ok b => cases l.mapM f <;> rfl
    | panic p => rfl
    | diverge => rfl

/-- The case in which the list is not mapped. -/
theorem map_mapM' {f : α → Res β} {f' : α → Res δ} {h : β → δ} {l : List α}
    (H : ∀ a ∈ l, f' a = h <$> f a) : l.mapM f' = List.map h <$> l.mapM f := by
  have := map_mapM (g := id) H
  rwa [List.map_id] at this

theorem map_foldlM {f : β → α → Res β} {f' : δ → γ → Res δ} {g : α → γ} {h : β → δ} {l : List α}
    (H : ∀ b, ∀ a ∈ l, f' (h b) (g a) = h <$> f b a) (b : β) :
    (l.map g).foldlM f' (h b) = h <$> l.foldlM f b := by
  induction l generalizing b with
  | nil => rfl
  | cons a l ih =>
    rw [List.map_cons, List.foldlM_cons, List.foldlM_cons, H b a (by simp)]
    cases f b a with
    | ok b' => exact ih (fun b a ha => H b a (by simp [ha])) b'
    | panic p => rfl
    | diverge => rfl

theorem map_foldlM' {f : β → α → Res β} {f' : δ → α → Res δ} {h : β → δ} {l : List α}
    (H : ∀ b, ∀ a ∈ l, f' (h b) a = h <$> f b a) (b : β) :
    l.foldlM f' (h b) = h <$> l.foldlM f b := by
  have := map_foldlM (g := id) H b
  rwa [List.map_id] at this

theorem map_reduceM {f : α → α → Res α} {f' : β → β → Res β} {h : α → β} {d : α} {l : List (Res α)}
    (H : ∀ a b, f' (h a) (h b) = h <$> f a b) :
    reduceM f' (h d) (l.map (h <$> ·)) = h <$> reduceM f d l := by
  cases l with
  | nil => rfl
  | cons x l =>
    change (h <$> x >>= fun a => _) = h <$> (x >>= fun a => _)
    cases x with
    | ok a =>
      refine map_foldlM (fun b y _ => ?_) a
      cases y with
      | ok c => exact H b c
      | panic p => rfl
      | diverge => rfl
    | panic p => rfl
    | diverge => rfl

theorem map_loop {S R S' R' : Type} {step : S → Res (S ⊕ R)} {step' : S' → Res (S' ⊕ R')} {g : S → S'}
    {h : R → R'} (H : ∀ s, step' (g s) = Sum.map g h <$> step s) (s : S) :
    Res.loop step' (g s) = h <$> Res.loop step s := by
  have hit : ∀ n s, iter step' n (g s) = h <$> iter step n s := by
    intro n
    induction n with
    | zero => intro s; rfl
    | succ n ih =>
      intro s
      change (step' (g s) >>= fun x => _) = h <$> (step s >>= fun x => _)
      rw [H]
      cases step s with
      | ok x =>
        cases x with
        | inl s' => exact ih s'
        | inr r => rfl
      | panic p => rfl
      | diverge => rfl
  by_cases hd : Res.loop step s = .diverge
  · rw [hd]
    by_contra hd'
    obtain ⟨n, hn⟩ := iter_of_loop_ne_diverge hd'
    rw [hit] at hn
    have : iter step n s ≠ .diverge := fun h0 => hd' (by rw [← hn, h0, map_diverge])
    exact this ((loop_eq_of_iter rfl this).symm.trans hd)
  · obtain ⟨n, hn⟩ := iter_of_loop_ne_diverge hd
    rw [← hn, ← hit]
    refine loop_eq_of_iter rfl ?_
    rw [hit, hn]
    intro h0
    cases hl : Res.loop step s with
    | ok r => rw [hl] at h0; cases h0
    | panic p => rw [hl] at h0; cases h0
    | diverge => exact hd hl

end Res

/-! ### Embeddings -/

variable {F G : Type} [RField F] [RField G]

/-- `φ` commutes with the operations on coefficients. -/
structure CoefEmb (φ : F → G) : Prop where
  build : RField.build G = RField.build F
  zero : φ RField.zero = RField.zero
  one : φ RField.one = RField.one
  beq : ∀ a b, RField.beq (φ a) (φ b) = RField.beq a b
  add : ∀ a b, RField.add (φ a) (φ b) = φ <$> RField.add a b
  sub : ∀ a b, RField.sub (φ a) (φ b) = φ <$> RField.sub a b
  neg : ∀ a, RField.neg (φ a) = φ <$> RField.neg a
  mul : ∀ a b, RField.mul (φ a) (φ b) = φ <$> RField.mul a b
  div : ∀ a b, RField.div (φ a) (φ b) = φ <$> RField.div a b
  inv : ∀ a, RField.inv (φ a) = φ <$> RField.inv a

/-- `ψ` commutes with the operations on multidegrees. -/
structure MDegEmb (b : Build) (ψ : MDeg → MDeg) : Prop where
  zero : ψ MDeg.zero = MDeg.zero
  inj : ∀ m n, ψ m = ψ n ↔ m = n
  add : ∀ m n, MDeg.add b (ψ m) (ψ n) = ψ <$> MDeg.add b m n
  sub : ∀ m n, MDeg.checkedSub (ψ m) (ψ n) = (MDeg.checkedSub m n).map ψ
  succ : ∀ m n, MDeg.isSucc (ψ m) (ψ n) = MDeg.isSucc m n
  lcm : ∀ m n, lcmMDeg (ψ m) (ψ n) = ψ (lcmMDeg m n)

/-- The comparison `O'` of images is the comparison `O`. -/
def OrdEmb (O O' : MOrder) (ψ : MDeg → MDeg) : Prop := ∀ m n, O'.cmp (ψ m) (ψ n) = O.cmp m n

/-- A term with coefficient and multidegree mapped. -/
def Term.emb (φ : F → G) (ψ : MDeg → MDeg) (t : Term F) : Term G := ⟨φ t.coef, ψ t.mdeg⟩

/-- A polynomial with all terms mapped. -/
def Poly.emb (φ : F → G) (ψ : MDeg → MDeg) (p : Poly F) : Poly G := p.map (Term.emb φ ψ)

/-- A matrix with all entries mapped. -/
def Mat.emb (φ : F → G) (M : Mat F) : Mat G := ⟨M.entries.map φ, M.rows, M.cols⟩

section Poly
variable {φ : F → G} {ψ : MDeg → MDeg} (h : CoefEmb φ)
include h

theorem Term.isZero_emb (t : Term F) : (t.emb φ ψ).isZero = t.isZero := by
  unfold Term.isZero Term.emb
  rw [← h.zero, h.beq]

theorem Poly.ofTerm_emb (t : Term F) : Poly.ofTerm (t.emb φ ψ) = (Poly.ofTerm t).emb φ ψ := by
  unfold Poly.ofTerm
  rw [Term.isZero_emb h]
  split <;> rfl

variable (hm : MDegEmb (RField.build F) ψ)
include hm

theorem Poly.addNonzeroTerm_emb (p : Poly F) (t : Term F) :
    Poly.addNonzeroTerm (p.emb φ ψ) (t.emb φ ψ) = Poly.emb φ ψ <$> Poly.addNonzeroTerm p t := by
  induction p with
  | nil => rfl
  | cons s ts ih =>
    change Poly.addNonzeroTerm (s.emb φ ψ :: Poly.emb φ ψ ts) _ = _
    rw [Poly.addNonzeroTerm, Poly.addNonzeroTerm]
    have e : ((s.emb φ ψ).mdeg = (t.emb φ ψ).mdeg) ↔ (s.mdeg = t.mdeg) := hm.inj _ _
    by_cases hd : s.mdeg = t.mdeg
    · rw [if_pos hd, if_pos (e.mpr hd)]
      change (RField.add (φ s.coef) (φ t.coef) >>= _) = _
      rw [h.add]
      cases RField.add s.coef t.coef with
      | ok a =>
        change (if (Term.emb φ ψ ⟨a, s.mdeg⟩).isZero = true then _ else _) = Poly.emb φ ψ <$>
          (if (Term.isZero ⟨a, s.mdeg⟩) = true then _ else _)
        rw [Term.isZero_emb h]
        split <;> rfl
      | panic p => rfl
      | diverge => rfl
    · rw [if_neg hd, if_neg (mt e.mp hd), ih]
      cases Poly.addNonzeroTerm ts t <;> rfl

theorem Poly.addTerm_emb (p : Poly F) (t : Term F) :
    Poly.addTerm (p.emb φ ψ) (t.emb φ ψ) = Poly.emb φ ψ <$> Poly.addTerm p t := by
  unfold Poly.addTerm
  rw [Term.isZero_emb h, Poly.ofTerm_emb h, Poly.addNonzeroTerm_emb h hm]
  cases p with
  | nil => rfl
  | cons s ts =>
    change (if false = true then _ else _) = Poly.emb φ ψ <$> (if false = true then _ else _)
    split
    · rename_i hh; cases hh
    · split <;> rfl

theorem Poly.add_emb (p q : Poly F) :
    Poly.add (p.emb φ ψ) (q.emb φ ψ) = Poly.emb φ ψ <$> Poly.add p q :=
  map_foldlM (fun b a _ => Poly.addTerm_emb h hm b a) p

omit hm in
theorem Term.neg_emb (t : Term F) : (t.emb φ ψ).neg = Term.emb φ ψ <$> t.neg := by
  change (RField.neg (φ t.coef) >>= _) = Term.emb φ ψ <$> (RField.neg t.coef >>= _)
  rw [h.neg]
  cases RField.neg t.coef <;> rfl

omit hm in
theorem Poly.neg_emb (p : Poly F) : Poly.neg (p.emb φ ψ) = Poly.emb φ ψ <$> Poly.neg p :=
  map_mapM fun t _ => Term.neg_emb h t

theorem Poly.sub_emb (p q : Poly F) :
    Poly.sub (p.emb φ ψ) (q.emb φ ψ) = Poly.emb φ ψ <$> Poly.sub p q := by
  change (Poly.neg (q.emb φ ψ) >>= _) = Poly.emb φ ψ <$> (Poly.neg q >>= _)
  rw [Poly.neg_emb h]
  cases Poly.neg q with
  | ok r => exact Poly.add_emb h hm p r
  | panic p => rfl
  | diverge => rfl

theorem Term.zero_emb : (Term.zero : Term F).emb φ ψ = Term.zero := by
  change Term.mk (φ RField.zero) (ψ MDeg.zero) = Term.mk RField.zero MDeg.zero
  rw [h.zero, hm.zero]

theorem Term.mul_emb (s t : Term F) : (s.emb φ ψ).mul (t.emb φ ψ) = Term.emb φ ψ <$> s.mul t := by
  unfold Term.mul
  rw [Term.isZero_emb h, Term.isZero_emb h]
  split
  · change _ = Res.ok (Term.emb φ ψ Term.zero)
    rw [Term.zero_emb h hm]; rfl
  · change (RField.mul (φ s.coef) (φ t.coef) >>= fun c => MDeg.add (RField.build G) (ψ s.mdeg) (ψ t.mdeg)
      >>= _) = _
    rw [h.mul, h.build, hm.add]
    cases RField.mul s.coef t.coef with
    | ok c => cases MDeg.add (RField.build F) s.mdeg t.mdeg <;> rfl
    | panic p => rfl
    | diverge => rfl

theorem Poly.mulTerm_emb (p : Poly F) (t : Term F) :
    Poly.mulTerm (p.emb φ ψ) (t.emb φ ψ) = Poly.emb φ ψ <$> Poly.mulTerm p t := by
  unfold Poly.mulTerm
  rw [Term.isZero_emb h]
  have : Poly.isZero (p.emb φ ψ) = Poly.isZero p := by cases p <;> rfl
  rw [this]
  split
  · rfl
  · exact map_mapM fun s _ => Term.mul_emb h hm s t

theorem Poly.mul_emb (p q : Poly F) :
    Poly.mul (p.emb φ ψ) (q.emb φ ψ) = Poly.emb φ ψ <$> Poly.mul p q := by
  unfold Poly.mul
  rw [← map_reduceM (f' := Poly.add) fun a b => Poly.add_emb h hm a b, List.map_map]
  congr 1
  unfold Poly.emb
  rw [List.map_map]
  exact List.map_congr_left fun t _ => Poly.mulTerm_emb h hm q t

theorem Poly.divCoef_emb (p : Poly F) (a : F) :
    Poly.divCoef (p.emb φ ψ) (φ a) = Poly.emb φ ψ <$> Poly.divCoef p a := by
  change (RField.inv (φ a) >>= _) = Poly.emb φ ψ <$> (RField.inv a >>= _)
  rw [h.inv]
  cases RField.inv a with
  | ok c =>
    change Poly.mulTerm (p.emb φ ψ) ⟨φ c, MDeg.zero⟩ = Poly.emb φ ψ <$> Poly.mulTerm p ⟨c, MDeg.zero⟩
    rw [← Poly.mulTerm_emb h hm]
    unfold Term.emb
    rw [hm.zero]
  | panic p => rfl
  | diverge => rfl

theorem Term.tryDiv_emb (s t : Term F) :
    (s.emb φ ψ).tryDiv (t.emb φ ψ) = Option.map (Term.emb φ ψ) <$> s.tryDiv t := by
  unfold Term.tryDiv
  rw [Term.isZero_emb h, Term.isZero_emb h]
  split
  · change _ = Res.ok (some (Term.emb φ ψ Term.zero))
    rw [Term.zero_emb h hm]; rfl
  · split
    · rfl
    · change (RField.div (φ s.coef) (φ t.coef) >>= fun c =>
        match MDeg.checkedSub (ψ s.mdeg) (ψ t.mdeg) with | none => _ | some m => _) = _
      rw [h.div, hm.sub]
      cases RField.div s.coef t.coef with
      | ok c => cases MDeg.checkedSub s.mdeg t.mdeg <;> rfl
      | panic p => rfl
      | diverge => rfl

theorem monicLcm_emb (s t : Term F) :
    monicLcm (s.emb φ ψ) (t.emb φ ψ) = (monicLcm s t).emb φ ψ := by
  unfold monicLcm
  rw [Term.isZero_emb h, Term.isZero_emb h]
  split
  · exact (Term.zero_emb h hm).symm
  · change Term.mk RField.one (lcmMDeg (ψ s.mdeg) (ψ t.mdeg)) = Term.mk (φ RField.one) (ψ (lcmMDeg s.mdeg t.mdeg))
    rw [hm.lcm, h.one]

theorem Term.divides_emb (s t : Term F) : (s.emb φ ψ).divides (t.emb φ ψ) = s.divides t := by
  unfold Term.divides
  rw [Term.isZero_emb h]
  change (_ && MDeg.isSucc (ψ s.mdeg) (ψ t.mdeg)) = _
  rw [hm.succ]

end Poly

/-! ### Leading terms and sorting -/

omit [RField F] [RField G] in
theorem maxBy_map {α β : Type} {g : α → β} {cmp : α → α → Res Ordering} {cmp' : β → β → Res Ordering}
    (H : ∀ a b, cmp' (g a) (g b) = cmp a b) (l : List α) :
    maxBy cmp' (l.map g) = Option.map g <$> maxBy cmp l := by
  cases l with
  | nil => rfl
  | cons x xs =>
    rw [List.map_cons]
    dsimp only [maxBy]
    rw [map_foldlM (f := fun best y => do
        match ← cmp best y with
        | .gt => pure best
        | _ => pure y) (h := g)]
    · rw [← comp_map, ← comp_map]; rfl
    · intro b a _
      rw [H]
      cases cmp b a with
      | ok o => cases o <;> rfl
      | panic p => rfl
      | diverge => rfl

omit [RField F] [RField G] in
theorem insertBy_map {α β : Type} {g : α → β} {cmp : α → α → Res Ordering} {cmp' : β → β → Res Ordering}
    (H : ∀ a b, cmp' (g a) (g b) = cmp a b) (x : α) (l : List α) :
    insertBy cmp' (g x) (l.map g) = List.map g <$> insertBy cmp x l := by
  induction l with
  | nil => rfl
  | cons y ys ih =>
    rw [List.map_cons, insertBy, insertBy, H, ih]
    cases cmp x y with
    | ok o => cases o <;> first | rfl | (cases insertBy cmp x ys <;> rfl)
    | panic p => rfl
    | diverge => rfl

omit [RField F] [RField G] in
theorem sortBy_map {α β : Type} {g : α → β} {cmp : α → α → Res Ordering} {cmp' : β → β → Res Ordering}
    (H : ∀ a b, cmp' (g a) (g b) = cmp a b) (l : List α) :
    sortBy cmp' (l.map g) = List.map g <$> sortBy cmp l :=
  map_foldlM (h := List.map g) (fun b a _ => insertBy_map H a b) []

section Orders
variable {φ : F → G} {ψ : MDeg → MDeg} {O O' : MOrder} (ho : OrdEmb O O' ψ)
include ho

omit [RField F] [RField G] in
theorem leadingTerm_emb (f : Poly F) :
    leadingTerm O' (f.emb φ ψ) = Option.map (Term.emb φ ψ) <$> leadingTerm O f :=
  maxBy_map (fun s t => ho s.mdeg t.mdeg) f

omit [RField F] [RField G] in
theorem sortTerms_emb (f : Poly F) : sortTerms O' (f.emb φ ψ) = Poly.emb φ ψ <$> sortTerms O f :=
  sortBy_map (fun s t => ho s.mdeg t.mdeg) f

omit [RField F] [RField G] in
theorem leadingCoef_emb (f : Poly F) :
    leadingCoef O' (f.emb φ ψ) = Option.map φ <$> leadingCoef O f := by
  unfold leadingCoef
  rw [leadingTerm_emb ho]
  cases leadingTerm O f with
  | ok o => cases o <;> rfl
  | panic p => rfl
  | diverge => rfl

omit [RField F] [RField G] in
theorem unwrapLeadingTerm_emb (f : Poly F) :
    unwrapLeadingTerm O' (f.emb φ ψ) = Term.emb φ ψ <$> unwrapLeadingTerm O f := by
  unfold unwrapLeadingTerm
  rw [leadingTerm_emb ho]
  cases leadingTerm O f with
  | ok o => cases o <;> rfl
  | panic p => rfl
  | diverge => rfl

variable (h : CoefEmb φ) (hm : MDegEmb (RField.build F) ψ)
include h hm

theorem divideFor_emb (ltF : Term F) (f : Poly F) (l : List (Poly F × Poly F)) :
    divideFor O' (ltF.emb φ ψ) (f.emb φ ψ) (l.map (Prod.map (Poly.emb φ ψ) (Poly.emb φ ψ))) =
      Option.map (Prod.map (List.map (Poly.emb φ ψ)) (Poly.emb φ ψ)) <$> divideFor O ltF f l := by
  induction l with
  | nil => rfl
  | cons x rest ih =>
    obtain ⟨g, q⟩ := x
    have next : ((divideFor O' (ltF.emb φ ψ) (f.emb φ ψ)
          (rest.map (Prod.map (Poly.emb φ ψ) (Poly.emb φ ψ))) >>= fun o => match o with
          | none => pure none
          | some (qs, f') => pure (some (q.emb φ ψ :: qs, f'))) :
        Res (Option (List (Poly G) × Poly G))) =
        Option.map (Prod.map (List.map (Poly.emb φ ψ)) (Poly.emb φ ψ)) <$>
        (divideFor O ltF f rest >>= fun o => match o with
          | none => pure none
          | some (qs, f') => pure (some (q :: qs, f'))) := by
      rw [ih]
      cases divideFor O ltF f rest with
      | ok o => rcases o with _ | ⟨qs, f'⟩ <;> rfl
      | panic p => rfl
      | diverge => rfl
    change divideFor O' (ltF.emb φ ψ) (f.emb φ ψ) ((g.emb φ ψ, q.emb φ ψ) ::
      rest.map (Prod.map (Poly.emb φ ψ) (Poly.emb φ ψ))) = _
    unfold divideFor
    rw [leadingTerm_emb ho]
    cases leadingTerm O g with
    | panic p => rfl
    | diverge => rfl
    | ok o =>
      rcases o with _ | ltG
      · exact next
      · change ((ltF.emb φ ψ).tryDiv (ltG.emb φ ψ) >>= _) = _ <$> (ltF.tryDiv ltG >>= _)
        rw [Term.tryDiv_emb h hm]
        cases ltF.tryDiv ltG with
        | panic p => rfl
        | diverge => rfl
        | ok o =>
          rcases o with _ | a
          · exact next
          · change (Poly.addTerm (q.emb φ ψ) (a.emb φ ψ) >>= fun q' =>
              Poly.mulTerm (g.emb φ ψ) (a.emb φ ψ) >>= fun ag => Poly.sub (f.emb φ ψ) ag >>= _) =
              _ <$> (Poly.addTerm q a >>= fun q' => Poly.mulTerm g a >>= fun ag => Poly.sub f ag >>= _)
            rw [Poly.addTerm_emb h hm, Poly.mulTerm_emb h hm]
            cases Poly.addTerm q a with
            | panic p => rfl
            | diverge => rfl
            | ok q' =>
              cases Poly.mulTerm g a with
              | panic p => rfl
              | diverge => rfl
              | ok ag =>
                change (Poly.sub (f.emb φ ψ) (ag.emb φ ψ) >>= _) = _ <$> (Poly.sub f ag >>= _)
                rw [Poly.sub_emb h hm]
                cases Poly.sub f ag with
                | panic p => rfl
                | diverge => rfl
                | ok f' =>
                  have e : ((rest.map (Prod.map (Poly.emb φ ψ) (Poly.emb φ ψ))).map (·.2) :
                      List (Poly G)) = (rest.map (·.2)).map (Poly.emb φ ψ) := by
                    rw [List.map_map, List.map_map]; rfl
                  change Res.ok (some (q'.emb φ ψ :: List.map (fun x : Poly G × Poly G => x.2) _, f'.emb φ ψ)) = _
                  rw [e]
                  rfl

/-- The state of `divide` with all polynomials mapped. -/
def DivState.emb (φ : F → G) (ψ : MDeg → MDeg) (s : DivState F) : DivState G :=
  ⟨s.f.emb φ ψ, s.quotients.map (Poly.emb φ ψ), s.remainder.emb φ ψ⟩

theorem divideStep_emb (divs : List (Poly F)) (s : DivState F) :
    divideStep O' (divs.map (Poly.emb φ ψ)) (DivState.emb φ ψ s) =
      Sum.map (DivState.emb φ ψ) (Prod.map (Poly.emb φ ψ) (List.map (Poly.emb φ ψ))) <$>
        divideStep O divs s := by
  unfold divideStep
  change (leadingTerm O' (s.f.emb φ ψ) >>= _) = _
  rw [leadingTerm_emb ho]
  cases leadingTerm O s.f with
  | panic p => rfl
  | diverge => rfl
  | ok o =>
    rcases o with _ | ltF
    · rfl
    · have e : (divs.map (Poly.emb φ ψ)).zip (s.quotients.map (Poly.emb φ ψ)) =
          (divs.zip s.quotients).map (Prod.map (Poly.emb φ ψ) (Poly.emb φ ψ)) := List.zip_map ..
      change (divideFor O' (ltF.emb φ ψ) (s.f.emb φ ψ)
        ((divs.map (Poly.emb φ ψ)).zip (s.quotients.map (Poly.emb φ ψ))) >>= _) = _ <$>
        (divideFor O ltF s.f (divs.zip s.quotients) >>= _)
      rw [e, divideFor_emb ho h hm]
      cases divideFor O ltF s.f (divs.zip s.quotients) with
      | panic p => rfl
      | diverge => rfl
      | ok o =>
        rcases o with _ | ⟨qs, f'⟩
        · change (sortTerms O' (s.f.emb φ ψ) >>= _) = _ <$> (sortTerms O s.f >>= _)
          rw [sortTerms_emb ho]
          cases sortTerms O s.f with
          | panic p => rfl
          | diverge => rfl
          | ok sorted =>
            change (match (List.map (Term.emb φ ψ) sorted).getLast? with | none => _ | some lt => _) = _ <$>
              (match sorted.getLast? with | none => _ | some lt => _)
            rw [List.getLast?_map]
            cases sorted.getLast? with
            | none => rfl
            | some lt =>
              change (Poly.addTerm (s.remainder.emb φ ψ) (lt.emb φ ψ) >>= _) = _ <$>
                (Poly.addTerm s.remainder lt >>= _)
              rw [Poly.addTerm_emb h hm]
              cases Poly.addTerm s.remainder lt with
              | panic p => rfl
              | diverge => rfl
              | ok r =>
                change Res.ok (Sum.inl (DivState.mk (List.dropLast (List.map (Term.emb φ ψ) sorted)) _ _)) = _
                rw [← List.map_dropLast]
                rfl
        · rfl

theorem divide_emb (f : Poly F) (divs : List (Poly F)) :
    divide O' (f.emb φ ψ) (divs.map (Poly.emb φ ψ)) =
      Prod.map (Poly.emb φ ψ) (List.map (Poly.emb φ ψ)) <$> divide O f divs := by
  unfold divide
  rw [← map_loop (divideStep_emb ho h hm divs)]
  congr 1
  simp only [DivState.emb, List.length_map, List.map_replicate]
  rfl

theorem tryReduce_emb (f g : Poly F) :
    tryReduce O' (f.emb φ ψ) (g.emb φ ψ) = Option.map (Poly.emb φ ψ) <$> tryReduce O f g := by
  unfold tryReduce
  rw [leadingTerm_emb ho, leadingTerm_emb ho]
  cases leadingTerm O f with
  | panic p => rfl
  | diverge => rfl
  | ok o =>
    rcases o with _ | ltF
    · rfl
    · cases leadingTerm O g with
      | panic p => rfl
      | diverge => rfl
      | ok o' =>
        rcases o' with _ | ltG
        · rfl
        · change ((monicLcm (ltF.emb φ ψ) (ltG.emb φ ψ)).tryDiv (ltF.emb φ ψ) >>= fun o => match o with
            | none => _
            | some a => Poly.mulTerm (f.emb φ ψ) a >>= fun af =>
              (monicLcm (ltF.emb φ ψ) (ltG.emb φ ψ)).tryDiv (ltG.emb φ ψ) >>= fun o' => _) = _ <$>
            ((monicLcm ltF ltG).tryDiv ltF >>= _)
          rw [monicLcm_emb h hm, Term.tryDiv_emb h hm, Term.tryDiv_emb h hm]
          cases (monicLcm ltF ltG).tryDiv ltF with
          | panic p => rfl
          | diverge => rfl
          | ok oa =>
            rcases oa with _ | a
            · rfl
            · change (Poly.mulTerm (f.emb φ ψ) (a.emb φ ψ) >>= _) = _ <$> (Poly.mulTerm f a >>= _)
              rw [Poly.mulTerm_emb h hm]
              cases Poly.mulTerm f a with
              | panic p => rfl
              | diverge => rfl
              | ok af =>
                change (_ <$> (monicLcm ltF ltG).tryDiv ltG >>= _) = _ <$>
                  ((monicLcm ltF ltG).tryDiv ltG >>= _)
                cases (monicLcm ltF ltG).tryDiv ltG with
                | panic p => rfl
                | diverge => rfl
                | ok ob =>
                  rcases ob with _ | b
                  · rfl
                  · change (Poly.mulTerm (g.emb φ ψ) (b.emb φ ψ) >>= _) = _ <$> (Poly.mulTerm g b >>= _)
                    rw [Poly.mulTerm_emb h hm]
                    cases Poly.mulTerm g b with
                    | panic p => rfl
                    | diverge => rfl
                    | ok bg =>
                      change (Poly.sub (af.emb φ ψ) (bg.emb φ ψ) >>= _) = _ <$> (Poly.sub af bg >>= _)
                      rw [Poly.sub_emb h hm]
                      cases Poly.sub af bg <;> rfl

omit ho h hm [RField F] [RField G] in
theorem index_map {α β : Type} (g : α → β) (l : List α) (i : ℕ) :
    index (l.map g) i = g <$> index l i := by
  unfold index
  rw [List.getElem?_map]
  cases l[i]? <;> rfl

theorem criterionFor_emb (gens : List (Poly F)) (l : List (ℕ × ℕ)) :
    criterionFor O' (gens.map (Poly.emb φ ψ)) l = criterionFor O gens l := by
  induction l with
  | nil => rfl
  | cons x rest ih =>
    obtain ⟨i, j⟩ := x
    unfold criterionFor
    rw [index_map, index_map, ih]
    cases index gens i with
    | panic p => rfl
    | diverge => rfl
    | ok gi =>
      cases index gens j with
      | panic p => rfl
      | diverge => rfl
      | ok gj =>
        change (tryReduce O' (gi.emb φ ψ) (gj.emb φ ψ) >>= _) = (tryReduce O gi gj >>= _)
        rw [tryReduce_emb ho h hm]
        cases tryReduce O gi gj with
        | panic p => rfl
        | diverge => rfl
        | ok o =>
          rcases o with _ | s
          · rfl
          · change (divide O' (s.emb φ ψ) (gens.map (Poly.emb φ ψ)) >>= _) = (divide O s gens >>= _)
            rw [divide_emb ho h hm]
            cases divide O s gens with
            | panic p => rfl
            | diverge => rfl
            | ok x =>
              obtain ⟨r, qs⟩ := x
              have : Poly.isZero (r.emb φ ψ) = Poly.isZero r := by cases r <;> rfl
              change (if (!Poly.isZero (r.emb φ ψ)) = true then _ else _) = _
              rw [this]
              rfl

theorem buchbergerCriterion_emb (gens : List (Poly F)) :
    buchbergerCriterion O' (gens.map (Poly.emb φ ψ)) = buchbergerCriterion O gens := by
  unfold buchbergerCriterion
  rw [List.length_map]
  exact criterionFor_emb ho h hm gens _

theorem extendFor_emb (gens : List (Poly F)) (i : ℕ) (l : List ℕ) :
    extendFor O' (gens.map (Poly.emb φ ψ)) i l = Option.map (Poly.emb φ ψ) <$> extendFor O gens i l := by
  induction l with
  | nil => rfl
  | cons j rest ih =>
    unfold extendFor
    rw [index_map, index_map, ih]
    cases index gens i with
    | panic p => rfl
    | diverge => rfl
    | ok gi =>
      cases index gens j with
      | panic p => rfl
      | diverge => rfl
      | ok gj =>
        change (tryReduce O' (gi.emb φ ψ) (gj.emb φ ψ) >>= _) = _ <$> (tryReduce O gi gj >>= _)
        rw [tryReduce_emb ho h hm]
        cases tryReduce O gi gj with
        | panic p => rfl
        | diverge => rfl
        | ok o =>
          rcases o with _ | s
          · rfl
          · change (divide O' (s.emb φ ψ) (gens.map (Poly.emb φ ψ)) >>= _) = _ <$> (divide O s gens >>= _)
            rw [divide_emb ho h hm]
            cases divide O s gens with
            | panic p => rfl
            | diverge => rfl
            | ok x =>
              obtain ⟨r, qs⟩ := x
              change (leadingCoef O' (r.emb φ ψ) >>= _) = _ <$> (leadingCoef O r >>= _)
              rw [leadingCoef_emb ho]
              cases leadingCoef O r with
              | panic p => rfl
              | diverge => rfl
              | ok o =>
                rcases o with _ | lc
                · rfl
                · change (Poly.divCoef (r.emb φ ψ) (φ lc) >>= _) = _ <$> (Poly.divCoef r lc >>= _)
                  rw [Poly.divCoef_emb h hm]
                  cases Poly.divCoef r lc <;> rfl

theorem buchbergerExtend_emb (gens : List (Poly F)) :
    buchbergerExtend O' (gens.map (Poly.emb φ ψ)) =
      List.map (Poly.emb φ ψ) <$> buchbergerExtend O gens := by
  refine map_loop (g := Prod.map (List.map (Poly.emb φ ψ)) id) (fun s => ?_) (gens, 0)
  obtain ⟨gens, i⟩ := s
  unfold extendStep
  change (if i < (gens.map (Poly.emb φ ψ)).length then
    extendFor O' (gens.map (Poly.emb φ ψ)) i (List.range i) >>= _ else _) = _
  rw [List.length_map, extendFor_emb ho h hm]
  split
  · cases extendFor O gens i (List.range i) with
    | panic p => rfl
    | diverge => rfl
    | ok o =>
      rcases o with _ | r
      · rfl
      · change Res.ok (Sum.inl (List.map (Poly.emb φ ψ) gens ++ [r.emb φ ψ], 0)) =
          Res.ok (Sum.inl (List.map (Poly.emb φ ψ) (gens ++ [r]), 0))
        rw [List.map_append]
        rfl
  · rfl

theorem minimizeFor_emb (gens : List (Poly F)) (l : List (ℕ × ℕ)) :
    minimizeFor O' (gens.map (Poly.emb φ ψ)) l = minimizeFor O gens l := by
  induction l with
  | nil => rfl
  | cons x rest ih =>
    obtain ⟨i, j⟩ := x
    unfold minimizeFor
    rw [index_map, index_map, ih]
    cases index gens j with
    | panic p => rfl
    | diverge => rfl
    | ok gj =>
      change (unwrapLeadingTerm O' (gj.emb φ ψ) >>= _) = (unwrapLeadingTerm O gj >>= _)
      rw [unwrapLeadingTerm_emb ho]
      cases unwrapLeadingTerm O gj with
      | panic p => rfl
      | diverge => rfl
      | ok ltJ =>
        cases index gens i with
        | panic p => rfl
        | diverge => rfl
        | ok gi =>
          change (unwrapLeadingTerm O' (gi.emb φ ψ) >>= _) = (unwrapLeadingTerm O gi >>= _)
          rw [unwrapLeadingTerm_emb ho]
          cases unwrapLeadingTerm O gi with
          | panic p => rfl
          | diverge => rfl
          | ok ltI =>
            change (if (ltJ.emb φ ψ).divides (ltI.emb φ ψ) = true then _ else _) = _
            rw [Term.divides_emb h hm]
            rfl

theorem buchbergerMinimize_emb (gens : List (Poly F)) :
    buchbergerMinimize O' (gens.map (Poly.emb φ ψ)) =
      List.map (Poly.emb φ ψ) <$> buchbergerMinimize O gens := by
  refine map_loop (fun s => ?_) gens
  unfold minimizeStep
  rw [List.length_map, minimizeFor_emb ho h hm]
  cases minimizeFor O s (pairsIter s.length) with
  | panic p => rfl
  | diverge => rfl
  | ok o =>
    rcases o with _ | i
    · rfl
    · change Res.ok (Sum.inl ((s.map (Poly.emb φ ψ)).eraseIdx i)) = _
      rw [List.eraseIdx_map]
      rfl

theorem reduceTerms_emb (gj : Poly F) (l : List (Term F)) :
    reduceTerms O' (gj.emb φ ψ) (l.map (Term.emb φ ψ)) = reduceTerms O gj l := by
  induction l with
  | nil => rfl
  | cons t ts ih =>
    rw [List.map_cons]
    unfold reduceTerms
    rw [unwrapLeadingTerm_emb ho, ih]
    cases unwrapLeadingTerm O gj with
    | panic p => rfl
    | diverge => rfl
    | ok lt =>
      change (if (lt.emb φ ψ).divides (t.emb φ ψ) = true then _ else _) = _
      rw [Term.divides_emb h hm]
      rfl

theorem reduceFor_emb (gens : List (Poly F)) (l : List (ℕ × ℕ)) :
    reduceFor O' (gens.map (Poly.emb φ ψ)) l = reduceFor O gens l := by
  induction l with
  | nil => rfl
  | cons x rest ih =>
    obtain ⟨i, j⟩ := x
    unfold reduceFor
    rw [index_map, index_map, ih]
    cases index gens i with
    | panic p => rfl
    | diverge => rfl
    | ok gi =>
      cases index gens j with
      | panic p => rfl
      | diverge => rfl
      | ok gj =>
        change (reduceTerms O' (gj.emb φ ψ) (gi.map (Term.emb φ ψ)) >>= _) = (reduceTerms O gj gi >>= _)
        rw [reduceTerms_emb ho h hm]

theorem buchbergerReduce_emb (gens : List (Poly F)) :
    buchbergerReduce O' (gens.map (Poly.emb φ ψ)) =
      List.map (Poly.emb φ ψ) <$> buchbergerReduce O gens := by
  refine map_loop (fun s => ?_) gens
  unfold reduceStep
  rw [List.length_map, reduceFor_emb ho h hm]
  cases reduceFor O s (pairsIter s.length) with
  | panic p => rfl
  | diverge => rfl
  | ok o =>
    rcases o with _ | i
    · rfl
    · change (index (s.map (Poly.emb φ ψ)) i >>= fun g =>
        divide O' g ((s.map (Poly.emb φ ψ)).eraseIdx i) >>= fun x =>
          Res.ok (Sum.inl ((s.map (Poly.emb φ ψ)).eraseIdx i ++ [x.1]))) = _ <$>
        (index s i >>= fun g => divide O g (s.eraseIdx i) >>= fun x =>
          Res.ok (Sum.inl (s.eraseIdx i ++ [x.1])))
      rw [index_map, List.eraseIdx_map]
      cases index s i with
      | panic p => rfl
      | diverge => rfl
      | ok g =>
        change (divide O' (g.emb φ ψ) ((s.eraseIdx i).map (Poly.emb φ ψ)) >>= _) = _ <$>
          (divide O g (s.eraseIdx i) >>= _)
        rw [divide_emb ho h hm]
        cases divide O g (s.eraseIdx i) with
        | panic p => rfl
        | diverge => rfl
        | ok x =>
          change Res.ok (Sum.inl (List.map (Poly.emb φ ψ) (s.eraseIdx i) ++ [x.1.emb φ ψ])) =
            Res.ok (Sum.inl (List.map (Poly.emb φ ψ) (s.eraseIdx i ++ [x.1])))
          rw [List.map_append]
          rfl

theorem buchbergerAlgorithm_emb (gens : List (Poly F)) :
    buchbergerAlgorithm O' (gens.map (Poly.emb φ ψ)) =
      List.map (Poly.emb φ ψ) <$> buchbergerAlgorithm O gens := by
  unfold buchbergerAlgorithm
  rw [buchbergerExtend_emb ho h hm]
  cases buchbergerExtend O gens with
  | panic p => rfl
  | diverge => rfl
  | ok g₁ =>
    change (buchbergerMinimize O' (g₁.map (Poly.emb φ ψ)) >>= _) = _ <$> (buchbergerMinimize O g₁ >>= _)
    rw [buchbergerMinimize_emb ho h hm]
    cases buchbergerMinimize O g₁ with
    | panic p => rfl
    | diverge => rfl
    | ok g₂ => exact buchbergerReduce_emb ho h hm g₂

end Orders

/-- Simulation of a bind. -/
theorem Res.map_bind_congr {α β γ δ : Type} {x : Res α} {y : Res β} {f : α → β} {g : β → Res δ} {k : α → Res γ}
    {h : γ → δ} (e : y = f <$> x) (H : ∀ a, g (f a) = h <$> k a) : (y >>= g) = h <$> (x >>= k) := by
  subst e
  cases x with
  | panic p => rfl
  | diverge => rfl
  | ok a => exact H a

/-! ### Matrices -/

section Mat
variable {φ : F → G} (h : CoefEmb φ)
include h

namespace Mat

theorem offset_emb (M : Mat F) (r c : ℕ) : (M.emb φ).offset r c = M.offset r c := by
  unfold offset
  rw [h.build]
  rfl

theorem get_emb (M : Mat F) (r c : ℕ) : (M.emb φ).get r c = φ <$> M.get r c := by
  unfold get
  rw [offset_emb h]
  cases M.offset r c with
  | panic p => rfl
  | diverge => rfl
  | ok i =>
    change (match (M.entries.map φ)[i]? with | some x => _ | none => _) = φ <$>
      (match M.entries[i]? with | some x => _ | none => _)
    rw [List.getElem?_map]
    cases M.entries[i]? <;> rfl

theorem set_emb (M : Mat F) (r c : ℕ) (x : F) : (M.emb φ).set r c (φ x) = Mat.emb φ <$> M.set r c x := by
  unfold set
  rw [offset_emb h]
  cases M.offset r c with
  | panic p => rfl
  | diverge => rfl
  | ok i =>
    change (if i < (M.entries.map φ).length then _ else _) = Mat.emb φ <$>
      (if i < M.entries.length then _ else _)
    rw [List.length_map]
    split
    · change Res.ok (Mat.mk ((M.entries.map φ).set i (φ x)) _ _) = _
      rw [← List.map_set]
      rfl
    · rfl

omit h [RField F] [RField G] in
theorem swapList_map {α β : Type} (g : α → β) (l : List α) (i j : ℕ) :
    swapList (l.map g) i j = List.map g <$> swapList l i j := by
  unfold swapList
  rw [List.getElem?_map, List.getElem?_map]
  cases l[i]? with
  | none => rfl
  | some x =>
    cases l[j]? with
    | none => rfl
    | some y =>
      change Res.ok (((l.map g).set i (g y)).set j (g x)) = Res.ok (((l.set i y).set j x).map g)
      rw [List.map_set, List.map_set]

theorem swap_emb (M : Mat F) (p q : ℕ × ℕ) : (M.emb φ).swap p q = Mat.emb φ <$> M.swap p q := by
  unfold swap
  rw [offset_emb h, offset_emb h]
  cases M.offset p.1 p.2 with
  | panic p => rfl
  | diverge => rfl
  | ok i =>
    cases M.offset q.1 q.2 with
    | panic p => rfl
    | diverge => rfl
    | ok j =>
      change (swapList (M.entries.map φ) i j >>= _) = _ <$> (swapList M.entries i j >>= _)
      rw [swapList_map]
      cases swapList M.entries i j <;> rfl

theorem identity_emb (n : ℕ) : (identity n : Mat F).emb φ = identity n := by
  unfold identity Mat.emb Mat.new
  dsimp only
  rw [List.map_map]
  congr 1
  refine List.map_congr_left fun x _ => ?_
  dsimp only [Function.comp]
  split
  · exact h.one
  · exact h.zero

theorem permutationFromVec_emb (l : List ℕ) :
    (permutationFromVec l : Mat F).emb φ = permutationFromVec l := by
  unfold permutationFromVec Mat.emb Mat.new
  dsimp only
  rw [List.map_map]
  congr 1
  refine List.map_congr_left fun x _ => ?_
  dsimp only [Function.comp]
  split
  · exact h.one
  · exact h.zero

theorem e_emb (k n : ℕ) : (e k n : Mat F).emb φ = e k n := by
  unfold e Mat.emb Mat.new
  dsimp only
  rw [List.map_map]
  congr 1
  refine List.map_congr_left fun x _ => ?_
  dsimp only [Function.comp]
  split
  · exact h.one
  · exact h.zero

theorem scaleRow_emb (M : Mat F) (i : ℕ) (s : F) :
    (M.emb φ).scaleRow i (φ s) = Mat.emb φ <$> M.scaleRow i s := by
  refine map_foldlM' (h := Mat.emb φ) (fun M c _ => ?_) M
  rw [get_emb h]
  cases M.get i c with
  | panic p => rfl
  | diverge => rfl
  | ok x =>
    change (RField.mul (φ s) (φ x) >>= _) = _ <$> (RField.mul s x >>= _)
    rw [h.mul]
    cases RField.mul s x with
    | panic p => rfl
    | diverge => rfl
    | ok y => exact set_emb h M i c y

theorem permuteRows_emb (M : Mat F) (s t : ℕ) :
    (M.emb φ).permuteRows s t = Mat.emb φ <$> M.permuteRows s t := by
  refine map_foldlM' (h := Mat.emb φ) (fun M c _ => ?_) M
  rw [get_emb h, get_emb h]
  cases M.get s c with
  | panic p => rfl
  | diverge => rfl
  | ok x =>
    cases M.get t c with
    | panic p => rfl
    | diverge => rfl
    | ok y =>
      change ((M.emb φ).set s c (φ y) >>= _) = _ <$> (M.set s c y >>= _)
      rw [set_emb h]
      cases M.set s c y with
      | panic p => rfl
      | diverge => rfl
      | ok M' => exact set_emb h M' t c x

theorem replaceRow_emb (M : Mat F) (s t : ℕ) (a : F) :
    (M.emb φ).replaceRow s t (φ a) = Mat.emb φ <$> M.replaceRow s t a := by
  refine map_foldlM' (h := Mat.emb φ) (fun M c _ => ?_) M
  rw [get_emb h, get_emb h]
  cases M.get t c with
  | panic p => rfl
  | diverge => rfl
  | ok x =>
    cases M.get s c with
    | panic p => rfl
    | diverge => rfl
    | ok y =>
      change (RField.mul (φ y) (φ a) >>= _) = _ <$> (RField.mul y a >>= _)
      rw [h.mul]
      cases RField.mul y a with
      | panic p => rfl
      | diverge => rfl
      | ok z =>
        change (RField.add (φ x) (φ z) >>= _) = _ <$> (RField.add x z >>= _)
        rw [h.add]
        cases RField.add x z with
        | panic p => rfl
        | diverge => rfl
        | ok w => exact set_emb h M t c w

theorem scale_emb (M : Mat F) (s : F) : (M.emb φ).scale (φ s) = Mat.emb φ <$> M.scale s := by
  unfold scale
  change ((M.entries.map φ).mapM (fun x => RField.mul x (φ s)) >>= _) = _
  rw [map_mapM (f := fun x => RField.mul x s) (h := φ) fun x _ => h.mul x s]
  cases M.entries.mapM fun x => RField.mul x s <;> rfl

theorem add_emb (M N : Mat F) : (M.emb φ).add (N.emb φ) = Mat.emb φ <$> M.add N := by
  unfold add
  change (if (!(M.rows == N.rows && M.cols == N.cols)) = true then _ else
    ((M.entries.map φ).zip (N.entries.map φ)).mapM (fun x => RField.add x.1 x.2) >>= _) = _
  split
  · rfl
  · rw [List.zip_map, map_mapM (f := fun x : F × F => RField.add x.1 x.2) (h := φ) fun x _ => h.add x.1 x.2]
    change (List.map φ <$> (M.entries.zip N.entries).mapM (fun x => RField.add x.1 x.2) >>= _) = _ <$>
      ((M.entries.zip N.entries).mapM (fun x => RField.add x.1 x.2) >>= _)
    cases (M.entries.zip N.entries).mapM fun x => RField.add x.1 x.2 <;> rfl

theorem dot_emb (M N : Mat F) : (M.emb φ).dot (N.emb φ) = φ <$> M.dot N := by
  unfold dot
  change ((M.entries.map φ).zip (N.entries.map φ)).foldlM (m := Res) _ _ = _
  rw [List.zip_map, ← h.zero]
  refine map_foldlM (h := φ) (fun a x _ => ?_) _
  change (RField.mul (φ x.1) (φ x.2) >>= _) = _ <$> (RField.mul x.1 x.2 >>= _)
  rw [h.mul]
  cases RField.mul x.1 x.2 with
  | panic p => rfl
  | diverge => rfl
  | ok z => exact h.add a z

theorem getRowIter_emb (M : Mat F) (r : ℕ) : (M.emb φ).getRowIter r = List.map φ <$> M.getRowIter r := by
  unfold getRowIter
  rw [h.build]
  change (Usize.mul (RField.build F) r M.cols >>= fun i => Usize.add (RField.build F) r 1 >>= fun r1 =>
    Usize.mul (RField.build F) r1 M.cols >>= fun j => if i ≤ j ∧ j ≤ (M.entries.map φ).length then
      Res.ok (((M.entries.map φ).drop i).take (j - i)) else _) = _
  cases Usize.mul (RField.build F) r M.cols with
  | panic p => rfl
  | diverge => rfl
  | ok i =>
    cases Usize.add (RField.build F) r 1 with
    | panic p => rfl
    | diverge => rfl
    | ok r1 =>
      simp only [bind_ok]
      cases Usize.mul (RField.build F) r1 M.cols with
      | panic p => rfl
      | diverge => rfl
      | ok j =>
        simp only [bind_ok, List.length_map, ← List.map_drop, ← List.map_take]
        split <;> rfl

theorem getColIter_emb (M : Mat F) (c : ℕ) : (M.emb φ).getColIter c = List.map φ <$> M.getColIter c :=
  map_mapM' fun r _ => get_emb h M r c

theorem mul_emb (M N : Mat F) : (M.emb φ).mul (N.emb φ) = Mat.emb φ <$> M.mul N := by
  unfold mul
  change (if M.cols ≠ N.rows then _ else _) = _
  split
  · rfl
  · have : ∀ x ∈ boxIter M.rows N.cols, ((M.emb φ).getRowIter x.1 >>= fun row =>
        (row.zip (List.range N.rows)).foldlM (fun accum y => (N.emb φ).get y.2 x.2 >>= fun b =>
          RField.mul y.1 b >>= fun z => RField.add accum z) RField.zero) =
        φ <$> (M.getRowIter x.1 >>= fun row =>
        (row.zip (List.range N.rows)).foldlM (fun accum y => N.get y.2 x.2 >>= fun b =>
          RField.mul y.1 b >>= fun z => RField.add accum z) RField.zero) := by
      intro x _
      rw [getRowIter_emb h]
      cases M.getRowIter x.1 with
      | panic p => rfl
      | diverge => rfl
      | ok row =>
        change ((row.map φ).zip (List.range N.rows)).foldlM (m := Res) _ _ =
          φ <$> (row.zip (List.range N.rows)).foldlM (m := Res) _ _
        rw [List.zip_map_left, ← h.zero]
        refine map_foldlM (h := φ) (fun a y _ => ?_) _
        rw [get_emb h]
        change (φ <$> N.get y.2 x.2 >>= _) = _ <$> (N.get y.2 x.2 >>= _)
        cases N.get y.2 x.2 with
        | panic p => rfl
        | diverge => rfl
        | ok b =>
          change (RField.mul (φ y.1) (φ b) >>= _) = _ <$> (RField.mul y.1 b >>= _)
          rw [h.mul]
          cases RField.mul y.1 b with
          | panic p => rfl
          | diverge => rfl
          | ok z => exact h.add a z
    change ((boxIter M.rows N.cols).mapM (fun x => (M.emb φ).getRowIter x.1 >>= fun row =>
        (row.zip (List.range N.rows)).foldlM (fun accum y => (N.emb φ).get y.2 x.2 >>= fun b =>
          RField.mul y.1 b >>= fun z => RField.add accum z) RField.zero) >>= _) = _ <$>
      ((boxIter M.rows N.cols).mapM (fun x => M.getRowIter x.1 >>= fun row =>
        (row.zip (List.range N.rows)).foldlM (fun accum y => N.get y.2 x.2 >>= fun b =>
          RField.mul y.1 b >>= fun z => RField.add accum z) RField.zero) >>= _)
    exact map_bind_congr (map_mapM' this) fun _ => rfl

omit h [RField F] [RField G] in
theorem nth_map {α β : Type} (g : α → β) (l : List α) (i : ℕ) :
    Mat.nth (l.map g) i = g <$> Mat.nth l i := by
  unfold Mat.nth
  rw [List.getElem?_map]
  cases l[i]? <;> rfl

theorem fromRowVectors_emb (vs : List (Mat F)) :
    fromRowVectors (vs.map (Mat.emb φ)) = Mat.emb φ <$> fromRowVectors vs := by
  unfold fromRowVectors
  rw [nth_map, List.length_map]
  cases nth vs 0 with
  | panic p => rfl
  | diverge => rfl
  | ok v0 =>
    change ((boxIter vs.length v0.rows).mapM (fun x => nth (vs.map (Mat.emb φ)) x.1 >>= fun v =>
      v.get x.2 0) >>= _) = _ <$> ((boxIter vs.length v0.rows).mapM (fun x => nth vs x.1 >>= fun v =>
      v.get x.2 0) >>= _)
    refine map_bind_congr (f := List.map φ) (map_mapM' fun x _ => ?_) fun _ => rfl
    rw [nth_map]
    cases nth vs x.1 with
    | panic p => rfl
    | diverge => rfl
    | ok v => exact get_emb h v x.2 0

theorem getRow_emb (M : Mat F) (r : ℕ) : (M.emb φ).getRow r = Mat.emb φ <$> M.getRow r := by
  unfold getRow
  rw [getRowIter_emb h]
  cases M.getRowIter r with
  | panic p => rfl
  | diverge => rfl
  | ok l =>
    change Res.ok (Mat.mk (l.map φ) (l.map φ).length 1) = _
    rw [List.length_map]
    rfl

theorem getCol_emb (M : Mat F) (c : ℕ) : (M.emb φ).getCol c = Mat.emb φ <$> M.getCol c := by
  unfold getCol
  rw [getColIter_emb h]
  cases M.getColIter c with
  | panic p => rfl
  | diverge => rfl
  | ok l =>
    change Res.ok (Mat.mk (l.map φ) (l.map φ).length 1) = _
    rw [List.length_map]
    rfl

end Mat

/-! ### Elimination -/

/-- The comparison with zero of images. -/
def EpsEmb (φ : F → G) [EpsilonEquality F] [EpsilonEquality G] : Prop :=
  ∀ a, EpsilonEquality.epsilonEquals (φ a) (RField.zero : G) = EpsilonEquality.epsilonEquals a RField.zero

variable [EpsilonEquality F] [EpsilonEquality G] (heps : EpsEmb φ)
include heps

omit h heps [RField F] [RField G] [EpsilonEquality F] [EpsilonEquality G] in
theorem Mat.position_map {α β : Type} {g : α → β} {p : α → Res Bool} {p' : β → Res Bool}
    (H : ∀ a, p' (g a) = p a) (l : List α) : Mat.position p' (l.map g) = Mat.position p l := by
  induction l with
  | nil => rfl
  | cons x xs ih =>
    rw [List.map_cons]
    unfold Mat.position
    rw [H, ih]

theorem Mat.firstNonzero_emb (M : Mat F) (r : ℕ) : (M.emb φ).firstNonzero r = M.firstNonzero r := by
  unfold Mat.firstNonzero
  rw [Mat.getRow_emb h]
  cases M.getRow r with
  | panic p => rfl
  | diverge => rfl
  | ok row =>
    refine Mat.position_map (fun a => ?_) row.entries
    rw [heps]

theorem Mat.zeroRows_emb (M : Mat F) : (M.emb φ).zeroRows = M.zeroRows := by
  unfold Mat.zeroRows
  simp only [Mat.firstNonzero_emb h heps]
  rfl

/-- A row equivalent form with all matrices mapped. -/
def Form.emb (φ : F → G) (f : Form F) : Form G := ⟨f.p.emb φ, f.b.emb φ, f.original.emb φ⟩

theorem Form.rank_emb (f : Form F) : (f.emb φ).rank = f.rank := by
  unfold Form.rank
  change ((f.b.emb φ).zeroRows >>= fun z => Usize.sub (RField.build G) f.b.rows z) = _
  rw [Mat.zeroRows_emb h heps, h.build]

omit heps [EpsilonEquality F] [EpsilonEquality G] in
theorem Form.replaceStep_emb (r c : ℕ) (f : Form F) (r2 : ℕ) :
    Form.replaceStep r c (f.emb φ) r2 = Form.emb φ <$> Form.replaceStep r c f r2 := by
  unfold Form.replaceStep
  change ((f.b.emb φ).get r2 c >>= fun x => RField.sub RField.zero x >>= fun s =>
    (f.p.emb φ).replaceRow r r2 s >>= fun p => RField.sub RField.zero x >>= fun s =>
    (f.b.emb φ).replaceRow r r2 s >>= fun b => Res.ok (Form.mk p b (f.original.emb φ))) = _
  rw [Mat.get_emb h, ← h.zero]
  cases f.b.get r2 c with
  | panic p => rfl
  | diverge => rfl
  | ok x =>
    change (RField.sub (φ RField.zero) (φ x) >>= fun s => (f.p.emb φ).replaceRow r r2 s >>= fun p =>
      RField.sub (φ RField.zero) (φ x) >>= fun s => (f.b.emb φ).replaceRow r r2 s >>= fun b =>
        Res.ok (Form.mk p b (f.original.emb φ))) = Form.emb φ <$> (RField.sub RField.zero x >>= fun s =>
      f.p.replaceRow r r2 s >>= fun p => RField.sub RField.zero x >>= fun s =>
      f.b.replaceRow r r2 s >>= fun b => Res.ok (Form.mk p b f.original))
    rw [h.sub]
    cases RField.sub RField.zero x with
    | panic p => rfl
    | diverge => rfl
    | ok s =>
      change ((f.p.emb φ).replaceRow r r2 (φ s) >>= fun p => (f.b.emb φ).replaceRow r r2 (φ s) >>= _) =
        Form.emb φ <$> (f.p.replaceRow r r2 s >>= fun p => f.b.replaceRow r r2 s >>= _)
      rw [Mat.replaceRow_emb h, Mat.replaceRow_emb h]
      cases f.p.replaceRow r r2 s with
      | panic p => rfl
      | diverge => rfl
      | ok p => cases f.b.replaceRow r r2 s <;> rfl

theorem Form.toRref_emb (f : Form F) : (f.emb φ).toRref = Form.emb φ <$> f.toRref := by
  refine map_foldlM' (h := Form.emb φ) (fun f r _ => ?_) f
  change ((f.b.emb φ).firstNonzero r >>= _) = _
  rw [Mat.firstNonzero_emb h heps]
  cases f.b.firstNonzero r with
  | panic p => rfl
  | diverge => rfl
  | ok o =>
    rcases o with _ | c
    · rfl
    · exact map_foldlM' (h := Form.emb φ) (fun f r2 _ => Form.replaceStep_emb h r c f r2) f

theorem Form.boundVariables_emb (f : Form F) : (f.emb φ).boundVariables = f.boundVariables := by
  unfold Form.boundVariables
  have : ∀ r, (f.emb φ).b.firstNonzero r = f.b.firstNonzero r := Mat.firstNonzero_emb h heps f.b
  simp only [this]
  rfl

theorem Form.computeKernel_emb (f : Form F) :
    (f.emb φ).computeKernel = List.map (Mat.emb φ) <$> f.computeKernel := by
  unfold Form.computeKernel
  rw [Form.boundVariables_emb h heps]
  cases f.boundVariables with
  | panic p => rfl
  | diverge => rfl
  | ok bound =>
    refine map_mapM' fun c _ => ?_
    rw [← Mat.e_emb h]
    refine map_foldlM' (h := Mat.emb φ) (fun v r _ => ?_) (Mat.e c f.b.cols)
    change ((f.b.emb φ).firstNonzero r >>= _) = _
    rw [Mat.firstNonzero_emb h heps]
    cases f.b.firstNonzero r with
    | panic p => rfl
    | diverge => rfl
    | ok o =>
      rcases o with _ | c2
      · rfl
      · change (if c2 < c then (f.b.emb φ).get r c >>= _ else _) = Mat.emb φ <$>
          (if c2 < c then f.b.get r c >>= _ else _)
        split
        · rw [Mat.get_emb h]
          cases f.b.get r c with
          | panic p => rfl
          | diverge => rfl
          | ok x =>
            change (RField.sub RField.zero (φ x) >>= _) = _ <$> (RField.sub RField.zero x >>= _)
            rw [← h.zero, h.sub]
            cases RField.sub RField.zero x with
            | panic p => rfl
            | diverge => rfl
            | ok y => exact Mat.set_emb h v c2 0 y
        · rfl

theorem Form.computeRange_emb (order : List ℕ → List ℕ) (f : Form F) :
    (f.emb φ).computeRange order = List.map (Mat.emb φ) <$> f.computeRange order := by
  unfold Form.computeRange
  rw [Form.boundVariables_emb h heps]
  cases f.boundVariables with
  | panic p => rfl
  | diverge => rfl
  | ok bound => exact map_mapM' fun c _ => Mat.getCol_emb h f.original c

/-- The comparison of images by stability. -/
def StabEmb (φ : F → G) [StabilityCmp F] [StabilityCmp G] : Prop :=
  ∀ a b, StabilityCmp.stabilityCmp (φ a) (φ b) = StabilityCmp.stabilityCmp a b

variable [StabilityCmp F] [StabilityCmp G] (hst : StabEmb φ)
include hst

omit h heps [RField F] [RField G] [EpsilonEquality F] [EpsilonEquality G] in
theorem getMaxIndex_emb (l : List F) :
    getMaxIndex (l.map φ) StabilityCmp.stabilityCmp = getMaxIndex l StabilityCmp.stabilityCmp := by
  unfold getMaxIndex
  have e : (l.map φ).zipIdx.map (fun x : G × ℕ => (x.2, x.1)) =
      (l.zipIdx.map (fun x : F × ℕ => (x.2, x.1))).map (Prod.map id φ) := by
    rw [List.zipIdx_map, List.map_map, List.map_map]
    rfl
  change (maxBy _ ((l.map φ).zipIdx.map (fun x : G × ℕ => (x.2, x.1))) >>= _) = _
  rw [e, maxBy_map (cmp := fun (x y : ℕ × F) => do
      match ← StabilityCmp.stabilityCmp x.2 y.2 with
      | some o => pure o
      | none => .panic .unwrapNone)]
  · change (_ >>= _) = (maxBy _ (l.zipIdx.map (fun x : F × ℕ => (x.2, x.1))) >>= _)
    cases maxBy (fun (x y : ℕ × F) => do
      match ← StabilityCmp.stabilityCmp x.2 y.2 with
      | some o => pure o
      | none => .panic .unwrapNone) (l.zipIdx.map (fun x : F × ℕ => (x.2, x.1))) with
    | panic p => rfl
    | diverge => rfl
    | ok o => cases o <;> rfl
  · intro a b
    change (StabilityCmp.stabilityCmp (φ a.2) (φ b.2) >>= _) = _
    rw [hst]
    rfl

theorem Mat.getStable_emb (M : Mat F) (c r : ℕ) :
    (M.emb φ).getStable c r = Option.map (Prod.map id φ) <$> M.getStable c r := by
  unfold Mat.getStable
  rw [Mat.getColIter_emb h]
  cases M.getColIter c with
  | panic p => rfl
  | diverge => rfl
  | ok col =>
    change (getMaxIndex ((col.map φ).drop r) StabilityCmp.stabilityCmp >>= _) = _ <$>
      (getMaxIndex (col.drop r) StabilityCmp.stabilityCmp >>= _)
    rw [← List.map_drop, getMaxIndex_emb hst]
    cases getMaxIndex (col.drop r) StabilityCmp.stabilityCmp with
    | panic p => rfl
    | diverge => rfl
    | ok k =>
      change ((M.emb φ).get (k + r) c >>= _) = _ <$> (M.get (k + r) c >>= _)
      rw [Mat.get_emb h]
      cases M.get (k + r) c with
      | panic p => rfl
      | diverge => rfl
      | ok x =>
        change (EpsilonEquality.epsilonEquals (φ x) RField.zero >>= _) = _ <$>
          (EpsilonEquality.epsilonEquals x RField.zero >>= _)
        rw [heps]
        cases EpsilonEquality.epsilonEquals x RField.zero with
        | panic p => rfl
        | diverge => rfl
        | ok b => cases b <;> rfl

omit heps hst [EpsilonEquality F] [EpsilonEquality G] [StabilityCmp F] [StabilityCmp G] in
theorem Form.permuteRows_emb (f : Form F) (r1 r2 : ℕ) :
    (f.emb φ).permuteRows r1 r2 = Form.emb φ <$> f.permuteRows r1 r2 := by
  unfold Form.permuteRows
  change ((f.p.emb φ).permuteRows r1 r2 >>= fun p => (f.b.emb φ).permuteRows r1 r2 >>= _) = _
  rw [Mat.permuteRows_emb h, Mat.permuteRows_emb h]
  cases f.p.permuteRows r1 r2 with
  | panic p => rfl
  | diverge => rfl
  | ok p => cases f.b.permuteRows r1 r2 <;> rfl

omit heps hst [EpsilonEquality F] [EpsilonEquality G] [StabilityCmp F] [StabilityCmp G] in
theorem Form.scaleRow_emb (f : Form F) (r : ℕ) (s : F) :
    (f.emb φ).scaleRow r (φ s) = Form.emb φ <$> f.scaleRow r s := by
  unfold Form.scaleRow
  change ((f.p.emb φ).scaleRow r (φ s) >>= fun p => (f.b.emb φ).scaleRow r (φ s) >>= _) = _
  rw [Mat.scaleRow_emb h, Mat.scaleRow_emb h]
  cases f.p.scaleRow r s with
  | panic p => rfl
  | diverge => rfl
  | ok p => cases f.b.scaleRow r s <;> rfl

theorem Mat.rowEchelonFor_emb (n : ℕ) (cs : List ℕ) (r : ℕ) (f : Form F) :
    Mat.rowEchelonFor n cs r (f.emb φ) = Form.emb φ <$> Mat.rowEchelonFor n cs r f := by
  induction cs generalizing r f with
  | nil => rfl
  | cons c cs ih =>
    unfold Mat.rowEchelonFor
    split
    · rfl
    · change ((f.b.emb φ).getStable c r >>= _) = _
      rw [Mat.getStable_emb h heps hst]
      cases f.b.getStable c r with
      | panic p => rfl
      | diverge => rfl
      | ok o =>
        rcases o with _ | ⟨i, x⟩
        · exact ih r f
        · change ((f.emb φ).permuteRows r i >>= fun f => RField.div RField.one (φ x) >>= fun s =>
            f.scaleRow r s >>= fun f => f.replaceColUnderRow r c >>= fun f =>
              Mat.rowEchelonFor n cs (r + 1) f) = Form.emb φ <$> (f.permuteRows r i >>= fun f =>
            RField.div RField.one x >>= fun s => f.scaleRow r s >>= fun f =>
            f.replaceColUnderRow r c >>= fun f => Mat.rowEchelonFor n cs (r + 1) f)
          rw [Form.permuteRows_emb h, ← h.one, h.div]
          cases f.permuteRows r i with
          | panic p => rfl
          | diverge => rfl
          | ok f =>
            cases RField.div RField.one x with
            | panic p => rfl
            | diverge => rfl
            | ok s =>
              change ((f.emb φ).scaleRow r (φ s) >>= _) = _ <$> (f.scaleRow r s >>= _)
              rw [Form.scaleRow_emb h]
              cases f.scaleRow r s with
              | panic p => rfl
              | diverge => rfl
              | ok f =>
                have e : (f.emb φ).replaceColUnderRow r c = Form.emb φ <$> f.replaceColUnderRow r c :=
                  map_foldlM' (h := Form.emb φ) (fun f r2 _ => Form.replaceStep_emb h r c f r2) f
                change ((f.emb φ).replaceColUnderRow r c >>= _) = _ <$> (f.replaceColUnderRow r c >>= _)
                rw [e]
                cases f.replaceColUnderRow r c with
                | panic p => rfl
                | diverge => rfl
                | ok f => exact ih (r + 1) f

theorem Mat.rowEchelon_emb (M : Mat F) : (M.emb φ).rowEchelon = Form.emb φ <$> M.rowEchelon := by
  unfold Mat.rowEchelon
  rw [← Mat.rowEchelonFor_emb h heps hst]
  unfold Form.emb
  rw [Mat.identity_emb h]
  rfl

/-- The state of `lu` with the matrices mapped. -/
def LUInternal.emb (φ : F → G) (lu : LUInternal F) : LUInternal G := ⟨lu.p, lu.l.emb φ, lu.u.emb φ⟩

/-- The factors of `lu` with all entries mapped. -/
def LU.emb (φ : F → G) (d : LU F) : LU G := ⟨d.p.emb φ, d.l.emb φ, d.u.emb φ⟩

theorem Mat.luFor_emb (n : ℕ) (cs : List ℕ) (r : ℕ) (lu : LUInternal F) :
    Mat.luFor n cs r (lu.emb φ) = LUInternal.emb φ <$> Mat.luFor n cs r lu := by
  induction cs generalizing r lu with
  | nil => rfl
  | cons c cs ih =>
    unfold Mat.luFor
    split
    · rfl
    · change ((lu.u.emb φ).getStable c r >>= _) = _
      rw [Mat.getStable_emb h heps hst]
      cases lu.u.getStable c r with
      | panic p => rfl
      | diverge => rfl
      | ok o =>
        rcases o with _ | ⟨i, x⟩
        · exact ih r lu
        · have e1 : (lu.emb φ).permute r i = LUInternal.emb φ <$> lu.permute r i := by
            unfold LUInternal.permute
            change (Mat.swapList lu.p r i >>= fun p => (lu.u.emb φ).permuteRows r i >>= fun u =>
              (lu.l.emb φ).permuteUnderDiagonal r i >>= _) = _
            have e : (lu.l.emb φ).permuteUnderDiagonal r i =
                Mat.emb φ <$> lu.l.permuteUnderDiagonal r i :=
              map_foldlM' (h := Mat.emb φ) (fun M c _ => Mat.swap_emb h M (r, c) (i, c)) lu.l
            rw [e, Mat.permuteRows_emb h]
            cases Mat.swapList lu.p r i with
            | panic p => rfl
            | diverge => rfl
            | ok p =>
              cases lu.u.permuteRows r i with
              | panic p => rfl
              | diverge => rfl
              | ok u => cases lu.l.permuteUnderDiagonal r i <;> rfl
          have e2 : ∀ lu : LUInternal F, (lu.emb φ).scaleRow r (φ x) = LUInternal.emb φ <$> lu.scaleRow r x := by
            intro lu
            unfold LUInternal.scaleRow
            change ((lu.l.emb φ).set r r (φ x) >>= fun l => RField.div RField.one (φ x) >>= fun s =>
              (lu.u.emb φ).scaleRow r s >>= _) = _
            rw [Mat.set_emb h, ← h.one, h.div]
            cases lu.l.set r r x with
            | panic p => rfl
            | diverge => rfl
            | ok l =>
              cases RField.div RField.one x with
              | panic p => rfl
              | diverge => rfl
              | ok s =>
                change ((lu.u.emb φ).scaleRow r (φ s) >>= _) = _ <$> (lu.u.scaleRow r s >>= _)
                rw [Mat.scaleRow_emb h]
                cases lu.u.scaleRow r s <;> rfl
          have e3 : ∀ lu : LUInternal F, (lu.emb φ).replaceColUnderRow r c =
              LUInternal.emb φ <$> lu.replaceColUnderRow r c := by
            intro lu
            refine map_foldlM' (h := LUInternal.emb φ) (fun lu r2 _ => ?_) lu
            change ((lu.u.emb φ).get r2 c >>= fun y => RField.sub RField.zero y >>= fun s =>
              (lu.u.emb φ).replaceRow r r2 s >>= fun u => (lu.l.emb φ).set r2 r y >>= fun l =>
                Res.ok (LUInternal.mk lu.p l u)) = LUInternal.emb φ <$>
              (lu.u.get r2 c >>= fun y => RField.sub RField.zero y >>= fun s =>
              lu.u.replaceRow r r2 s >>= fun u => lu.l.set r2 r y >>= fun l =>
                Res.ok (LUInternal.mk lu.p l u))
            rw [Mat.get_emb h, ← h.zero]
            cases lu.u.get r2 c with
            | panic p => rfl
            | diverge => rfl
            | ok y =>
              change (RField.sub (φ RField.zero) (φ y) >>= fun s =>
                (lu.u.emb φ).replaceRow r r2 s >>= fun u => (lu.l.emb φ).set r2 r (φ y) >>= _) = _ <$>
                (RField.sub RField.zero y >>= fun s =>
                lu.u.replaceRow r r2 s >>= fun u => lu.l.set r2 r y >>= _)
              rw [h.sub, Mat.set_emb h]
              cases RField.sub RField.zero y with
              | panic p => rfl
              | diverge => rfl
              | ok s =>
                change ((lu.u.emb φ).replaceRow r r2 (φ s) >>= _) = _ <$> (lu.u.replaceRow r r2 s >>= _)
                rw [Mat.replaceRow_emb h]
                cases lu.u.replaceRow r r2 s with
                | panic p => rfl
                | diverge => rfl
                | ok u => cases lu.l.set r2 r y <;> rfl
          change ((lu.emb φ).permute r i >>= fun lu => lu.scaleRow r (φ x) >>= fun lu =>
            lu.replaceColUnderRow r c >>= fun lu => Mat.luFor n cs (r + 1) lu) = LUInternal.emb φ <$>
            (lu.permute r i >>= fun lu => lu.scaleRow r x >>= fun lu =>
            lu.replaceColUnderRow r c >>= fun lu => Mat.luFor n cs (r + 1) lu)
          rw [e1]
          cases lu.permute r i with
          | panic p => rfl
          | diverge => rfl
          | ok lu =>
            change ((lu.emb φ).scaleRow r (φ x) >>= _) = _ <$> (lu.scaleRow r x >>= _)
            rw [e2]
            cases lu.scaleRow r x with
            | panic p => rfl
            | diverge => rfl
            | ok lu =>
              change ((lu.emb φ).replaceColUnderRow r c >>= _) = _ <$> (lu.replaceColUnderRow r c >>= _)
              rw [e3]
              cases lu.replaceColUnderRow r c with
              | panic p => rfl
              | diverge => rfl
              | ok lu => exact ih (r + 1) lu

theorem Mat.lu_emb (M : Mat F) : (M.emb φ).lu = LU.emb φ <$> M.lu := by
  unfold Mat.lu
  have := Mat.luFor_emb h heps hst M.rows (List.range M.cols) 0
    ⟨List.range M.rows, Mat.identity M.rows, M⟩
  unfold LUInternal.emb at this
  rw [Mat.identity_emb h] at this
  change (Mat.luFor M.rows (List.range M.cols) 0 ⟨List.range M.rows, Mat.identity M.rows, M.emb φ⟩ >>= _) = _
  rw [this]
  cases Mat.luFor M.rows (List.range M.cols) 0 (⟨List.range M.rows, Mat.identity M.rows, M⟩ : LUInternal F) with
  | panic p => rfl
  | diverge => rfl
  | ok d =>
    change Res.ok (LU.mk (Mat.permutationFromVec d.p) (d.l.emb φ) (d.u.emb φ)) = _
    rw [← Mat.permutationFromVec_emb h]
    rfl

/-! ### Cones -/

/-- The comparison of images with zero. -/
def SignEmb (φ : F → G) [FieldOrd F] [FieldOrd G] : Prop :=
  ∀ a, FieldOrd.partialCmp (φ a) (RField.zero : G) = FieldOrd.partialCmp a RField.zero

/-- A face with all vectors mapped. -/
def Face.emb (φ : F → G) (f : Face F) : Face G := ⟨f.normal.emb φ, f.generators.map (Mat.emb φ)⟩

/-- A cone with all vectors mapped. -/
def Cone.emb (φ : F → G) (c : Cone F) : Cone G :=
  ⟨c.generators.map (Mat.emb φ), c.facets.map (Face.emb φ), c.orthCompBasis.map (Mat.emb φ), c.ambientDim,
    c.dim⟩

omit h heps hst [RField F] [RField G] [EpsilonEquality F] [EpsilonEquality G] [StabilityCmp F] [StabilityCmp G] in
theorem combinationsList_emb {α β : Type} (g : α → β) (k : ℕ) (l : List α) :
    combinationsList k (l.map g) = (combinationsList k l).map (List.map g) := by
  induction l generalizing k with
  | nil => cases k <;> rfl
  | cons x xs ih =>
    cases k with
    | zero => rfl
    | succ k =>
      rw [List.map_cons, combinationsList, combinationsList, ih, ih, List.map_append, List.map_map,
        List.map_map]
      rfl

variable [FieldOrd F] [FieldOrd G] (hs : SignEmb φ)
include hs

omit heps hst [EpsilonEquality F] [EpsilonEquality G] [StabilityCmp F] [StabilityCmp G] in
theorem Cone.allAbove_emb (n : Mat F) (gens : List (Mat F)) :
    Cone.allAbove (n.emb φ) (gens.map (Mat.emb φ)) = Cone.allAbove n gens := by
  induction gens with
  | nil => rfl
  | cons g gs ih =>
    rw [List.map_cons]
    unfold Cone.allAbove
    rw [Mat.dot_emb h, ih]
    cases g.dot n with
    | panic p => rfl
    | diverge => rfl
    | ok d =>
      change (FieldOrd.partialCmp (φ d) RField.zero >>= _) = _
      rw [hs]
      rfl

theorem Cone.facetOf_emb (gens : List (Mat F)) (k : ℕ) (subset : List (Mat F)) :
    Cone.facetOf (gens.map (Mat.emb φ)) k (subset.map (Mat.emb φ)) =
      Option.map (Face.emb φ) <$> Cone.facetOf gens k subset := by
  unfold Cone.facetOf
  rw [Mat.fromRowVectors_emb h]
  cases Mat.fromRowVectors subset with
  | panic p => rfl
  | diverge => rfl
  | ok M =>
    simp only [map_ok, bind_ok]
    rw [Mat.rowEchelon_emb h heps hst]
    cases M.rowEchelon with
    | panic p => rfl
    | diverge => rfl
    | ok f =>
      simp only [map_ok, bind_ok]
      rw [Form.toRref_emb h heps]
      cases f.toRref with
      | panic p => rfl
      | diverge => rfl
      | ok f =>
        simp only [map_ok, bind_ok]
        rw [Form.rank_emb h heps]
        cases f.rank with
        | panic p => rfl
        | diverge => rfl
        | ok rank =>
          simp only [bind_ok]
          split
          · rfl
          · rw [Form.computeKernel_emb h heps]
            cases f.computeKernel with
            | panic p => rfl
            | diverge => rfl
            | ok ker =>
              simp only [map_ok, bind_ok]
              rw [Mat.nth_map, Mat.nth_map]
              cases Mat.nth ker 0 with
              | panic p => rfl
              | diverge => rfl
              | ok n =>
                cases Mat.nth gens 0 with
                | panic p => rfl
                | diverge => rfl
                | ok g0 =>
                  simp only [map_ok, bind_ok]
                  rw [Mat.dot_emb h]
                  cases g0.dot n with
                  | panic p => rfl
                  | diverge => rfl
                  | ok d =>
                    simp only [map_ok, bind_ok]
                    rw [hs]
                    cases FieldOrd.partialCmp d RField.zero with
                    | panic p => rfl
                    | diverge => rfl
                    | ok o =>
                      simp only [bind_ok]
                      have key : ∀ n : Mat F, ((Cone.allAbove (n.emb φ) (gens.map (Mat.emb φ)) >>= fun b =>
                          if b = true then pure (some ⟨n.emb φ, subset.map (Mat.emb φ)⟩) else pure none) :
                            Res (Option (Face G))) =
                          Option.map (Face.emb φ) <$> (Cone.allAbove n gens >>= fun b =>
                          if b = true then pure (some ⟨n, subset⟩) else pure none) := by
                        intro n
                        rw [Cone.allAbove_emb h hs]
                        cases Cone.allAbove n gens with
                        | panic p => rfl
                        | diverge => rfl
                        | ok b => cases b <;> rfl
                      rcases o with _ | o
                      · rfl
                      · cases o
                        · change (RField.sub RField.zero RField.one >>= fun s => (n.emb φ).scale s >>= _) =
                            _ <$> (RField.sub RField.zero RField.one >>= fun s => n.scale s >>= _)
                          rw [← h.zero, ← h.one, h.sub]
                          cases RField.sub (RField.zero : F) RField.one with
                          | panic p => rfl
                          | diverge => rfl
                          | ok s =>
                            change ((n.emb φ).scale (φ s) >>= _) = _ <$> (n.scale s >>= _)
                            rw [Mat.scale_emb h]
                            cases n.scale s with
                            | panic p => rfl
                            | diverge => rfl
                            | ok n => exact key n
                        · exact key n
                        · exact key n

theorem Cone.new_emb (gens : List (Mat F)) :
    Cone.new (gens.map (Mat.emb φ)) = Cone.emb φ <$> Cone.new gens := by
  unfold Cone.new
  rw [Mat.nth_map, Mat.fromRowVectors_emb h]
  cases Mat.nth gens 0 with
  | panic p => rfl
  | diverge => rfl
  | ok g0 =>
  simp only [map_ok, bind_ok]
  cases Mat.fromRowVectors gens with
  | panic p => rfl
  | diverge => rfl
  | ok M =>
  simp only [map_ok, bind_ok]
  rw [Mat.rowEchelon_emb h heps hst]
  cases M.rowEchelon with
  | panic p => rfl
  | diverge => rfl
  | ok f =>
  simp only [map_ok, bind_ok]
  rw [Form.toRref_emb h heps]
  cases f.toRref with
  | panic p => rfl
  | diverge => rfl
  | ok f =>
  simp only [map_ok, bind_ok]
  rw [Form.rank_emb h heps, Form.computeKernel_emb h heps, h.build]
  cases f.rank with
  | panic p => rfl
  | diverge => rfl
  | ok dim =>
  cases f.computeKernel with
  | panic p => rfl
  | diverge => rfl
  | ok ker =>
  simp only [map_ok, bind_ok]
  cases Usize.sub (RField.build F) dim 1 with
  | panic p => rfl
  | diverge => rfl
  | ok k =>
  simp only [bind_ok]
  have e : combinations (gens.map (Mat.emb φ)) k = List.map (List.map (Mat.emb φ)) <$> combinations gens k := by
    unfold combinations
    split
    · rfl
    · rw [combinationsList_emb]; rfl
  rw [e]
  cases combinations gens k with
  | panic p => rfl
  | diverge => rfl
  | ok subsets =>
  simp only [map_ok, bind_ok]
  refine map_bind_congr (f := List.map (Face.emb φ)) ?_ fun _ => rfl
  refine map_foldlM (h := List.map (Face.emb φ)) (fun fs s _ => ?_) []
  rw [Cone.facetOf_emb h heps hst hs]
  cases Cone.facetOf gens k s with
  | panic p => rfl
  | diverge => rfl
  | ok o =>
    rcases o with _ | f
    · rfl
    · change Res.ok (List.map (Face.emb φ) fs ++ [f.emb φ]) = Res.ok (List.map (Face.emb φ) (fs ++ [f]))
      rw [List.map_append]
      rfl

end Mat

end Verif
