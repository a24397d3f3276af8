import Verif.Props.Division

/-!
# Property C123: the terms of sums and products, one by one

No law of the coefficient type is used, so this holds for every coefficient type and both builds,
`f64` included.
-/

namespace Verif
open Res

section
variable {F : Type} [RField F]

/-- What becomes of a term of the left operand of a sum: if the right operand has a term with its
multidegree the coefficients are added and the term disappears if the result is zero. -/
def mergeTerm (q : Poly F) (t : Term F) : Res (Option (Term F)) :=
  match q.find? fun u => u.mdeg = t.mdeg with
  | none => .ok (some t)
  | some u => do
    let c ← RField.add t.coef u.coef
    pure (if RField.beq c RField.zero then none else some ⟨c, t.mdeg⟩)

theorem mapM_ok_iff {α β : Type} {f : α → Res β} {l : List α} {r : List β} :
    l.mapM f = .ok r ↔ List.Forall₂ (fun a b => f a = .ok b) l r := by
  induction l generalizing r with
  | nil =>
    rw [List.mapM_nil]
    constructor
    · intro h; cases h; exact .nil
    · intro h; cases h; rfl
  | cons a l ih =>
    rw [List.mapM_cons, bind_eq_ok]
    constructor
    · rintro ⟨b, hb, h⟩
      rw [bind_eq_ok] at h
      obtain ⟨bs, hbs, h⟩ := h
      cases h
      exact .cons hb (ih.mp hbs)
    · intro h
      cases h with
      | cons hb hbs => exact ⟨_, hb, by rw [ih.mpr hbs]; rfl⟩

/-- One term added to a polynomial. -/
theorem addTerm_ok_iff {p r : Poly F} {u : Term F} (hu : u.isZero = false) :
    Poly.addTerm p u = .ok r ↔
      ((∀ t ∈ p, t.mdeg ≠ u.mdeg) ∧ r = p ++ [u]) ∨
      ∃ pre t suf c, p = pre ++ t :: suf ∧ (∀ x ∈ pre, x.mdeg ≠ u.mdeg) ∧ t.mdeg = u.mdeg ∧
        RField.add t.coef u.coef = .ok c ∧
        r = pre ++ (if RField.beq c RField.zero then none else some ⟨c, t.mdeg⟩ : Option (Term F)).toList
          ++ suf := by
  have key : ∀ p r : Poly F, Poly.addNonzeroTerm p u = .ok r ↔
      ((∀ t ∈ p, t.mdeg ≠ u.mdeg) ∧ r = p ++ [u]) ∨
      ∃ pre t suf c, p = pre ++ t :: suf ∧ (∀ x ∈ pre, x.mdeg ≠ u.mdeg) ∧ t.mdeg = u.mdeg ∧
        RField.add t.coef u.coef = .ok c ∧
        r = pre ++ (if RField.beq c RField.zero then none else some ⟨c, t.mdeg⟩ : Option (Term F)).toList
          ++ suf := by
    intro p
    induction p with
    | nil =>
      intro r
      rw [Poly.addNonzeroTerm]
      constructor
      · intro h; cases h; exact .inl ⟨by simp, rfl⟩
      · rintro (⟨_, rfl⟩ | ⟨pre, t, suf, c, h, _⟩)
        · rfl
        · simp at h
    | cons s p ih =>
      intro r
      rw [Poly.addNonzeroTerm]
      by_cases hs : s.mdeg = u.mdeg
      · rw [if_pos hs, bind_eq_ok]
        constructor
        · rintro ⟨c, hc, h⟩
          refine .inr ⟨[], s, p, c, rfl, by simp, hs, hc, ?_⟩
          unfold Term.isZero at h
          dsimp only at h
          split at h <;> rename_i hz <;> cases h
          · rw [if_pos hz]; rfl
          · rw [if_neg hz]; rfl
        · rintro (⟨h, _⟩ | ⟨pre, t, suf, c, h, hpre, ht, hc, rfl⟩)
          · exact absurd hs (h s (by simp))
          · rcases pre with _ | ⟨x, pre⟩
            · injection h with h1 h2
              subst h1; subst h2
              refine ⟨c, hc, ?_⟩
              unfold Term.isZero
              dsimp only
              split <;> rfl
            · injection h with h1 h2
              exact absurd hs (by rw [h1]; exact hpre x (by simp))
      · rw [if_neg hs, bind_eq_ok]
        constructor
        · rintro ⟨r', hr', h⟩
          cases h
          rcases (ih r').mp hr' with ⟨h, rfl⟩ | ⟨pre, t, suf, c, rfl, hpre, ht, hc, rfl⟩
          · refine .inl ⟨fun t ht => ?_, rfl⟩
            rcases List.mem_cons.mp ht with rfl | ht
            · exact hs
            · exact h t ht
          · refine .inr ⟨s :: pre, t, suf, c, rfl, fun x hx => ?_, ht, hc, by simp⟩
            rcases List.mem_cons.mp hx with rfl | hx
            · exact hs
            · exact hpre x hx
        · rintro (⟨h, rfl⟩ | ⟨pre, t, suf, c, h, hpre, ht, hc, rfl⟩)
          · exact ⟨p ++ [u], (ih _).mpr (.inl ⟨fun t ht => h t (by simp [ht]), rfl⟩), rfl⟩
          · rcases pre with _ | ⟨x, pre⟩
            · injection h with h1 h2
              exact absurd (h1 ▸ ht) hs
            · injection h with h1 h2
              subst h1
              refine ⟨_, (ih _).mpr (.inr ⟨pre, t, suf, c, h2, fun x hx => hpre x (by simp [hx]), ht,
                hc, rfl⟩), ?_⟩
              rfl
  unfold Poly.addTerm
  cases p with
  | nil =>
    rw [← key]
    simp [Poly.isZero, Poly.ofTerm, hu, Poly.termUnchecked, Poly.newUnchecked, pure_eq,
      Poly.addNonzeroTerm]
  | cons t p =>
    rw [← key]
    simp [Poly.isZero, hu]

theorem mergeTerm_cons_ne {q : Poly F} {u t : Term F} (h : u.mdeg ≠ t.mdeg) :
    mergeTerm (u :: q) t = mergeTerm q t := by
  unfold mergeTerm
  rw [List.find?_cons_of_neg (by simpa using h)]

theorem mergeTerm_cons_eq {q : Poly F} {u t : Term F} (h : u.mdeg = t.mdeg) :
    mergeTerm (u :: q) t = (do
      let c ← RField.add t.coef u.coef
      pure (if RField.beq c RField.zero then none else some ⟨c, t.mdeg⟩)) := by
  unfold mergeTerm
  rw [List.find?_cons_of_pos (by simpa using h)]

theorem mergeTerm_none {q : Poly F} {t : Term F} (h : ∀ u ∈ q, u.mdeg ≠ t.mdeg) :
    mergeTerm q t = .ok (some t) := by
  unfold mergeTerm
  rw [List.find?_eq_none.mpr (by simpa using h)]

theorem merge_congr {p : Poly F} {q q' : Poly F} (h : ∀ t ∈ p, mergeTerm q t = mergeTerm q' t) :
    p.mapM (mergeTerm q) = p.mapM (mergeTerm q') := by
  induction p with
  | nil => rfl
  | cons t p ih =>
    rw [List.mapM_cons, List.mapM_cons, h t (by simp), ih fun t ht => h t (by simp [ht])]

/-- C123. The sum of `p` and `q` lists the terms of `p` in their order, each with the coefficient of
`q` at the same multidegree added to it and left out if that gives zero, and then, in their order, the
terms of `q` whose multidegrees do not occur in `p`. -/
theorem C123_add (p q r : Poly F) (hp : (p.map (·.mdeg)).Nodup) (hq : q.Canonical) :
    Poly.add p q = .ok r ↔ ∃ cs, p.mapM (mergeTerm q) = .ok cs ∧
      r = cs.filterMap id ++ q.filter fun u => u.mdeg ∉ p.map (·.mdeg) := by
  unfold Poly.add
  induction q generalizing p with
  | nil =>
    have : p.mapM (mergeTerm ([] : Poly F)) = .ok (p.map some) := by
      refine mapM_ok_iff.mpr (List.forall₂_map_right_iff.mpr (List.forall₂_same.mpr fun t _ => ?_))
      exact mergeTerm_none (by simp)
    rw [List.foldlM_nil, this]
    constructor
    · intro h; cases h; exact ⟨_, rfl, by simp⟩
    · rintro ⟨cs, h, rfl⟩; cases h; simp [pure_eq]
  | cons u q ih =>
    have hu : u.isZero = false := hq.ne u (by simp)
    have hnd := hq.nodup
    rw [List.map_cons, List.nodup_cons] at hnd
    have hq' : Poly.Canonical q := ⟨fun t ht => hq.ne t (by simp [ht]), hnd.2⟩
    have huq : ∀ v ∈ q, v.mdeg ≠ u.mdeg := fun v hv h =>
      hnd.1 (h ▸ List.mem_map_of_mem (f := (·.mdeg)) hv)
    rw [List.foldlM_cons, bind_eq_ok]
    by_cases hup : u.mdeg ∈ p.map (·.mdeg)
    · -- the multidegree occurs in `p`
      obtain ⟨t, htp, htu⟩ := List.mem_map.mp hup
      obtain ⟨pre, suf, rfl⟩ := List.append_of_mem htp
      rw [List.map_append, List.map_cons, List.nodup_append, List.nodup_cons] at hp
      have hpre : ∀ x ∈ pre, x.mdeg ≠ u.mdeg := fun x hx h => by
        refine hp.2.2 x.mdeg (List.mem_map_of_mem hx) t.mdeg (by simp) (by rw [h, htu])
      have hsuf : ∀ x ∈ suf, x.mdeg ≠ u.mdeg := fun x hx h => by
        refine hp.2.1.1 ?_
        rw [htu, ← h]; exact List.mem_map_of_mem hx
      have hstep : ∀ p', Poly.addTerm (pre ++ t :: suf) u = .ok p' ↔ ∃ c,
          RField.add t.coef u.coef = .ok c ∧ p' = pre ++
            (if RField.beq c RField.zero then none else some ⟨c, t.mdeg⟩ : Option (Term F)).toList
              ++ suf := by
        intro p'
        rw [addTerm_ok_iff hu]
        constructor
        · rintro (⟨h, _⟩ | ⟨pre', t', suf', c, he, hpre', ht', hc, rfl⟩)
          · exact absurd htu (h t (by simp))
          · have : pre = pre' ∧ t = t' ∧ suf = suf' := by
              rcases List.append_eq_append_iff.mp he with ⟨a, h1, h2⟩ | ⟨a, h1, h2⟩
              · rcases a with _ | ⟨y, a⟩
                · rw [List.nil_append] at h2
                  injection h2 with h2 h3
                  exact ⟨by simpa using h1.symm, h2, h3⟩
                · injection h2 with h2 h3
                  exact absurd htu (hpre' t (by rw [h1, h2]; simp))
              · rcases a with _ | ⟨y, a⟩
                · rw [List.nil_append] at h2
                  injection h2 with h2 h3
                  exact ⟨by simpa using h1, h2.symm, h3.symm⟩
                · injection h2 with h2 h3
                  exact absurd ht' (hpre t' (by rw [h1, h2]; simp))
            obtain ⟨rfl, rfl, rfl⟩ := this
            exact ⟨c, hc, rfl⟩
        · rintro ⟨c, hc, rfl⟩
          exact .inr ⟨pre, t, suf, c, rfl, hpre, htu, hc, rfl⟩
      -- how the rest of the terms merge
      have hne : ∀ l : Poly F, (∀ x ∈ l, x.mdeg ≠ u.mdeg) →
          l.mapM (mergeTerm (u :: q)) = l.mapM (mergeTerm q) := fun l hl =>
        merge_congr fun x hx => mergeTerm_cons_ne (hl x hx).symm
      have hfil : ∀ o : Option (Term F), (∀ x ∈ o, x.mdeg = u.mdeg) →
          (q.filter fun v => decide (v.mdeg ∉ (pre ++ o.toList ++ suf).map (·.mdeg))) =
          (u :: q).filter fun v => decide (v.mdeg ∉ (pre ++ t :: suf).map (·.mdeg)) := by
        intro o ho
        rw [List.filter_cons_of_neg (by simp [← htu])]
        refine List.filter_congr fun v hv => decide_eq_decide.mpr (not_congr ?_)
        have hvu := huq v hv
        have hvo : v.mdeg ∉ o.toList.map (·.mdeg) := by
          intro h
          obtain ⟨x, hx, hxv⟩ := List.mem_map.mp h
          exact hvu (by rw [← hxv]; exact ho x (Option.mem_toList.mp hx))
        simp only [List.map_append, List.map_cons, List.mem_append, List.mem_cons, hvo, htu, hvu,
          or_false, false_or]
      have hmerged : ∀ c, RField.add t.coef u.coef = .ok c → ∀ cs,
          (pre ++ t :: suf).mapM (mergeTerm (u :: q)) = .ok cs ↔ ∃ a b,
            pre.mapM (mergeTerm q) = .ok a ∧ suf.mapM (mergeTerm q) = .ok b ∧
            cs = a ++ (if RField.beq c RField.zero then none else some ⟨c, t.mdeg⟩) :: b := by
        intro c hc cs
        rw [List.mapM_append, List.mapM_cons, hne pre hpre, hne suf hsuf, mergeTerm_cons_eq htu.symm,
          hc, bind_eq_ok]
        constructor
        · rintro ⟨a, ha, h⟩
          rw [bind_eq_ok] at h
          obtain ⟨b, hb, h⟩ := h
          cases h
          rw [bind_eq_ok] at hb
          obtain ⟨o, ho, hb⟩ := hb
          cases ho
          rw [bind_eq_ok] at hb
          obtain ⟨b', hb', hb⟩ := hb
          cases hb
          exact ⟨a, b', ha, hb', rfl⟩
        · rintro ⟨a, b, ha, hb, rfl⟩
          refine ⟨a, ha, ?_⟩
          rw [hb]; rfl
      have hnodup : ∀ o : Option (Term F), (∀ x ∈ o, x.mdeg = t.mdeg) →
          ((pre ++ o.toList ++ suf).map (·.mdeg)).Nodup := by
        intro o ho
        have hsub : ((pre ++ o.toList ++ suf).map (·.mdeg)).Sublist
            ((pre ++ t :: suf).map (·.mdeg)) := by
          rcases o with _ | x
          · simp
          · have := ho x rfl
            simp [this]
        refine hsub.nodup ?_
        rw [List.map_append, List.map_cons, List.nodup_append, List.nodup_cons]
        exact hp
      have hopt : ∀ c : F, ∀ x ∈ (if RField.beq c RField.zero then none else some ⟨c, t.mdeg⟩ :
          Option (Term F)), x.mdeg = t.mdeg := by
        intro c x hx
        split at hx <;> simp at hx
        rw [← hx]
      have hmid : ∀ c : F, ∀ cs, (pre ++ (if RField.beq c RField.zero then none else some ⟨c, t.mdeg⟩ :
            Option (Term F)).toList ++ suf).mapM (mergeTerm q) = .ok cs ↔ ∃ a b,
            pre.mapM (mergeTerm q) = .ok a ∧ suf.mapM (mergeTerm q) = .ok b ∧
            cs = a ++ ((if RField.beq c RField.zero then none else some ⟨c, t.mdeg⟩ :
              Option (Term F)).toList.map some ++ b) := by
        intro c cs
        have ho : (if RField.beq c RField.zero then none else some ⟨c, t.mdeg⟩ :
            Option (Term F)).toList.mapM (mergeTerm q) = .ok ((if RField.beq c RField.zero then none
              else some ⟨c, t.mdeg⟩ : Option (Term F)).toList.map some) := by
          refine mapM_ok_iff.mpr (List.forall₂_map_right_iff.mpr (List.forall₂_same.mpr fun x hx => ?_))
          refine mergeTerm_none fun v hv => ?_
          rw [hopt c x (Option.mem_toList.mp hx), htu]
          exact huq v hv
        rw [List.mapM_append, List.mapM_append, ho, bind_eq_ok]
        constructor
        · rintro ⟨a, ha, h⟩
          rw [bind_eq_ok] at ha h
          obtain ⟨a', ha', ha⟩ := ha
          obtain ⟨b, hb, h⟩ := h
          cases h; cases ha
          exact ⟨a', b, ha', hb, by simp⟩
        · rintro ⟨a, b, ha, hb, rfl⟩
          refine ⟨_, by rw [ha]; rfl, ?_⟩
          rw [hb]; simp [pure_eq]
      constructor
      · rintro ⟨p', hp', h⟩
        obtain ⟨c, hc, rfl⟩ := (hstep p').mp hp'
        obtain ⟨cs, hcs, rfl⟩ := (ih _ (hnodup _ (hopt c)) hq').mp h
        obtain ⟨a, b, ha, hb, rfl⟩ := (hmid c cs).mp hcs
        refine ⟨_, (hmerged c hc _).mpr ⟨a, b, ha, hb, rfl⟩, ?_⟩
        rw [hfil _ fun x hx => (hopt c x hx).trans htu]
        congr 1
        split <;> simp
      · rintro ⟨cs, hcs, rfl⟩
        obtain ⟨c, hc⟩ : ∃ c, RField.add t.coef u.coef = .ok c := by
          have h2 := List.forall₂_iff_get.mp (mapM_ok_iff.mp hcs)
          have h3 := h2.2 pre.length (by simp) (by rw [← h2.1]; simp)
          simp only [List.get_eq_getElem, List.getElem_append_right (le_refl pre.length), Nat.sub_self,
            List.getElem_cons_zero, mergeTerm_cons_eq htu.symm] at h3
          rw [bind_eq_ok] at h3
          obtain ⟨c, hc, _⟩ := h3
          exact ⟨c, hc⟩
        obtain ⟨a, b, ha, hb, rfl⟩ := (hmerged c hc cs).mp hcs
        refine ⟨_, (hstep _).mpr ⟨c, hc, rfl⟩, ?_⟩
        refine (ih _ (hnodup _ (hopt c)) hq').mpr ⟨_, (hmid c _).mpr ⟨a, b, ha, hb, rfl⟩, ?_⟩
        rw [hfil _ fun x hx => (hopt c x hx).trans htu]
        congr 1
        split <;> simp
    · -- a new multidegree
      have hpu : ∀ t ∈ p, t.mdeg ≠ u.mdeg := fun t ht h => hup (h ▸ List.mem_map_of_mem ht)
      have hstep : ∀ p', Poly.addTerm p u = .ok p' ↔ p' = p ++ [u] := by
        intro p'
        rw [addTerm_ok_iff hu]
        constructor
        · rintro (⟨_, h⟩ | ⟨pre, t, suf, c, rfl, _, ht, _⟩)
          · exact h
          · exact absurd ht (hpu t (by simp))
        · intro h; exact .inl ⟨hpu, h⟩
      have hm : p.mapM (mergeTerm (u :: q)) = p.mapM (mergeTerm q) :=
        merge_congr fun t ht => mergeTerm_cons_ne (hpu t ht).symm
      have hfil : (q.filter fun v => decide (v.mdeg ∉ (p ++ [u]).map (·.mdeg))) =
          q.filter fun v => decide (v.mdeg ∉ p.map (·.mdeg)) := by
        refine List.filter_congr fun v hv => decide_eq_decide.mpr (not_congr ?_)
        simp [huq v hv]
      have hnodup : ((p ++ [u]).map (·.mdeg)).Nodup := by
        rw [List.map_append, List.nodup_append]
        refine ⟨hp, by simp, fun a ha b hb => ?_⟩
        simp only [List.map_cons, List.map_nil, List.mem_singleton] at hb
        rintro rfl
        exact hup (hb ▸ ha)
      have hm' : ∀ cs, (p ++ [u]).mapM (mergeTerm q) = .ok cs ↔
          ∃ a, p.mapM (mergeTerm q) = .ok a ∧ cs = a ++ [some u] := by
        intro cs
        have : [u].mapM (mergeTerm q) = .ok [some u] := by
          rw [List.mapM_cons, mergeTerm_none huq]; rfl
        rw [List.mapM_append, this, bind_eq_ok]
        constructor
        · rintro ⟨a, ha, h⟩; cases h; exact ⟨a, ha, rfl⟩
        · rintro ⟨a, ha, rfl⟩; exact ⟨a, ha, rfl⟩
      rw [hm, List.filter_cons_of_pos (by simpa using hup)]
      constructor
      · rintro ⟨p', hp', h⟩
        rw [(hstep p').mp hp'] at h
        obtain ⟨cs, hcs, rfl⟩ := (ih _ hnodup hq').mp h
        obtain ⟨a, ha, rfl⟩ := (hm' cs).mp hcs
        refine ⟨a, ha, ?_⟩
        rw [hfil]; simp
      · rintro ⟨cs, hcs, rfl⟩
        refine ⟨_, (hstep _).mpr rfl, (ih _ hnodup hq').mpr ⟨_, (hm' _).mpr ⟨cs, hcs, rfl⟩, ?_⟩⟩
        rw [hfil]; simp

/-- C123. `-p` lists the negated terms in the order of `p`. -/
theorem C123_neg (p r : Poly F) : Poly.neg p = .ok r ↔
    List.Forall₂ (fun t u => u.mdeg = t.mdeg ∧ RField.neg t.coef = .ok u.coef) p r := by
  unfold Poly.neg
  rw [mapM_ok_iff]
  refine iff_of_eq (congrArg (fun R => List.Forall₂ R p r) ?_)
  funext t u
  rw [eq_iff_iff]
  unfold Term.neg
  rw [bind_eq_ok]
  constructor
  · rintro ⟨c, hc, h⟩; cases h; exact ⟨rfl, hc⟩
  · rintro ⟨h1, h2⟩
    refine ⟨u.coef, h2, ?_⟩
    rw [← h1]; rfl

/-- C123. `p - q` is the sum of `p` and the negated `q`. -/
theorem C123_sub (p q r : Poly F) : Poly.sub p q = .ok r ↔ ∃ q',
    List.Forall₂ (fun t u => u.mdeg = t.mdeg ∧ RField.neg t.coef = .ok u.coef) q q' ∧
      Poly.add p q' = .ok r := by
  unfold Poly.sub
  rw [bind_eq_ok]
  exact exists_congr fun q' => and_congr_left fun _ => C123_neg q q'

/-- C123. The product with a term lists the products in the order of `p`. -/
theorem C123_mul_term (p r : Poly F) (t : Term F) (hp : ∀ s ∈ p, s.isZero = false)
    (ht : t.isZero = false) : Poly.mulTerm p t = .ok r ↔
    List.Forall₂ (fun s u => RField.mul s.coef t.coef = .ok u.coef ∧
      MDeg.add (RField.build F) s.mdeg t.mdeg = .ok u.mdeg) p r := by
  have key : p.mapM (fun s => s.mul t) = .ok r ↔
      List.Forall₂ (fun s u => RField.mul s.coef t.coef = .ok u.coef ∧
        MDeg.add (RField.build F) s.mdeg t.mdeg = .ok u.mdeg) p r := by
    have hmul : ∀ s ∈ p, ∀ u : Term F, s.mul t = .ok u ↔ RField.mul s.coef t.coef = .ok u.coef ∧
        MDeg.add (RField.build F) s.mdeg t.mdeg = .ok u.mdeg := by
      intro s hs u
      unfold Term.mul
      rw [hp s hs, ht]
      simp only [Bool.or_self, Bool.false_eq_true, if_false]
      rw [bind_eq_ok]
      constructor
      · rintro ⟨c, hc, h⟩
        rw [bind_eq_ok] at h
        obtain ⟨d, hd, h⟩ := h
        cases h
        exact ⟨hc, hd⟩
      · rintro ⟨hc, hd⟩
        refine ⟨_, hc, ?_⟩
        rw [hd]; rfl
    rw [mapM_ok_iff]
    clear ht
    induction p generalizing r with
    | nil => constructor <;> intro h <;> cases h <;> exact .nil
    | cons s p ih =>
      have ih := fun r => ih r (fun s hs => hp s (by simp [hs])) (fun s hs => hmul s (by simp [hs]))
      constructor
      · intro h
        cases h with
        | cons h1 h2 => exact .cons ((hmul s (by simp) _).mp h1) ((ih _).mp h2)
      · intro h
        cases h with
        | cons h1 h2 => exact .cons ((hmul s (by simp) _).mpr h1) ((ih _).mpr h2)
  unfold Poly.mulTerm
  rw [ht]
  rcases p with _ | ⟨s, p⟩
  · exact key
  · exact key

/-- C123. `p * q` adds up the products of `q` with the terms of `p`, from the first term of `p` to the
last. -/
theorem C123_mul (p q r : Poly F) :
    (Poly.mul [] q = .ok r ↔ r = []) ∧
    (∀ t : Term F, Poly.mul [t] q = Poly.mulTerm q t) ∧
    (∀ t : Term F, p ≠ [] → (Poly.mul (p ++ [t]) q = .ok r ↔ ∃ a b, Poly.mul p q = .ok a ∧
      Poly.mulTerm q t = .ok b ∧ Poly.add a b = .ok r)) := by
  refine ⟨?_, fun t => ?_, fun t hp => ?_⟩
  · constructor
    · intro h; cases h; rfl
    · rintro rfl; rfl
  · unfold Poly.mul
    simp only [List.map_cons, List.map_nil, reduceM, List.foldlM_nil]
    cases Poly.mulTerm q t <;> rfl
  · rcases p with _ | ⟨s, p⟩
    · exact absurd rfl hp
    unfold Poly.mul
    simp only [List.cons_append, List.map_cons, List.map_append, List.map_nil, reduceM,
      List.foldlM_append, List.foldlM_cons, List.foldlM_nil]
    constructor
    · intro h
      rw [bind_eq_ok] at h
      obtain ⟨x, hx, h⟩ := h
      rw [bind_eq_ok] at h
      obtain ⟨a, ha, h⟩ := h
      rw [bind_eq_ok] at h
      obtain ⟨r', h, hr⟩ := h
      cases hr
      rw [bind_eq_ok] at h
      obtain ⟨b, hb, h⟩ := h
      exact ⟨a, b, by rw [hx]; exact ha, hb, h⟩
    · rintro ⟨a, b, ha, hb, h⟩
      rw [bind_eq_ok] at ha
      obtain ⟨x, hx, ha⟩ := ha
      rw [hx, Res.bind_ok, ha, Res.bind_ok, hb, Res.bind_ok, h]
      rfl

/-- `(3 x + 2 y + 1) + (5 z - y y + -2 y + 4 x)`: first `7 x` and `1`, the `y` being gone, then `5 z`
and `- y y`. The operands the other way round give another order. -/
example : letI := Rational.field .debug
    (Poly.Canonical ([⟨⟨5, 1⟩, [0, 0, 1]⟩, ⟨⟨-1, 1⟩, [0, 2]⟩, ⟨⟨-2, 1⟩, [0, 1]⟩, ⟨⟨4, 1⟩, [1]⟩] :
      Poly Rational)) ∧
    Poly.add ([⟨⟨3, 1⟩, [1]⟩, ⟨⟨2, 1⟩, [0, 1]⟩, ⟨⟨1, 1⟩, []⟩] : Poly Rational)
      [⟨⟨5, 1⟩, [0, 0, 1]⟩, ⟨⟨-1, 1⟩, [0, 2]⟩, ⟨⟨-2, 1⟩, [0, 1]⟩, ⟨⟨4, 1⟩, [1]⟩] =
      .ok [⟨⟨7, 1⟩, [1]⟩, ⟨⟨1, 1⟩, []⟩, ⟨⟨5, 1⟩, [0, 0, 1]⟩, ⟨⟨-1, 1⟩, [0, 2]⟩] ∧
    Poly.add ([⟨⟨5, 1⟩, [0, 0, 1]⟩, ⟨⟨-1, 1⟩, [0, 2]⟩, ⟨⟨-2, 1⟩, [0, 1]⟩, ⟨⟨4, 1⟩, [1]⟩] : Poly Rational)
      [⟨⟨3, 1⟩, [1]⟩, ⟨⟨2, 1⟩, [0, 1]⟩, ⟨⟨1, 1⟩, []⟩] =
      .ok [⟨⟨5, 1⟩, [0, 0, 1]⟩, ⟨⟨-1, 1⟩, [0, 2]⟩, ⟨⟨7, 1⟩, [1]⟩, ⟨⟨1, 1⟩, []⟩] := by
  let _ := Rational.field .debug
  refine ⟨⟨?_, ?_⟩, ?_, ?_⟩ <;> decide +kernel

end

end Verif
