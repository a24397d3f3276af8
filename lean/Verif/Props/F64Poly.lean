import Verif.Props.F64Elim
import Verif.Proofs.Divide

/-!
# Properties C94–C96: polynomials without any law of arithmetic, and over `f32` and `f64`
-/

namespace Verif
open Res LinAlg Computer

/-- Partial correctness of a loop: what every iteration keeps holds at the end. -/
theorem loop_partial {S R : Type} {step : S → Res (S ⊕ R)} (Inv : S → Prop) (Post : R → Prop)
    (h1 : ∀ s s', Inv s → step s = .ok (.inl s') → Inv s')
    (h2 : ∀ s r, Inv s → step s = .ok (.inr r) → Post r) {s : S} (hs : Inv s) {r : R}
    (h : Res.loop step s = .ok r) : Post r := by
  obtain ⟨n, hn⟩ := iter_of_loop_ne_diverge (step := step) (s := s) (by rw [h]; simp)
  rw [h] at hn
  clear h
  induction n generalizing s with
  | zero => cases hn
  | succ n ih =>
    rw [iter, bind_eq_ok] at hn
    obtain ⟨x, hx, hn⟩ := hn
    rcases x with s' | r'
    · exact ih (h1 s s' hs hx) hn
    · cases hn; exact h2 s _ hs hx

/-- The value of a computation that returned satisfies the postcondition. -/
theorem Spec.get {α : Type} {E : Panic → Prop} {x : Res α} {P : α → Prop} (h : Spec E x P) {a : α}
    (hx : x = .ok a) : P a := by
  subst hx; exact h

section
set_option linter.unusedSectionVars false
variable {F : Type} [RField F]

/-- No term has a zero coefficient and no two terms have the same multidegree. -/
structure Poly.Canonical (p : Poly F) : Prop where
  ne : ∀ t ∈ p, t.isZero = false
  nodup : (p.map (·.mdeg)).Nodup

theorem Poly.ofTerm_canonical (t : Term F) : (Poly.ofTerm t).Canonical := by
  unfold Poly.ofTerm
  split
  · exact ⟨by simp [Poly.zero, Poly.newUnchecked], by simp [Poly.zero, Poly.newUnchecked]⟩
  · rename_i h
    exact ⟨by simpa [Poly.termUnchecked, Poly.newUnchecked] using h,
      by simp [Poly.termUnchecked, Poly.newUnchecked]⟩

theorem Poly.addNonzeroTerm_mdeg (p : Poly F) (t : Term F) (r : Poly F)
    (h : Poly.addNonzeroTerm p t = .ok r) :
    ∀ u ∈ r, u.mdeg ∈ p.map (·.mdeg) ∨ u.mdeg = t.mdeg := by
  induction p generalizing r with
  | nil => cases h; simp
  | cons s ss ih =>
    rw [Poly.addNonzeroTerm] at h
    split at h
    · rename_i he
      rw [bind_eq_ok] at h
      obtain ⟨c, _, h⟩ := h
      dsimp only at h
      split at h <;> cases h <;> simp +contextual <;> exact fun u hu => .inl (.inr ⟨u, hu, rfl⟩)
    · rw [bind_eq_ok] at h
      obtain ⟨ts, hts, h⟩ := h
      cases h
      intro u hu
      rcases List.mem_cons.mp hu with rfl | hu
      · simp
      · rcases ih ts hts u hu with h | h
        · exact .inl (by simp only [List.map_cons, List.mem_cons]; exact .inr h)
        · exact .inr h

theorem Poly.addNonzeroTerm_canonical (p : Poly F) (t : Term F) (r : Poly F) (hp : p.Canonical)
    (ht : t.isZero = false) (h : Poly.addNonzeroTerm p t = .ok r) : r.Canonical := by
  induction p generalizing r with
  | nil => cases h; exact ⟨by simpa using ht, by simp⟩
  | cons s ss ih =>
    have hss : Poly.Canonical ss :=
      ⟨fun u hu => hp.ne u (by simp [hu]), (List.nodup_cons.mp hp.nodup).2⟩
    rw [Poly.addNonzeroTerm] at h
    split at h
    · rw [bind_eq_ok] at h
      obtain ⟨c, _, h⟩ := h
      dsimp only at h
      split at h
      · cases h; exact hss
      · rename_i hz
        cases h
        refine ⟨fun u hu => ?_, hp.nodup⟩
        rcases List.mem_cons.mp hu with rfl | hu
        · simpa using hz
        · exact hss.ne u hu
    · rename_i hne
      rw [bind_eq_ok] at h
      obtain ⟨ts, hts, h⟩ := h
      cases h
      have := ih ts hss hts
      refine ⟨fun u hu => ?_, ?_⟩
      · rcases List.mem_cons.mp hu with rfl | hu
        · exact hp.ne _ (by simp)
        · exact this.ne u hu
      · rw [List.map_cons, List.nodup_cons]
        refine ⟨fun hm => ?_, this.nodup⟩
        obtain ⟨u, hu, he⟩ := List.mem_map.mp hm
        rcases Poly.addNonzeroTerm_mdeg ss t ts hts u hu with h | h
        · rw [he] at h
          exact (List.nodup_cons.mp hp.nodup).1 h
        · exact hne (he.symm.trans h)

theorem Poly.addTerm_mdeg (p : Poly F) (t : Term F) (r : Poly F) (h : Poly.addTerm p t = .ok r) :
    ∀ u ∈ r, u.mdeg ∈ p.map (·.mdeg) ∨ u.mdeg = t.mdeg := by
  unfold Poly.addTerm at h
  split at h
  · cases h
    unfold Poly.ofTerm
    split <;> simp [Poly.zero, Poly.newUnchecked, Poly.termUnchecked]
  · split at h
    · cases h; intro u hu; exact .inl (List.mem_map_of_mem hu)
    · exact Poly.addNonzeroTerm_mdeg p t r h

theorem Poly.addTerm_canonical (p : Poly F) (t : Term F) (r : Poly F) (hp : p.Canonical)
    (h : Poly.addTerm p t = .ok r) : r.Canonical := by
  unfold Poly.addTerm at h
  split at h
  · cases h; exact Poly.ofTerm_canonical t
  · split at h
    · cases h; exact hp
    · rename_i hz
      exact Poly.addNonzeroTerm_canonical p t r hp (by simpa using hz) h

/-- C94. Whatever the coefficient type: if `p` has no zero coefficient and no repeated multidegree
and `p + q` returns, neither has the sum, whatever `q` is; and no multidegree is new. -/
theorem C94_add_partial (p q r : Poly F) (hp : p.Canonical) (h : Poly.add p q = .ok r) :
    r.Canonical ∧ ∀ u ∈ r, u.mdeg ∈ p.map (·.mdeg) ∨ u.mdeg ∈ q.map (·.mdeg) := by
  unfold Poly.add at h
  induction q generalizing p with
  | nil => cases h; exact ⟨hp, fun u hu => .inl (List.mem_map_of_mem hu)⟩
  | cons t q ih =>
    rw [List.foldlM_cons, bind_eq_ok] at h
    obtain ⟨p', hp', h⟩ := h
    obtain ⟨h1, h2⟩ := ih p' (Poly.addTerm_canonical p t p' hp hp') h
    refine ⟨h1, fun u hu => ?_⟩
    rcases h2 u hu with h | h
    · obtain ⟨v, hv, he⟩ := List.mem_map.mp h
      rcases Poly.addTerm_mdeg p t p' hp' v hv with h | h
      · exact .inl (by rw [← he]; exact h)
      · exact .inr (by rw [List.map_cons, List.mem_cons]; exact .inl (he.symm.trans h))
    · exact .inr (by rw [List.map_cons, List.mem_cons]; exact .inr h)

theorem mapM_neg_mdeg (q r : Poly F) (h : Poly.neg q = .ok r) :
    r.map (·.mdeg) = q.map (·.mdeg) := by
  unfold Poly.neg at h
  induction q generalizing r with
  | nil => cases h; rfl
  | cons t q ih =>
    rw [List.mapM_cons, bind_eq_ok] at h
    obtain ⟨t', ht', h⟩ := h
    rw [bind_eq_ok] at h
    obtain ⟨q', hq', h⟩ := h
    cases h
    rw [List.map_cons, List.map_cons, ih q' hq']
    congr 1
    unfold Term.neg at ht'
    rw [bind_eq_ok] at ht'
    obtain ⟨c, _, ht'⟩ := ht'
    cases ht'; rfl

/-- C94. The same for `p - q`. -/
theorem C94_sub_partial (p q r : Poly F) (hp : p.Canonical) (h : Poly.sub p q = .ok r) :
    r.Canonical ∧ ∀ u ∈ r, u.mdeg ∈ p.map (·.mdeg) ∨ u.mdeg ∈ q.map (·.mdeg) := by
  unfold Poly.sub at h
  rw [bind_eq_ok] at h
  obtain ⟨q', hq', h⟩ := h
  have := C94_add_partial p q' r hp h
  rwa [mapM_neg_mdeg q q' hq'] at this

/-- The terms have valid multidegrees in `n` variables. -/
def Poly.Degs (n : ℕ) (p : Poly F) : Prop := ∀ t ∈ p, t.mdeg.Clean ∧ t.mdeg.InVars (Fin n)

variable {n : ℕ}

theorem Poly.Degs.of_mdeg {p q : Poly F} (hp : p.Degs n) (h : ∀ u ∈ q, u.mdeg ∈ p.map (·.mdeg)) :
    q.Degs n := by
  intro u hu
  obtain ⟨t, ht, he⟩ := List.mem_map.mp (h u hu)
  rw [← he]; exact hp t ht

theorem Poly.add_mdeg (p q r : Poly F) (h : Poly.add p q = .ok r) :
    ∀ u ∈ r, u.mdeg ∈ p.map (·.mdeg) ∨ u.mdeg ∈ q.map (·.mdeg) := by
  unfold Poly.add at h
  induction q generalizing p with
  | nil => cases h; exact fun u hu => .inl (List.mem_map_of_mem hu)
  | cons t q ih =>
    rw [List.foldlM_cons, bind_eq_ok] at h
    obtain ⟨p', hp', h⟩ := h
    intro u hu
    rcases ih p' h u hu with h | h
    · obtain ⟨v, hv, he⟩ := List.mem_map.mp h
      rcases Poly.addTerm_mdeg p t p' hp' v hv with h | h
      · exact .inl (by rw [← he]; exact h)
      · exact .inr (by rw [List.map_cons, List.mem_cons]; exact .inl (he.symm.trans h))
    · exact .inr (by rw [List.map_cons, List.mem_cons]; exact .inr h)

theorem Poly.Degs.sub {p q r : Poly F} (hp : p.Degs n) (hq : q.Degs n)
    (h : Poly.sub p q = .ok r) : r.Degs n := by
  unfold Poly.sub at h
  rw [bind_eq_ok] at h
  obtain ⟨q', hq', h⟩ := h
  intro u hu
  rcases Poly.add_mdeg p q' r h u hu with h | h
  · obtain ⟨t, ht, he⟩ := List.mem_map.mp h
    rw [← he]; exact hp t ht
  · rw [mapM_neg_mdeg q q' hq'] at h
    obtain ⟨t, ht, he⟩ := List.mem_map.mp h
    rw [← he]; exact hq t ht

theorem Poly.Degs.mulTerm (hb : RField.build F = .debug) {p r : Poly F} {t : Term F} (hp : p.Degs n)
    (ht : t.mdeg.Clean ∧ t.mdeg.InVars (Fin n)) (h : Poly.mulTerm p t = .ok r) : r.Degs n := by
  unfold Poly.mulTerm at h
  split at h
  · cases h; intro u hu; simp [Poly.zero, Poly.newUnchecked] at hu
  · clear * - hb hp ht h
    induction p generalizing r with
    | nil => cases h; intro u hu; simp at hu
    | cons s p ih =>
      rw [List.mapM_cons, bind_eq_ok] at h
      obtain ⟨s', hs', h⟩ := h
      rw [bind_eq_ok] at h
      obtain ⟨p', hp', h⟩ := h
      cases h
      intro u hu
      rcases List.mem_cons.mp hu with rfl | hu
      · unfold Term.mul at hs'
        split at hs'
        · cases hs'; exact ⟨MDeg.zero_clean, MDeg.InVars.zero⟩
        · rw [bind_eq_ok] at hs'
          obtain ⟨c, _, hs'⟩ := hs'
          rw [bind_eq_ok, hb] at hs'
          obtain ⟨m, hm, hs'⟩ := hs'
          cases hs'
          have h1 := hp s (by simp)
          have h2 := Spec.get (MDeg.add_spec h1.1 ht.1) hm
          exact ⟨h2.1, h1.2.add ht.2 h2.2⟩
      · exact ih (fun v hv => hp v (by simp [hv])) hp' u hu

theorem tryDiv_degs {s t a : Term F} (hs : s.mdeg.Clean ∧ s.mdeg.InVars (Fin n))
    (ht : t.mdeg.Clean) (h : s.tryDiv t = .ok (some a)) :
    a.mdeg.Clean ∧ a.mdeg.InVars (Fin n) := by
  unfold Term.tryDiv at h
  split at h
  · cases h; exact ⟨MDeg.zero_clean, MDeg.InVars.zero⟩
  · split at h
    · cases h
    · rw [bind_eq_ok] at h
      obtain ⟨c, _, h⟩ := h
      have := MDeg.checkedSub_spec hs.1 ht
      split at h
      · cases h
      · rename_i m hm
        cases h
        rw [hm] at this
        exact ⟨this.2.1, hs.2.of_le fun i => by
          change MDeg.deg m i ≤ _
          rw [this.2.2 i]; omega⟩

theorem tryDiv_none {s t : Term F} (hs : s.mdeg.Clean) (ht : t.mdeg.Clean) (hz : t.isZero = false)
    (h : s.tryDiv t = .ok none) : ∃ i, s.mdeg.deg i < t.mdeg.deg i := by
  unfold Term.tryDiv at h
  split at h
  · cases h
  · rw [if_neg (by simp [hz]), bind_eq_ok] at h
    obtain ⟨c, _, h⟩ := h
    have := MDeg.checkedSub_spec hs ht
    split at h
    · rename_i hm
      rw [hm] at this; exact this
    · cases h

theorem leadingTerm_mem (k : OrdKind) {p : Poly F} (hp : p.Degs n) {t : Term F}
    (h : leadingTerm (k.order .debug) p = .ok (some t)) : t ∈ p ∧ ∀ u ∈ p,
      (k.mathlib n).toSyn (u.mdeg.toF (Fin n)) ≤ (k.mathlib n).toSyn (t.mdeg.toF (Fin n)) :=
  Spec.get (maxBy_spec (E := fun _ => True)
    (fun t : Term F => (k.mathlib n).toSyn (t.mdeg.toF (Fin n))) p fun a ha b hb =>
      (k.lawful n (E := fun _ => True) trivial).cmp _ _ (hp a ha).1 (hp b hb).1 (hp a ha).2 (hp b hb).2
        trivial trivial) h

theorem sort_degs (k : OrdKind) {p r : Poly F} (hp : p.Degs n)
    (h : sortBy (fun s t : Term F => (k.order .debug).cmp s.mdeg t.mdeg) p = .ok r) : r.Perm p ∧
      r.Pairwise fun a b => (k.mathlib n).toSyn (a.mdeg.toF (Fin n)) ≤
        (k.mathlib n).toSyn (b.mdeg.toF (Fin n)) :=
  Spec.get (sortBy_spec (E := fun _ => True)
    (fun t : Term F => (k.mathlib n).toSyn (t.mdeg.toF (Fin n))) p fun a ha b hb =>
      (k.lawful n (E := fun _ => True) trivial).cmp _ _ (hp a ha).1 (hp b hb).1 (hp a ha).2 (hp b hb).2
        trivial trivial) h

/-- What the inner loop of `divide` achieves. -/
def ForPost (n : ℕ) (O : MOrder) (ltF : Term F) (L : List (Poly F × Poly F)) :
    Option (List (Poly F) × Poly F) → Prop
  | none => ∀ x ∈ L, ∀ lt, leadingTerm O x.1 = .ok (some lt) → lt.isZero = false →
      ∃ i, ltF.mdeg.deg i < lt.mdeg.deg i
  | some (qs, f') => qs.length = L.length ∧ Poly.Degs n f'

/-- What the inner loop of `divide` does. -/
theorem divideFor_partial (hb : RField.build F = .debug) (k : OrdKind) {ltF : Term F} {f : Poly F}
    (hlt : ltF.mdeg.Clean ∧ ltF.mdeg.InVars (Fin n)) (hf : f.Degs n) (L : List (Poly F × Poly F))
    (hL : ∀ x ∈ L, x.1.Degs n) (o : Option (List (Poly F) × Poly F))
    (h : divideFor (k.order .debug) ltF f L = .ok o) :
    ForPost n (k.order .debug) ltF L o := by
  induction L generalizing o with
  | nil => cases h; intro x hx; simp at hx
  | cons x L ih =>
    obtain ⟨g, q⟩ := x
    have hg : g.Degs n := hL (g, q) (by simp)
    have ih := ih (fun x hx => hL x (by simp [hx]))
    have next : ∀ o, (do
        match ← divideFor (k.order .debug) ltF f L with
        | none => pure none
        | some (qs, f') => pure (some (q :: qs, f')) : Res (Option (List (Poly F) × Poly F))) = .ok o →
        (∀ lt, leadingTerm (k.order .debug) g = .ok (some lt) → lt.isZero = false →
          ∃ i, ltF.mdeg.deg i < lt.mdeg.deg i) →
        ForPost n (k.order .debug) ltF ((g, q) :: L) o := by
      intro o ho hhead
      rw [bind_eq_ok] at ho
      obtain ⟨o', ho', ho⟩ := ho
      have := ih o' ho'
      rcases o' with _ | ⟨qs, f'⟩
      · cases ho
        intro x hx lt h1 h2
        rcases List.mem_cons.mp hx with rfl | hx
        · exact hhead lt h1 h2
        · exact this x hx lt h1 h2
      · cases ho
        exact ⟨by simp [this.1], this.2⟩
    rw [divideFor, bind_eq_ok] at h
    obtain ⟨ol, hol, h⟩ := h
    rcases ol with _ | ltG
    · exact next o h fun lt hlt _ => by rw [hol] at hlt; cases hlt
    · have hG := leadingTerm_mem k hg hol
      rw [bind_eq_ok] at h
      obtain ⟨oa, hoa, h⟩ := h
      rcases oa with _ | a
      · refine next o h fun lt hlt' hz => ?_
        rw [hol] at hlt'
        cases hlt'
        exact tryDiv_none hlt.1 (hg _ hG.1).1 hz hoa
      · simp only [bind_eq_ok] at h
        obtain ⟨q', _, ag, hag, f', hf', h⟩ := h
        cases h
        have ha := tryDiv_degs hlt (hg _ hG.1).1 hoa
        exact ⟨by simp, hf.sub (hg.mulTerm hb ha hag) hf'⟩

/-- C95. Whatever the coefficient type (in a checked build): if `divide` returns, then no term of the
remainder has a multidegree divisible by the leading multidegree of a divisor (with a nonzero leading
coefficient). -/
theorem C95_remainder_partial (hb : RField.build F = .debug) (k : OrdKind) (f : Poly F) (divs : List (Poly F))
    (hf : f.Degs n) (hd : ∀ g ∈ divs, g.Degs n) (r : Poly F) (qs : List (Poly F))
    (h : divide (k.order .debug) f divs = .ok (r, qs)) :
    qs.length = divs.length ∧ r.Canonical ∧
    ∀ t ∈ r, ∀ g ∈ divs, ∀ lt, leadingTerm (k.order .debug) g = .ok (some lt) → lt.isZero = false →
      ∃ i, t.mdeg.deg i < lt.mdeg.deg i := by
  refine loop_partial (fun s : DivState F => s.f.Degs n ∧ s.quotients.length = divs.length ∧
      s.remainder.Canonical ∧ ∀ t ∈ s.remainder, ∀ g ∈ divs, ∀ lt,
        leadingTerm (k.order .debug) g = .ok (some lt) → lt.isZero = false →
          ∃ i, t.mdeg.deg i < lt.mdeg.deg i)
    (fun x => x.2.length = divs.length ∧ x.1.Canonical ∧ ∀ t ∈ x.1, ∀ g ∈ divs, ∀ lt,
        leadingTerm (k.order .debug) g = .ok (some lt) → lt.isZero = false →
          ∃ i, t.mdeg.deg i < lt.mdeg.deg i) ?_ ?_
    ⟨hf, by simp, ⟨by simp [Poly.zero, Poly.newUnchecked], by simp [Poly.zero, Poly.newUnchecked]⟩,
      by simp [Poly.zero, Poly.newUnchecked]⟩ h
  · rintro s s' ⟨h1, h2, h3, h4⟩ hs
    rw [divideStep, bind_eq_ok] at hs
    obtain ⟨ol, hol, hs⟩ := hs
    rcases ol with _ | ltF
    · cases hs
    · obtain ⟨hm, hmax⟩ := leadingTerm_mem k h1 hol
      rw [bind_eq_ok] at hs
      obtain ⟨o, ho, hs⟩ := hs
      have := divideFor_partial hb k (h1 _ hm) h1 _
        (fun x hx => hd _ (List.of_mem_zip hx).1) o ho
      rcases o with _ | ⟨qs', f'⟩
      · rw [bind_eq_ok] at hs
        obtain ⟨sorted, hso, hs⟩ := hs
        obtain ⟨hp, hpw⟩ := sort_degs k h1 hso
        have hsd : Poly.Degs n sorted := fun t ht => h1 t (hp.mem_iff.mp ht)
        split at hs
        · cases hs; exact ⟨hsd, h2, h3, h4⟩
        · rename_i lt hlast
          rw [bind_eq_ok] at hs
          obtain ⟨r', hr', hs⟩ := hs
          cases hs
          refine ⟨fun t ht => hsd t (List.dropLast_subset _ ht), h2,
            Poly.addTerm_canonical _ _ _ h3 hr', fun t ht g hg lt' hl hz => ?_⟩
          rcases Poly.addTerm_mdeg _ _ _ hr' t ht with h | h
          · obtain ⟨u, hu, he⟩ := List.mem_map.mp h
            rw [← he]; exact h4 u hu g hg lt' hl hz
          · have hltm : lt ∈ s.f := hp.mem_iff.mp (List.mem_of_getLast? hlast)
            have hge : (k.mathlib n).toSyn (ltF.mdeg.toF (Fin n)) ≤
                (k.mathlib n).toSyn (lt.mdeg.toF (Fin n)) := by
              obtain ⟨l', hl'⟩ := List.getLast?_eq_some_iff.mp hlast
              rw [hl', List.pairwise_append] at hpw
              have hmem := hp.mem_iff.mpr hm
              rw [hl', List.mem_append] at hmem
              rcases hmem with h | h
              · exact hpw.2.2 _ h lt (by simp)
              · rw [List.mem_singleton.mp h]
            have heq : lt.mdeg = ltF.mdeg :=
              MDeg.toF_inj (h1 _ hltm).1 (h1 _ hm).1 (h1 _ hltm).2 (h1 _ hm).2
                ((k.mathlib n).toSyn.injective (le_antisymm (hmax lt hltm) hge))
            rw [h, heq]
            obtain ⟨i, hi, hgi⟩ := List.getElem_of_mem hg
            refine this (g, s.quotients[i]'(by omega)) ?_ lt' hl hz
            rw [List.mem_iff_getElem]
            exact ⟨i, by simp; omega, by simp [hgi]⟩
      · cases hs
        refine ⟨this.2, ?_, h3, h4⟩
        rw [this.1, List.length_zip, h2, min_self]
  · rintro s r ⟨h1, h2, h3, h4⟩ hs
    rw [divideStep, bind_eq_ok] at hs
    obtain ⟨ol, hol, hs⟩ := hs
    rcases ol with _ | ltF
    · cases hs; exact ⟨h2, h3, h4⟩
    · rw [bind_eq_ok] at hs
      obtain ⟨o, ho, hs⟩ := hs
      rcases o with _ | ⟨qs', f'⟩
      · rw [bind_eq_ok] at hs
        obtain ⟨sorted, hso, hs⟩ := hs
        split at hs
        · cases hs
        · rw [bind_eq_ok] at hs
          obtain ⟨r', hr', hs⟩ := hs
          cases hs
      · cases hs

end

namespace Flt
open Fmt
variable [Fmt]

set_option exponentiation.threshold 3000

deriving instance DecidableEq for DivState

/-- The smallest positive number times `x`. -/
def tinyX : Poly Flt := [⟨fin false 1, [1]⟩]

/-- `49 x` -/
def xMisfit : Poly Flt := [⟨misfit, [1]⟩]

/-- C95. `divide` need not end over `f32` and `f64`: the quotient of the leading coefficients can underflow to
zero, and then the dividend does not change. -/
theorem C95_refuted (b : Build) (k : OrdKind) :
    letI := field b (fun _ _ => nan)
    divide (k.order b) tinyX [xMisfit] = .diverge := by
  let _ := field b (fun _ _ => nan)
  have hstep : divideStep (k.order b) [xMisfit] ⟨tinyX, [[]], []⟩ = .ok (.inl ⟨tinyX, [[]], []⟩) := by
    cases b <;> cases k <;> fmt_decide
  change Res.loop (divideStep (k.order b) [xMisfit]) ⟨tinyX, [[]], []⟩ = .diverge
  by_contra hd
  obtain ⟨n, hn⟩ := iter_of_loop_ne_diverge hd
  rw [← hn] at hd
  clear hn
  induction n with
  | zero => exact hd rfl
  | succ n ih =>
    rw [iter, hstep, bind_ok] at hd
    exact ih hd

example : letI := field .debug (fun _ _ => nan)
    (tinyX.Degs 1 ∧ xMisfit.Degs 1) ∧ tinyX.Canonical ∧ xMisfit.Canonical := by
  let _ := field .debug (fun _ _ => nan)
  have h : MDeg.Clean [1] ∧ MDeg.InVars (Fin 1) [1] := by
    have : MDeg.Clean [1] := ⟨by simp, by simp⟩
    exact ⟨this, (MDeg.inVars_fin this).mpr (by simp)⟩
  refine ⟨⟨?_, ?_⟩, ⟨?_, by simp [tinyX]⟩, ⟨?_, by simp [xMisfit]⟩⟩
  · intro t ht; rw [List.mem_singleton.mp ht]; exact h
  · intro t ht; rw [List.mem_singleton.mp ht]; exact h
  · intro t ht; rw [List.mem_singleton.mp ht]; fmt_decide
  · intro t ht; rw [List.mem_singleton.mp ht]; fmt_decide

/-- C94. A product of polynomials without zero coefficients can have a zero coefficient over `f32` and `f64`. -/
theorem C94_refuted :
    ¬ ∀ (b : Build) (p q r : Poly Flt), letI := field b (fun _ _ => nan);
      p.Canonical → q.Canonical → Poly.mul p q = .ok r → r.Canonical := by
  intro h
  let _ := field .debug (fun _ _ => nan)
  have hc : tinyX.Canonical := ⟨by
    intro t ht; rw [List.mem_singleton.mp ht]; fmt_decide, by simp [tinyX]⟩
  have := h .debug tinyX tinyX [⟨fin false 0, [2]⟩] hc hc (by fmt_decide)
  have := this.ne ⟨fin false 0, [2]⟩ (by simp)
  revert this
  fmt_decide

/-! ## C96 Approximate equality of matrices -/

theorem round_unit (s : Bool) (n : ℕ) (hn : (fin s n).Valid) (t : Bool) :
    round t (n * unit) unit = fin t n := by
  have h : roundNat (n * unit) unit = n := by
    have h1 := roundNat_mono (a := n * unit) (b := unit) (a' := n) (b' := 1) unit_pos one_pos
      (by rw [mul_one])
    have h2 := roundNat_mono (a := n) (b := 1) (a' := n * unit) (b' := unit) one_pos unit_pos
      (by rw [mul_one])
    rw [hn.1] at h1 h2
    exact le_antisymm h1 h2
  unfold round
  dsimp only
  rw [h, if_pos hn.2]

theorem minus_one : sub zero one = fin true unit := by fmt_decide

theorem mul_minus_one (x : Flt) (hx : x.Valid) : mul x (sub zero one) = neg x := by
  rw [minus_one]
  cases x with
  | nan => rfl
  | inf s => simp only [mul, neg, if_neg unit_pos.ne', Bool.xor_true]
  | fin s n => rw [mul_fin, round_unit s n hx]; simp only [neg, Bool.xor_true]

/-- Not a negative number. -/
def NonNeg : Flt → Prop
  | nan => True
  | inf s => s = false
  | fin s n => s = false ∧ roundNat n 1 = n

theorem nonNeg_square (x : Flt) : NonNeg (mul x x) := by
  cases x with
  | nan => trivial
  | inf s => cases s <;> rfl
  | fin s n =>
    rw [mul_fin, Bool.xor_self]
    unfold round
    dsimp only
    split
    · exact ⟨rfl, roundNat_of_repr (repr_roundNat _ unit_pos)⟩
    · rfl

theorem nonNeg_add {x y : Flt} (hx : NonNeg x) (hy : NonNeg y) :
    NonNeg (add x y) ∧ ∀ s k, add x y = fin s k →
      (∃ a, x = fin false a ∧ a ≤ k) ∧ ∃ b, y = fin false b ∧ b ≤ k := by
  cases x with
  | nan => exact ⟨by cases y <;> trivial, fun s k h => by cases y <;> cases h⟩
  | inf s =>
    cases hx
    cases y with
    | nan => exact ⟨trivial, fun s k h => by cases h⟩
    | inf t => cases hy; exact ⟨rfl, fun s k h => by simp [add] at h⟩
    | fin t m => exact ⟨rfl, fun s k h => by simp [add] at h⟩
  | fin s n =>
    cases hx.1
    cases y with
    | nan => exact ⟨trivial, fun s k h => by cases h⟩
    | inf t => cases hy; exact ⟨rfl, fun s k h => by simp [add] at h⟩
    | fin t m =>
      cases hy.1
      have e : add (fin false n) (fin false m) = if n + m = 0 then fin false 0 else
          round false (n + m) 1 := by
        rw [add_fin]
        unfold ofUnits units
        simp only [Bool.false_eq_true, if_false, Bool.and_self]
        by_cases h : n + m = 0
        · rw [if_pos (by omega), if_pos h]
        · rw [if_neg (by omega), if_neg h]
          have h1 : decide ((n : ℤ) + m < 0) = false := by simp; omega
          have h2 : ((n : ℤ) + m).natAbs = n + m := by omega
          rw [h1, h2]
      rw [e]
      by_cases h : n + m = 0
      · rw [if_pos h]
        refine ⟨⟨rfl, roundNat_zero⟩, fun s k hk => ?_⟩
        cases hk
        exact ⟨⟨n, rfl, by omega⟩, ⟨m, rfl, by omega⟩⟩
      · rw [if_neg h]
        unfold round
        dsimp only
        split
        · refine ⟨⟨rfl, roundNat_of_repr (repr_roundNat _ one_pos)⟩, fun s k hk => ?_⟩
          cases hk
          have h1 := roundNat_mono (a := n) (b := 1) (a' := n + m) (b' := 1) one_pos one_pos (by omega)
          have h2 := roundNat_mono (a := m) (b := 1) (a' := n + m) (b' := 1) one_pos one_pos (by omega)
          rw [hx.2] at h1
          rw [hy.2] at h2
          exact ⟨⟨n, rfl, h1⟩, ⟨m, rfl, h2⟩⟩
        · exact ⟨rfl, fun s k hk => by cases hk⟩

theorem norm_bound (l : List Flt) (acc : Flt) (hacc : NonNeg acc) (s : Bool) (k : ℕ)
    (h : l.foldl (fun acc d => add acc (mul d d)) acc = fin s k) :
    (∃ a, acc = fin false a ∧ a ≤ k) ∧ ∀ d ∈ l, ∃ j, mul d d = fin false j ∧ j ≤ k := by
  induction l generalizing acc with
  | nil =>
    simp only [List.foldl_nil] at h
    subst h
    exact ⟨⟨k, by rw [hacc.1], le_refl k⟩, by simp⟩
  | cons d l ih =>
    rw [List.foldl_cons] at h
    obtain ⟨h1, h2⟩ := nonNeg_add hacc (nonNeg_square d)
    obtain ⟨⟨a, ha, hak⟩, h3⟩ := ih _ h1 h
    obtain ⟨⟨a', ha', hak'⟩, ⟨j, hj, hjk⟩⟩ := h2 _ _ ha
    refine ⟨⟨a', ha', hak'.trans hak⟩, fun e he => ?_⟩
    rcases List.mem_cons.mp he with rfl | he
    · exact ⟨j, hj, hjk.trans hak⟩
    · exact h3 e he

/-- The number of units of `2⁻²⁶` for `f64` and of `2⁻¹¹` for `f32`. -/
@[irreducible] def rootUnits : ℕ := 2 ^ (unitExp - sig / 2)

theorem root_sq : epsUnits * unit ≤ rootUnits * rootUnits := by fmt_decide

theorem root_repr : roundNat rootUnits 1 = rootUnits := by fmt_decide

theorem root_value : (rootUnits : ℚ) / unit = 1 / 2 ^ (sig / 2) := by
  have h : rootUnits * 2 ^ (sig / 2) = unit := by fmt_decide
  have hu := unit_posQ
  rw [div_eq_div_iff hu.ne' (by positivity), one_mul, ← h, Nat.cast_mul, Nat.cast_pow, Nat.cast_ofNat]

theorem square_small (x : Flt) (j : ℕ) (h : mul x x = fin false j) (hj : j < epsUnits) :
    ∃ s n, x = fin s n ∧ n < rootUnits := by
  cases x with
  | nan => cases h
  | inf s => cases h
  | fin s n =>
    refine ⟨s, n, rfl, ?_⟩
    by_contra hn
    push Not at hn
    rw [mul_fin] at h
    unfold round at h
    dsimp only at h
    split at h
    · injection h with _ h
      subst h
      have h1 : rootUnits * rootUnits ≤ n * n := Nat.mul_le_mul hn hn
      have h1 := root_sq.trans h1
      have h2 := roundNat_mono (a := epsUnits) (b := 1) (a' := n * n) (b' := unit) one_pos unit_pos
        (by rw [mul_one]; exact h1)
      have h3 : roundNat epsUnits 1 = epsUnits := by fmt_decide
      omega
    · cases h

theorem sub_small (x y : Flt) (s : Bool) (n : ℕ) (h : sub x y = fin s n) (hn : n < rootUnits) :
    ∃ a b, x.value = some a ∧ y.value = some b ∧ |a - b| < 1 / 2 ^ (sig / 2) := by
  cases x with
  | nan => cases y <;> cases h
  | inf s =>
    cases y with
    | nan => cases h
    | inf t => simp only [sub, neg, add] at h; split at h <;> cases h
    | fin t m => cases h
  | fin u k =>
    cases y with
    | nan => cases h
    | inf t => cases h
    | fin t m =>
      refine ⟨_, _, rfl, rfl, ?_⟩
      have hneg : units (!t) m = - units t m := by unfold units; cases t <;> simp
      rw [sub, neg, add_fin, hneg, ← Int.sub_eq_add_neg] at h
      have hlt : (units u k - units t m).natAbs < rootUnits := by
        unfold ofUnits at h
        split at h
        · rename_i h0
          rw [h0]
          have := hn
          omega
        · by_contra hc
          push Not at hc
          unfold round at h
          dsimp only at h
          split at h
          · cases h
            have := roundNat_mono (a := rootUnits) (b := 1) (a' := (units u k - units t m).natAbs)
              (b' := 1) one_pos one_pos (by omega)
            rw [root_repr] at this
            omega
          · cases h
      rw [← root_value, ← sub_div, abs_div, abs_of_pos unit_posQ]
      refine div_lt_div_of_pos_right ?_ unit_posQ
      have : |((units u k - units t m : ℤ) : ℚ)| < rootUnits := by
        rw [← Int.cast_abs, Int.abs_eq_natAbs]
        exact_mod_cast hlt
      push_cast at this
      exact this

omit [Fmt] in
theorem mapM_ok {α β : Type} (f : α → β) (l : List α) :
    l.mapM (fun x => (Res.ok (f x) : Res β)) = .ok (l.map f) := by
  induction l with
  | nil => rfl
  | cons a l ih => rw [List.mapM_cons, bind_ok, ih]; rfl

omit [Fmt] in
theorem foldlM_ok {α β : Type} (f : α → β → α) (l : List β) (a : α) :
    l.foldlM (fun a x => (Res.ok (f a x) : Res α)) a = .ok (l.foldl f a) := by
  induction l generalizing a with
  | nil => rfl
  | cons b l ih => rw [List.foldlM_cons, bind_ok, ih]; rfl

/-- C96. What `epsilon_equals` on matrices of `f32` and `f64` computes: the sum of the squares of the rounded
differences is compared with `EPSILON`. -/
theorem C96_run (b : Build) (powi : Flt → Int → Flt) (M N : Mat Flt)
    (hN : ∀ x ∈ N.entries, x.Valid) (hr : M.rows = N.rows) (hc : M.cols = N.cols) :
    letI := field b powi
    M.epsilonEquals N = .ok (epsilonEquals
      ((List.zipWith sub M.entries N.entries).foldl (fun acc d => add acc (mul d d)) zero) zero) := by
  let _ := field b powi
  unfold Mat.epsilonEquals Mat.smul
  change (do
    let o ← (do
      let entries ← N.entries.mapM fun x => (Res.ok (mul x (sub zero one)) : Res Flt)
      pure (Mat.new N.rows N.cols entries))
    let d ← M.add o
    let x ← d.frobeniusNorm
    Res.ok (epsilonEquals x zero)) = _
  rw [mapM_ok, bind_ok, pure_eq, bind_ok]
  unfold Mat.add
  rw [if_neg (by simp [Mat.new, hr, hc])]
  change (do
    let d ← (do
      let entries ← (M.entries.zip (N.entries.map fun x => mul x (sub zero one))).mapM
        fun x : Flt × Flt => (Res.ok (add x.1 x.2) : Res Flt)
      pure (Mat.new M.rows M.cols entries))
    let x ← d.frobeniusNorm
    Res.ok (epsilonEquals x zero)) = _
  rw [mapM_ok, bind_ok, pure_eq, bind_ok]
  have he : (M.entries.zip (N.entries.map fun x => mul x (sub zero one))).map
      (fun x : Flt × Flt => add x.1 x.2) = List.zipWith sub M.entries N.entries := by
    rw [List.map_congr_left (f := fun x => mul x (sub zero one)) (g := neg)
      fun x hx => mul_minus_one x (hN x hx)]
    generalize M.entries = l
    generalize N.entries = l'
    induction l generalizing l' with
    | nil => rfl
    | cons a l ih =>
      cases l' with
      | nil => rfl
      | cons b l' => simp only [List.map_cons, List.zip_cons_cons, List.zipWith_cons_cons, ih]; rfl
  rw [he]
  change (do
    let x ← (List.zipWith sub M.entries N.entries).foldlM
      (fun acc d => (Res.ok (add acc (mul d d)) : Res Flt)) zero
    Res.ok (epsilonEquals x zero)) = _
  rw [foldlM_ok, bind_ok]

/-- C96. If two matrices of `f32` and `f64` of the same shape are approximately equal, all entries are finite
and corresponding entries differ by less than `2⁻²⁶`. -/
theorem C96_partial (b : Build) (powi : Flt → Int → Flt) (M N : Mat Flt)
    (hN : ∀ x ∈ N.entries, x.Valid) (hr : M.rows = N.rows) (hc : M.cols = N.cols) :
    letI := field b powi
    M.epsilonEquals N = .ok true → ∀ (i : ℕ) x y, M.entries[i]? = some x → N.entries[i]? = some y →
      ∃ p q, x.value = some p ∧ y.value = some q ∧ |p - q| < 1 / 2 ^ (sig / 2) := by
  let _ := field b powi
  intro h i x y hx hy
  rw [C96_run b powi M N hN hr hc] at h
  have h := Res.ok.inj h
  have key : ∀ (z : Flt), epsilonEquals z zero = true → NonNeg z → ∃ k, z = fin false k ∧ k < epsUnits := by
    intro z hz hn
    cases z with
    | nan => cases hz
    | inf s => cases hn; cases hz
    | fin s k =>
      refine ⟨k, by rw [hn.1], ?_⟩
      rw [zero, epsilonEquals_fin, ← roundNat_lt_eps] at hz
      have : (units s k - units false 0).natAbs = k := by unfold units; cases s <;> simp
      rwa [this, hn.2] at hz
  have hnn : ∀ (l : List Flt) (acc : Flt), NonNeg acc →
      NonNeg (l.foldl (fun acc d => add acc (mul d d)) acc) := by
    intro l
    induction l with
    | nil => exact fun acc h => h
    | cons d l ih => exact fun acc h => ih _ (nonNeg_add h (nonNeg_square d)).1
  have hz : NonNeg zero := ⟨rfl, roundNat_zero⟩
  obtain ⟨k, hk, hke⟩ := key _ h (hnn _ _ hz)
  obtain ⟨_, h2⟩ := norm_bound _ _ hz _ _ hk
  have hm : sub x y ∈ List.zipWith sub M.entries N.entries := by
    refine List.mem_of_getElem? (i := i) ?_
    rw [List.getElem?_zipWith, hx, hy]
  obtain ⟨j, hj, hjk⟩ := h2 _ hm
  obtain ⟨s, n, hs, hn⟩ := square_small _ j hj (by omega)
  exact sub_small x y s n hs hn

/-- C96. Approximate equality of matrices does not imply that of the entries: the `1 × 1` matrices with
the entries `2^-(sig / 2 + 1)` and `0` are approximately equal, since the square of the difference is compared
with `EPSILON`. -/
theorem C96_refuted :
    ¬ ∀ (b : Build) (powi : Flt → Int → Flt) (M N : Mat Flt), letI := field b powi;
      M.rows = N.rows → M.cols = N.cols → M.epsilonEquals N = .ok true →
        ∀ (i : ℕ) x y, M.entries[i]? = some x → N.entries[i]? = some y → epsilonEquals x y = true := by
  intro h
  have := h .debug (fun _ _ => nan) ⟨[fin false (2 ^ (unitExp - sig / 2 - 1))], 1, 1⟩ ⟨[zero], 1, 1⟩ rfl rfl
    (by fmt_decide) 0 (fin false (2 ^ (unitExp - sig / 2 - 1))) zero rfl rfl
  revert this
  fmt_decide

/-- C96. An infinite entry makes a matrix differ from itself. -/
theorem C96_inf (b : Build) : letI := field b (fun _ _ => nan)
    (⟨[inf false], 1, 1⟩ : Mat Flt).epsilonEquals ⟨[inf false], 1, 1⟩ = .ok false := by
  cases b <;> fmt_decide

example : letI := field .debug (fun _ _ => nan)
    (⟨[one, misfit], 1, 2⟩ : Mat Flt).epsilonEquals ⟨[one, misfit], 1, 2⟩ = .ok true ∧
    (⟨[one, misfit], 1, 2⟩ : Mat Flt).epsilonEquals ⟨[one, one], 1, 2⟩ = .ok false := by
  constructor <;> fmt_decide

end Flt
end Verif
