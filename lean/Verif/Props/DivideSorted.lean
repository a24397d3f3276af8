import Verif.Props.Ideal
import Verif.Props.F64Poly
import Verif.Proofs.Run

/-!
# Remainders and quotients are sorted for every coefficient type (C229)
-/

namespace Verif
open Res Computer

section
variable {F : Type} [RField F] {n : ℕ}

/-- The place of a term in the order. -/
noncomputable abbrev Term.syn (m : MonomialOrder (Fin n)) (t : Term F) : m.syn := m.toSyn (t.mdeg.toF (Fin n))

/-- The terms are in strictly descending order. -/
def Poly.Desc (m : MonomialOrder (Fin n)) (p : Poly F) : Prop := p.Pairwise fun s t => t.syn m < s.syn m

omit [RField F] in
theorem Term.syn_inj {m : MonomialOrder (Fin n)} {s t : Term F} (hs : s.mdeg.Clean ∧ s.mdeg.InVars (Fin n))
    (ht : t.mdeg.Clean ∧ t.mdeg.InVars (Fin n)) (h : s.syn m = t.syn m) : s.mdeg = t.mdeg :=
  MDeg.toF_inj hs.1 ht.1 hs.2 ht.2 (m.toSyn.injective h)

theorem addNonzeroTerm_desc {m : MonomialOrder (Fin n)} {p r : Poly F} {t : Term F} (hp : p.Degs n)
    (ht : t.mdeg.Clean ∧ t.mdeg.InVars (Fin n)) (hd : p.Desc m) (hle : ∀ u ∈ p, t.syn m ≤ u.syn m)
    (h : Poly.addNonzeroTerm p t = .ok r) : r.Desc m := by
  induction p generalizing r with
  | nil => cases h; exact List.pairwise_singleton _ _
  | cons s ss ih =>
    obtain ⟨hd1, hd2⟩ := List.pairwise_cons.mp hd
    rw [Poly.addNonzeroTerm] at h
    split at h
    · rw [bind_eq_ok] at h
      obtain ⟨c, _, h⟩ := h
      dsimp only at h
      split at h
      · cases h; exact hd2
      · cases h
        exact List.pairwise_cons.mpr ⟨hd1, hd2⟩
    · rename_i hne
      rw [bind_eq_ok] at h
      obtain ⟨ts, hts, h⟩ := h
      cases h
      refine List.pairwise_cons.mpr ⟨fun u hu => ?_,
        ih (fun v hv => hp v (by simp [hv])) hd2 (fun v hv => hle v (by simp [hv])) hts⟩
      rcases Poly.addNonzeroTerm_mdeg ss t ts hts u hu with h | h
      · obtain ⟨v, hv, he⟩ := List.mem_map.mp h
        have := hd1 v hv
        unfold Term.syn at this ⊢
        rwa [← he]
      · have h1 : t.syn m < s.syn m := lt_of_le_of_ne (hle s (by simp)) fun e =>
          hne (Term.syn_inj (hp s (by simp)) ht e.symm)
        unfold Term.syn at h1 ⊢
        rwa [h]

/-- A term with a new multidegree is appended. -/
theorem addTerm_append {p : Poly F} {t : Term F} (hz : t.isZero = false) (h : ∀ u ∈ p, u.mdeg ≠ t.mdeg) :
    Poly.addTerm p t = .ok (p ++ [t]) := by
  have key : ∀ p : Poly F, (∀ u ∈ p, u.mdeg ≠ t.mdeg) → Poly.addNonzeroTerm p t = .ok (p ++ [t]) := by
    intro p
    induction p with
    | nil => intro _; rfl
    | cons s p ih =>
      intro h
      rw [Poly.addNonzeroTerm, if_neg (h s (by simp)), ih fun u hu => h u (by simp [hu])]
      rfl
  unfold Poly.addTerm
  rcases p with _ | ⟨s, p⟩
  · simp [Poly.isZero, Poly.ofTerm, hz, Poly.termUnchecked, Poly.newUnchecked]
  · rw [if_neg (by simp [Poly.isZero]), if_neg (by simp [hz])]
    exact key _ h

/-- Adding a term that is not above the others keeps the terms sorted. -/
theorem addTerm_desc {m : MonomialOrder (Fin n)} {p r : Poly F} {t : Term F} (hp : p.Degs n)
    (ht : t.mdeg.Clean ∧ t.mdeg.InVars (Fin n)) (hd : p.Desc m) (hle : ∀ u ∈ p, t.syn m ≤ u.syn m)
    (h : Poly.addTerm p t = .ok r) : r.Desc m := by
  unfold Poly.addTerm at h
  split at h
  · cases h
    unfold Poly.ofTerm
    split
    · exact List.Pairwise.nil
    · exact List.pairwise_singleton _ _
  · split at h
    · cases h; exact hd
    · exact addNonzeroTerm_desc hp ht hd hle h

theorem addTerm_degs {p r : Poly F} {t : Term F} (hp : p.Degs n)
    (ht : t.mdeg.Clean ∧ t.mdeg.InVars (Fin n)) (h : Poly.addTerm p t = .ok r) : r.Degs n := by
  intro u hu
  rcases Poly.addTerm_mdeg p t r h u hu with h | h
  · obtain ⟨v, hv, he⟩ := List.mem_map.mp h
    rw [← he]; exact hp v hv
  · rw [h]; exact ht

/-- The multidegrees of a product with a term. -/
theorem mulTerm_mdeg (hb : RField.build F = .debug) {p r : Poly F} {t : Term F} (hp : p.Degs n)
    (ht : t.mdeg.Clean ∧ t.mdeg.InVars (Fin n)) (h : Poly.mulTerm p t = .ok r) :
    ∀ u ∈ r, u.mdeg.toF (Fin n) = 0 ∨ ∃ s ∈ p, u.mdeg.toF (Fin n) = s.mdeg.toF (Fin n) + t.mdeg.toF (Fin n) := by
  unfold Poly.mulTerm at h
  split at h
  · cases h; intro u hu; simp [Poly.zero, Poly.newUnchecked] at hu
  · clear * - hb hp ht h
    induction p generalizing r with
    | nil => cases h; intro u hu; simp at hu
    | cons s p ih =>
      rw [List.mapM_cons, bind_eq_ok] at h
      obtain ⟨s', hs', h⟩ := h
      rw [bind_eq_ok] at h
      obtain ⟨p', hp', h⟩ := h
      cases h
      intro u hu
      rcases List.mem_cons.mp hu with rfl | hu
      · unfold Term.mul at hs'
        split at hs'
        · cases hs'; exact .inl MDeg.toF_zero
        · rw [bind_eq_ok] at hs'
          obtain ⟨c, _, hs'⟩ := hs'
          rw [bind_eq_ok, hb] at hs'
          obtain ⟨m, hm, hs'⟩ := hs'
          cases hs'
          have h2 := Spec.get (MDeg.add_spec (hp s (by simp)).1 ht.1) hm
          exact .inr ⟨s, by simp, MDeg.toF_eq_add h2.2⟩
      · rcases ih (fun v hv => hp v (by simp [hv])) hp' u hu with h | ⟨v, hv, h⟩
        · exact .inl h
        · exact .inr ⟨v, by simp [hv], h⟩

theorem tryDiv_toF {s t a : Term F} (hs : s.mdeg.Clean) (ht : t.mdeg.Clean) (hz : s.isZero = false)
    (h : s.tryDiv t = .ok (some a)) :
    s.mdeg.toF (Fin n) = a.mdeg.toF (Fin n) + t.mdeg.toF (Fin n) := by
  unfold Term.tryDiv at h
  rw [if_neg (by simp [hz])] at h
  split at h
  · cases h
  · rw [bind_eq_ok] at h
    obtain ⟨c, _, h⟩ := h
    have := MDeg.checkedSub_spec hs ht
    split at h
    · cases h
    · rename_i m hm
      cases h
      rw [hm] at this
      exact MDeg.toF_eq_add fun i => by
        change _ = MDeg.deg m i + _
        have h1 := this.1 i
        have h2 := this.2.2 i
        omega

/-- What the inner loop of `divide` does to the quotients: one of them gets a term. -/
def QuoStep (n : ℕ) (O : MOrder) (ltF : Term F) (x : Poly F × Poly F) (q : Poly F) : Prop :=
  q = x.2 ∨ ∃ lt a, leadingTerm O x.1 = .ok (some lt) ∧ (a.mdeg.Clean ∧ a.mdeg.InVars (Fin n)) ∧
    ltF.mdeg.toF (Fin n) = a.mdeg.toF (Fin n) + lt.mdeg.toF (Fin n) ∧ Poly.addTerm x.2 a = .ok q

theorem divideFor_sorted (hb : RField.build F = .debug) (k : OrdKind) {ltF : Term F} {f : Poly F}
    (hlt : ltF.mdeg.Clean ∧ ltF.mdeg.InVars (Fin n)) (hz : ltF.isZero = false) (hf : f.Degs n) (hc : f.Canonical)
    (hmax : ∀ t ∈ f, t.syn (k.mathlib n) ≤ ltF.syn (k.mathlib n))
    (L : List (Poly F × Poly F)) (hL : ∀ x ∈ L, x.1.Degs n) {qs : List (Poly F)} {f' : Poly F}
    (h : divideFor (k.order .debug) ltF f L = .ok (some (qs, f'))) :
    f'.Degs n ∧ f'.Canonical ∧ (∀ t ∈ f', t.syn (k.mathlib n) ≤ ltF.syn (k.mathlib n)) ∧
      List.Forall₂ (QuoStep n (k.order .debug) ltF) L qs := by
  induction L generalizing qs with
  | nil => cases h
  | cons x L ih =>
    obtain ⟨g, q⟩ := x
    have hg : g.Degs n := hL (g, q) (by simp)
    have next : ∀ c : Option (List (Poly F) × Poly F) → Res (Option (List (Poly F) × Poly F)),
        c none = pure none → (∀ qs f', c (some (qs, f')) = pure (some (q :: qs, f'))) →
        divideFor (k.order .debug) ltF f L >>= c = .ok (some (qs, f')) →
        f'.Degs n ∧ f'.Canonical ∧ (∀ t ∈ f', t.syn (k.mathlib n) ≤ ltF.syn (k.mathlib n)) ∧
          List.Forall₂ (QuoStep n (k.order .debug) ltF) ((g, q) :: L) qs := by
      intro c hc1 hc2 ho
      rw [bind_eq_ok] at ho
      obtain ⟨o', ho', ho⟩ := ho
      rcases o' with _ | ⟨qs₁, f₁⟩
      · rw [hc1] at ho; cases ho
      · rw [hc2] at ho
        cases ho
        obtain ⟨i1, i2, i3, i4⟩ := ih (fun x hx => hL x (by simp [hx])) ho'
        exact ⟨i1, i2, i3, .cons (.inl rfl) i4⟩
    rw [divideFor, bind_eq_ok] at h
    obtain ⟨ol, hol, h⟩ := h
    rcases ol with _ | ltG
    · exact next _ (by rfl) (by intros; rfl) h
    · have hG := leadingTerm_mem k hg hol
      rw [bind_eq_ok] at h
      obtain ⟨oa, hoa, h⟩ := h
      rcases oa with _ | a
      · exact next _ (by rfl) (by intros; rfl) h
      · clear next
        simp only [bind_eq_ok] at h
        obtain ⟨q', h1, ag, h2, f'', h3, h⟩ := h
        cases h
        have ha := tryDiv_degs hlt (hg _ hG.1).1 hoa
        have hadd := tryDiv_toF (n := n) hlt.1 (hg _ hG.1).1 hz hoa
        have hag := hg.mulTerm hb ha h2
        obtain ⟨s1, s2⟩ := C94_sub_partial _ _ _ hc h3
        refine ⟨hf.sub hag h3, s1, fun t ht => ?_, .cons (.inr ⟨ltG, a, hol, ha, hadd, h1⟩) ?_⟩
        · rcases s2 t ht with h | h
          · obtain ⟨u, hu, he⟩ := List.mem_map.mp h
            have := hmax u hu
            unfold Term.syn at this ⊢
            rwa [← he]
          · obtain ⟨u, hu, he⟩ := List.mem_map.mp h
            unfold Term.syn
            rw [← he]
            rcases mulTerm_mdeg hb hg ha h2 u hu with h | ⟨s, hs, h⟩
            · rw [h, map_zero]; exact (k.mathlib n).zero_le _
            · rw [h, hadd, map_add, map_add, add_comm ((k.mathlib n).toSyn (a.mdeg.toF (Fin n)))]
              exact add_le_add_left (hG.2 s hs) _
        · clear * -
          induction L with
          | nil => exact .nil
          | cons x L ih => exact .cons (.inl rfl) ih

/-- The invariant of the loop of `divide`. -/
structure SortInv (k : OrdKind) (n : ℕ) (B : (k.mathlib n).syn) (divs : List (Poly F)) (s : DivState F) : Prop where
  degs : s.f.Degs n
  canon : s.f.Canonical
  le : ∀ t ∈ s.f, t.syn (k.mathlib n) ≤ B
  rdegs : s.remainder.Degs n
  desc : s.remainder.Desc (k.mathlib n)
  rle : ∀ t ∈ s.remainder, t.syn (k.mathlib n) ≤ B
  above : ∀ u ∈ s.remainder, ∀ t ∈ s.f, t.syn (k.mathlib n) < u.syn (k.mathlib n)
  quo : List.Forall₂ (fun g q => Poly.Degs n q ∧ Poly.Desc (k.mathlib n) q ∧
    ∀ lt, leadingTerm (k.order .debug) g = .ok (some lt) → ∀ a ∈ q,
      (k.mathlib n).toSyn (a.mdeg.toF (Fin n) + lt.mdeg.toF (Fin n)) ≤ B ∧
      ∀ t ∈ s.f, t.syn (k.mathlib n) ≤ (k.mathlib n).toSyn (a.mdeg.toF (Fin n) + lt.mdeg.toF (Fin n))) divs s.quotients

theorem forall₂_of_zip {α β γ : Type} {R : α × β → γ → Prop} {S : α → β → Prop} {T : α → γ → Prop}
    (hRS : ∀ a b c, R (a, b) c → S a b → T a c) : ∀ {l₁ : List α} {l₂ : List β} {l₃ : List γ},
    List.Forall₂ R (l₁.zip l₂) l₃ → List.Forall₂ S l₁ l₂ → List.Forall₂ T l₁ l₃
  | _, _, _, h, .nil => by cases h; exact .nil
  | _, _, _, h, .cons h1 h2 => by
    rw [List.zip_cons_cons] at h
    cases h with
    | cons h3 h4 => exact .cons (hRS _ _ _ h3 h1) (forall₂_of_zip hRS h4 h2)

theorem divideStep_sorted (hb : RField.build F = .debug) (k : OrdKind) {B : (k.mathlib n).syn} {divs : List (Poly F)}
    (hd : ∀ g ∈ divs, g.Degs n) {s s' : DivState F} (hs : SortInv k n B divs s)
    (h : divideStep (k.order .debug) divs s = .ok (.inl s')) : SortInv k n B divs s' := by
  rw [divideStep, bind_eq_ok] at h
  obtain ⟨ol, hol, h⟩ := h
  rcases ol with _ | ltF
  · cases h
  · obtain ⟨hm, hmax⟩ := leadingTerm_mem (n := n) k hs.degs hol
    rw [bind_eq_ok] at h
    obtain ⟨o, ho, h⟩ := h
    rcases o with _ | ⟨qs', f'⟩
    · rw [bind_eq_ok] at h
      obtain ⟨sorted, hso, h⟩ := h
      obtain ⟨hp, hpw⟩ := sort_degs (n := n) k hs.degs hso
      split at h
      · rename_i hlast
        rw [List.getLast?_eq_none_iff] at hlast
        subst hlast
        have := hp.symm.eq_nil
        rw [this] at hm
        simp at hm
      · rename_i lt hlast
        obtain ⟨l', rfl⟩ := List.getLast?_eq_some_iff.mp hlast
        rw [bind_eq_ok] at h
        obtain ⟨r', hr', h⟩ := h
        cases h
        rw [List.dropLast_concat]
        have hltm : lt ∈ s.f := hp.mem_iff.mp (by simp)
        have hsub : ∀ t ∈ l', t ∈ s.f := fun t ht => hp.mem_iff.mp (by simp [ht])
        have hnd : ((l' ++ [lt]).map (·.mdeg)).Nodup := (hp.map _).nodup_iff.mpr hs.canon.nodup
        have hlt : ∀ t ∈ l', t.syn (k.mathlib n) < lt.syn (k.mathlib n) := by
          intro t ht
          refine lt_of_le_of_ne ((List.pairwise_append.mp hpw).2.2 t ht lt (by simp)) fun e => ?_
          have := Term.syn_inj (hs.degs _ (hsub t ht)) (hs.degs _ hltm) e
          rw [List.map_append, List.nodup_append] at hnd
          exact hnd.2.2 t.mdeg (List.mem_map_of_mem ht) lt.mdeg (by simp) this
        have hup : ∀ u ∈ s.remainder, lt.syn (k.mathlib n) ≤ u.syn (k.mathlib n) :=
          fun u hu => (hs.above u hu lt hltm).le
        refine ⟨fun t ht => hs.degs t (hsub t ht), ⟨fun t ht => hs.canon.ne t (hsub t ht), ?_⟩,
          fun t ht => hs.le t (hsub t ht), addTerm_degs hs.rdegs (hs.degs _ hltm) hr',
          addTerm_desc hs.rdegs (hs.degs _ hltm) hs.desc hup hr', fun u hu => ?_, fun u hu t ht => ?_, ?_⟩
        · rw [List.map_append, List.nodup_append] at hnd
          exact hnd.1
        · rcases Poly.addTerm_mdeg _ _ _ hr' u hu with h | h
          · obtain ⟨v, hv, he⟩ := List.mem_map.mp h
            have := hs.rle v hv
            unfold Term.syn at this ⊢
            rwa [← he]
          · have := hs.le lt hltm
            unfold Term.syn at this ⊢
            rwa [h]
        · rcases Poly.addTerm_mdeg _ _ _ hr' u hu with h | h
          · obtain ⟨v, hv, he⟩ := List.mem_map.mp h
            have := hs.above v hv t (hsub t ht)
            unfold Term.syn at this ⊢
            rwa [← he]
          · have := hlt t ht
            unfold Term.syn at this ⊢
            rwa [h]
        · exact hs.quo.imp fun g q h => ⟨h.1, h.2.1, fun lt h1 a ha =>
            ⟨(h.2.2 lt h1 a ha).1, fun t ht => (h.2.2 lt h1 a ha).2 t (hsub t ht)⟩⟩
    · cases h
      obtain ⟨i1, i2, i3, i4⟩ := divideFor_sorted hb k (hs.degs _ hm) (hs.canon.ne _ hm) hs.degs hs.canon hmax _
        (fun x hx => hd _ (List.of_mem_zip hx).1) ho
      refine ⟨i1, i2, fun t ht => (i3 t ht).trans (hs.le _ hm), hs.rdegs, hs.desc, hs.rle,
        fun u hu t ht => (i3 t ht).trans_lt (hs.above u hu _ hm), forall₂_of_zip ?_ i4 hs.quo⟩
      rintro g q q' (rfl | ⟨lt, a, h1, h2, h3, h4⟩) ⟨j1, j2, j3⟩
      · exact ⟨j1, j2, fun lt hl a ha => ⟨(j3 lt hl a ha).1, fun t ht => (i3 t ht).trans ((j3 lt hl a ha).2 _ hm)⟩⟩
      · refine ⟨addTerm_degs j1 h2 h4, addTerm_desc j1 h2 j2 (fun u hu => ?_) h4, fun lt' hl u hu => ?_⟩
        · have := (j3 lt h1 u hu).2 _ hm
          unfold Term.syn at this ⊢
          rw [h3, map_add, map_add] at this
          exact le_of_add_le_add_right this
        · rw [h1] at hl
          cases hl
          rcases Poly.addTerm_mdeg _ _ _ h4 u hu with h | h
          · obtain ⟨v, hv, he⟩ := List.mem_map.mp h
            have he : v.mdeg = u.mdeg := he
            rw [← he]
            exact ⟨(j3 lt h1 v hv).1, fun t ht => (i3 t ht).trans ((j3 lt h1 v hv).2 _ hm)⟩
          · rw [h, ← h3]
            exact ⟨hs.le _ hm, i3⟩

theorem sortInv_start (k : OrdKind) {B : (k.mathlib n).syn} {f : Poly F} (divs : List (Poly F)) (hf : f.Degs n)
    (hc : f.Canonical) (hB : ∀ t ∈ f, t.syn (k.mathlib n) ≤ B) :
    SortInv k n B divs ⟨f, List.replicate divs.length [], []⟩ := by
  refine ⟨hf, hc, hB, fun t ht => by simp at ht, List.Pairwise.nil, fun t ht => by simp at ht,
    fun t ht => by simp at ht, ?_⟩
  dsimp only
  induction divs with
  | nil => exact .nil
  | cons g divs ih =>
    exact .cons ⟨fun t ht => by simp at ht, List.Pairwise.nil, fun _ _ a ha => by simp at ha⟩ ih

omit [RField F] in
theorem exists_bound {m : MonomialOrder (Fin n)} (f : Poly F) : ∃ B : m.syn, ∀ t ∈ f, t.syn m ≤ B := by
  induction f with
  | nil => exact ⟨0, by simp⟩
  | cons t f ih =>
    obtain ⟨B, hB⟩ := ih
    refine ⟨max B (t.syn m), fun u hu => ?_⟩
    rcases List.mem_cons.mp hu with rfl | hu
    · exact le_max_right _ _
    · exact (hB u hu).trans (le_max_left _ _)

/-- C229. Whatever the coefficient type (in a checked build, so also over `f32` and `f64`): if `divide` returns for a
canonical dividend, then the terms of the remainder and those of each quotient are in strictly descending order, and
no term of the remainder and no product of a term of a quotient with the leading monomial of its divisor is above all
terms of the dividend. -/
theorem C229_sorted (hb : RField.build F = .debug) (k : OrdKind) (f : Poly F) (divs : List (Poly F))
    (hf : f.Degs n) (hc : f.Canonical) (hd : ∀ g ∈ divs, g.Degs n) (r : Poly F) (qs : List (Poly F))
    (h : divide (k.order .debug) f divs = .ok (r, qs)) :
    (r.Pairwise fun s t => (k.mathlib n).toSyn (t.mdeg.toF (Fin n)) < (k.mathlib n).toSyn (s.mdeg.toF (Fin n))) ∧
    (∀ q ∈ qs, q.Pairwise fun s t =>
      (k.mathlib n).toSyn (t.mdeg.toF (Fin n)) < (k.mathlib n).toSyn (s.mdeg.toF (Fin n))) ∧
    ∀ e : Fin n →₀ ℕ, (∀ t ∈ f, (k.mathlib n).toSyn (t.mdeg.toF (Fin n)) ≤ (k.mathlib n).toSyn e) →
      (∀ t ∈ r, (k.mathlib n).toSyn (t.mdeg.toF (Fin n)) ≤ (k.mathlib n).toSyn e) ∧
      ∀ g q, (g, q) ∈ divs.zip qs → ∀ a ∈ q, ∀ lt, leadingTerm (k.order .debug) g = .ok (some lt) →
        (k.mathlib n).toSyn (a.mdeg.toF (Fin n) + lt.mdeg.toF (Fin n)) ≤ (k.mathlib n).toSyn e := by
  have key : ∀ B : (k.mathlib n).syn, (∀ t ∈ f, t.syn (k.mathlib n) ≤ B) →
      ∃ f', SortInv k n B divs ⟨f', qs, r⟩ := by
    intro B hB
    refine loop_partial (fun s : DivState F => SortInv k n B divs s)
      (fun x => ∃ f', SortInv k n B divs ⟨f', x.2, x.1⟩) ?_ ?_ (sortInv_start k divs hf hc hB) h
    · exact fun s s' hs h => divideStep_sorted hb k hd hs h
    · rintro s x hs h
      rw [divideStep, bind_eq_ok] at h
      obtain ⟨ol, hol, h⟩ := h
      rcases ol with _ | ltF
      · cases h; exact ⟨s.f, hs⟩
      · rw [bind_eq_ok] at h
        obtain ⟨o, ho, h⟩ := h
        rcases o with _ | ⟨qs', f'⟩
        · rw [bind_eq_ok] at h
          obtain ⟨sorted, hso, h⟩ := h
          split at h
          · cases h
          · rw [bind_eq_ok] at h
            obtain ⟨r', hr', h⟩ := h
            cases h
        · cases h
  obtain ⟨B, hB⟩ : ∃ B : (k.mathlib n).syn, ∀ t ∈ f, t.syn (k.mathlib n) ≤ B := exists_bound f
  obtain ⟨f', hi⟩ := key B hB
  refine ⟨hi.desc, fun q hq => ?_, fun e he => ?_⟩
  · obtain ⟨i, hiq, rfl⟩ := List.getElem_of_mem hq
    exact ((List.forall₂_iff_get.mp hi.quo).2 i (by rw [hi.quo.length_eq]; exact hiq) hiq).2.1
  · obtain ⟨f', hi⟩ := key ((k.mathlib n).toSyn e) he
    exact ⟨hi.rle, fun g q hgq a ha lt hl => ((List.forall₂_iff_zip.mp hi.quo).2 hgq).2.2 lt hl a ha |>.1⟩

end
end Verif
