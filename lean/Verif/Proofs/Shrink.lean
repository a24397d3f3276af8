import Verif.Proofs.Ends
import Verif.Props.TermOrder

/-!
# Division ends if every step makes the leading coefficient smaller

For a coefficient type without laws: a step of `divide` removes the leading term, or leaves a leading term with the
same monomial and a coefficient of smaller weight.
-/

namespace Verif
open Res Computer

variable {F : Type} [RField F] {n : ℕ}

/-- The operations end, products, quotients, inverses and negatives of nonzero numbers are nonzero, and subtracting
from `c` the product of a nonzero `g` and `c / g` gives zero or a number of smaller weight. -/
structure Shrinks (P : F → Prop) (w : F → ℕ) : Prop where
  build : RField.build F = .debug
  closed : ClosedField P
  ends : OpsEnd F
  one_ne : RField.beq (RField.one : F) RField.zero = false
  neg_ne : ∀ x y : F, P x → RField.neg x = .ok y → RField.beq x RField.zero = false → RField.beq y RField.zero = false
  mul_ne : ∀ x y z : F, P x → P y → RField.mul x y = .ok z → RField.beq x RField.zero = false →
    RField.beq y RField.zero = false → RField.beq z RField.zero = false
  div_ne : ∀ x y z : F, P x → P y → RField.div x y = .ok z → RField.beq x RField.zero = false →
    RField.beq y RField.zero = false → RField.beq z RField.zero = false
  inv_ne : ∀ x y : F, P x → RField.inv x = .ok y → RField.beq x RField.zero = false → RField.beq y RField.zero = false
  shrink : ∀ c g q p p' d : F, P c → P g → RField.beq c RField.zero = false → RField.beq g RField.zero = false →
    RField.div c g = .ok q → RField.mul g q = .ok p → RField.neg p = .ok p' → RField.add c p' = .ok d →
    RField.beq d RField.zero = false → w d < w c

/-! ### The coefficient of a sum -/

theorem addNonzeroTerm_other {p r : Poly F} {u t : Term F} {m : MDeg} (hu : u.mdeg ≠ m)
    (h : Poly.addNonzeroTerm p u = .ok r) (ht : t ∈ r) (hm : t.mdeg = m) : t ∈ p := by
  induction p generalizing r with
  | nil =>
    cases h
    rw [List.mem_singleton.mp ht] at hm
    exact absurd hm hu
  | cons s p ih =>
    rw [Poly.addNonzeroTerm] at h
    split at h
    · rename_i he
      rw [bind_eq_ok] at h
      obtain ⟨c, _, h⟩ := h
      dsimp only at h
      split at h
      · cases h; exact List.mem_cons_of_mem _ ht
      · cases h
        rcases List.mem_cons.mp ht with rfl | ht
        · exact absurd (he.symm.trans hm) hu
        · exact List.mem_cons_of_mem _ ht
    · rw [bind_eq_ok] at h
      obtain ⟨ts, hts, h⟩ := h
      cases h
      rcases List.mem_cons.mp ht with rfl | ht
      · exact List.mem_cons_self
      · exact List.mem_cons_of_mem _ (ih hts ht)

theorem addTerm_other {p r : Poly F} {u t : Term F} {m : MDeg} (hu : u.mdeg ≠ m)
    (h : Poly.addTerm p u = .ok r) (ht : t ∈ r) (hm : t.mdeg = m) : t ∈ p := by
  unfold Poly.addTerm at h
  split at h
  · cases h
    unfold Poly.ofTerm at ht
    split at ht
    · simp [Poly.zero, Poly.newUnchecked] at ht
    · rw [List.mem_singleton.mp ht] at hm
      exact absurd hm hu
  · split at h
    · cases h; exact ht
    · exact addNonzeroTerm_other hu h ht hm

theorem addNonzeroTerm_same {p r : Poly F} {u t : Term F} (hp : (p.map (·.mdeg)).Nodup) {t₀ : Term F} (h₀ : t₀ ∈ p)
    (hm₀ : t₀.mdeg = u.mdeg) (h : Poly.addNonzeroTerm p u = .ok r) (ht : t ∈ r) (hm : t.mdeg = u.mdeg) :
    RField.add t₀.coef u.coef = .ok t.coef ∧ t.isZero = false := by
  induction p generalizing r with
  | nil => simp at h₀
  | cons s p ih =>
    rw [List.map_cons, List.nodup_cons] at hp
    rw [Poly.addNonzeroTerm] at h
    split at h
    · rename_i he
      have hs : s = t₀ := by
        rcases List.mem_cons.mp h₀ with h | h
        · exact h.symm
        · exact absurd (List.mem_map.mpr ⟨t₀, h, hm₀.trans he.symm⟩) hp.1
      subst hs
      have hn : t ∉ p := fun hh => hp.1 (List.mem_map.mpr ⟨t, hh, hm.trans he.symm⟩)
      rw [bind_eq_ok] at h
      obtain ⟨c, hc, h⟩ := h
      dsimp only at h
      split at h
      · cases h; exact absurd ht hn
      · rename_i hz
        cases h
        rcases List.mem_cons.mp ht with rfl | ht
        · exact ⟨hc, by simpa using hz⟩
        · exact absurd ht hn
    · rename_i he
      rw [bind_eq_ok] at h
      obtain ⟨ts, hts, h⟩ := h
      cases h
      have h₀ : t₀ ∈ p := by
        rcases List.mem_cons.mp h₀ with rfl | h
        · exact absurd hm₀ he
        · exact h
      rcases List.mem_cons.mp ht with rfl | ht
      · exact absurd hm he
      · exact ih hp.2 h₀ hts ht

theorem addTerm_same {p r : Poly F} {u t : Term F} (hp : (p.map (·.mdeg)).Nodup) (hu : u.isZero = false)
    {t₀ : Term F} (h₀ : t₀ ∈ p) (hm₀ : t₀.mdeg = u.mdeg) (h : Poly.addTerm p u = .ok r) (ht : t ∈ r)
    (hm : t.mdeg = u.mdeg) : RField.add t₀.coef u.coef = .ok t.coef ∧ t.isZero = false := by
  unfold Poly.addTerm at h
  rw [if_neg (by rcases p with _ | ⟨s, p⟩ <;> simp [Poly.isZero] at h₀ ⊢), if_neg (by simp [hu])] at h
  exact addNonzeroTerm_same hp h₀ hm₀ h ht hm

theorem addNonzeroTerm_keep {p r : Poly F} {u t : Term F} (ht : t ∈ p) (hm : t.mdeg ≠ u.mdeg)
    (h : Poly.addNonzeroTerm p u = .ok r) : t ∈ r := by
  induction p generalizing r with
  | nil => simp at ht
  | cons s p ih =>
    rw [Poly.addNonzeroTerm] at h
    split at h
    · rename_i he
      have ht : t ∈ p := by
        rcases List.mem_cons.mp ht with rfl | ht
        · exact absurd he hm
        · exact ht
      rw [bind_eq_ok] at h
      obtain ⟨c, _, h⟩ := h
      dsimp only at h
      split at h
      · cases h; exact ht
      · cases h; exact List.mem_cons_of_mem _ ht
    · rw [bind_eq_ok] at h
      obtain ⟨ts, hts, h⟩ := h
      cases h
      rcases List.mem_cons.mp ht with rfl | ht
      · exact List.mem_cons_self
      · exact List.mem_cons_of_mem _ (ih ht hts)

theorem addTerm_keep {p r : Poly F} {u t : Term F} (ht : t ∈ p) (hm : t.mdeg ≠ u.mdeg)
    (h : Poly.addTerm p u = .ok r) : t ∈ r := by
  unfold Poly.addTerm at h
  rw [if_neg (by rcases p with _ | ⟨s, p⟩ <;> simp [Poly.isZero] at ht ⊢)] at h
  split at h
  · cases h; exact ht
  · exact addNonzeroTerm_keep ht hm h

theorem add_other {p q r : Poly F} {t : Term F} {m : MDeg} (hq : ∀ u ∈ q, u.mdeg ≠ m)
    (h : Poly.add p q = .ok r) (ht : t ∈ r) (hm : t.mdeg = m) : t ∈ p := by
  unfold Poly.add at h
  induction q generalizing p with
  | nil => cases h; exact ht
  | cons u q ih =>
    rw [List.foldlM_cons, bind_eq_ok] at h
    obtain ⟨p', hp', h⟩ := h
    exact addTerm_other (hq u (by simp)) hp' (ih (fun v hv => hq v (by simp [hv])) h) hm

/-- The term of a sum at the monomial of a term of each summand. -/
theorem add_same {p q r : Poly F} (hp : p.Canonical) (hq : (q.map (·.mdeg)).Nodup) {t₀ u t : Term F} (h₀ : t₀ ∈ p)
    (hu : u ∈ q) (hm₀ : t₀.mdeg = u.mdeg) (huz : u.isZero = false) (h : Poly.add p q = .ok r) (ht : t ∈ r)
    (hm : t.mdeg = u.mdeg) : RField.add t₀.coef u.coef = .ok t.coef ∧ t.isZero = false := by
  unfold Poly.add at h
  induction q generalizing p with
  | nil => simp at hu
  | cons v q ih =>
    rw [List.map_cons, List.nodup_cons] at hq
    rw [List.foldlM_cons, bind_eq_ok] at h
    obtain ⟨p', hp', h⟩ := h
    rcases List.mem_cons.mp hu with rfl | hu
    · have ht' : t ∈ p' := add_other (q := q) (fun w hw he => hq.1 (List.mem_map.mpr ⟨w, hw, he⟩)) h ht hm
      exact addTerm_same hp.nodup huz h₀ hm₀ hp' ht' hm
    · have hne : v.mdeg ≠ u.mdeg := fun he => hq.1 (List.mem_map.mpr ⟨u, hu, he.symm⟩)
      exact ih (Poly.addTerm_canonical _ _ _ hp hp') hq.2
        (addTerm_keep h₀ (fun he => hne (he.symm.trans hm₀)) hp') hu h

theorem neg_term {q q' : Poly F} {u : Term F} (h : Poly.neg q = .ok q') (hu : u ∈ q) :
    ∃ c, RField.neg u.coef = .ok c ∧ (⟨c, u.mdeg⟩ : Term F) ∈ q' := by
  unfold Poly.neg at h
  induction q generalizing q' with
  | nil => simp at hu
  | cons v q ih =>
    rw [List.mapM_cons, bind_eq_ok] at h
    obtain ⟨v', hv', h⟩ := h
    rw [bind_eq_ok] at h
    obtain ⟨q'', hq'', h⟩ := h
    cases h
    rcases List.mem_cons.mp hu with rfl | hu
    · unfold Term.neg at hv'
      rw [bind_eq_ok] at hv'
      obtain ⟨c, hc, hv'⟩ := hv'
      cases hv'
      exact ⟨c, hc, List.mem_cons_self⟩
    · obtain ⟨c, hc, hm⟩ := ih hq'' hu
      exact ⟨c, hc, List.mem_cons_of_mem _ hm⟩

variable {P : F → Prop} {w : F → ℕ} (S : Shrinks P w)
include S

/-- A product with a nonzero term is canonical. -/
theorem Shrinks.mulTerm {p r : Poly F} {a : Term F} (hd : p.Degs n) (hc : p.Canonical) (hp : p.Over P)
    (had : a.mdeg.Clean ∧ a.mdeg.InVars (Fin n)) (haz : a.isZero = false) (ha : P a.coef)
    (h : Poly.mulTerm p a = .ok r) : r.Canonical ∧ (∀ s ∈ p, ∃ u ∈ r, RField.mul s.coef a.coef = .ok u.coef ∧
      u.mdeg.toF (Fin n) = s.mdeg.toF (Fin n) + a.mdeg.toF (Fin n)) ∧
      ∀ u ∈ r, ∃ s ∈ p, u.mdeg.toF (Fin n) = s.mdeg.toF (Fin n) + a.mdeg.toF (Fin n) := by
  have hr := hd.mulTerm S.build had h
  replace h := (C123_mul_term p r a hc.ne haz).mp h
  have key : (r.map (·.mdeg)).Nodup ∧ (∀ u ∈ r, u.isZero = false) ∧
      (∀ s ∈ p, ∃ u ∈ r, RField.mul s.coef a.coef = .ok u.coef ∧
        u.mdeg.toF (Fin n) = s.mdeg.toF (Fin n) + a.mdeg.toF (Fin n)) ∧
      ∀ u ∈ r, ∃ s ∈ p, u.mdeg.toF (Fin n) = s.mdeg.toF (Fin n) + a.mdeg.toF (Fin n) := by
    induction h with
    | nil => simp
    | @cons s u q r hsu hqr ih =>
      have hnd := hc.nodup
      rw [List.map_cons, List.nodup_cons] at hnd
      obtain ⟨i1, i2, i3, i4⟩ := ih (fun t ht => hd t (by simp [ht])) ⟨fun t ht => hc.ne t (by simp [ht]), hnd.2⟩
        (fun t ht => hp t (by simp [ht])) (fun t ht => hr t (by simp [ht]))
      have hu : u.mdeg.toF (Fin n) = s.mdeg.toF (Fin n) + a.mdeg.toF (Fin n) := by
        have h2 := hsu.2
        rw [S.build] at h2
        exact MDeg.toF_eq_add (Spec.get (MDeg.add_spec (hd s (by simp)).1 had.1) h2).2
      refine ⟨?_, ?_, ?_, ?_⟩
      · rw [List.map_cons, List.nodup_cons]
        refine ⟨fun hm => ?_, i1⟩
        obtain ⟨v, hv, he⟩ := List.mem_map.mp hm
        have he : v.mdeg = u.mdeg := he
        obtain ⟨t, ht, hvt⟩ := i4 v hv
        rw [he, hu] at hvt
        have hst := MDeg.toF_inj (hd s (by simp)).1 (hd t (by simp [ht])).1 (hd s (by simp)).2
          (hd t (by simp [ht])).2 (add_right_cancel hvt)
        exact hnd.1 (List.mem_map.mpr ⟨t, ht, hst.symm⟩)
      · intro v hv
        rcases List.mem_cons.mp hv with rfl | hv
        · exact S.mul_ne _ _ _ (hp s (by simp)) ha hsu.1 (hc.ne s (by simp)) haz
        · exact i2 v hv
      · intro t ht
        rcases List.mem_cons.mp ht with rfl | ht
        · exact ⟨u, by simp, hsu.1, hu⟩
        · obtain ⟨v, hv, h⟩ := i3 t ht
          exact ⟨v, by simp [hv], h⟩
      · intro v hv
        rcases List.mem_cons.mp hv with rfl | hv
        · exact ⟨s, by simp, hu⟩
        · obtain ⟨t, ht, h⟩ := i4 v hv
          exact ⟨t, by simp [ht], h⟩
  exact ⟨⟨key.2.1, key.1⟩, key.2.2⟩

omit S in
theorem tryDiv_coef {s t a : Term F} (hz : s.isZero = false) (h : s.tryDiv t = .ok (some a)) :
    t.isZero = false ∧ RField.div s.coef t.coef = .ok a.coef := by
  unfold Term.tryDiv at h
  rw [if_neg (by simp [hz])] at h
  split at h
  · cases h
  · rename_i ht
    rw [bind_eq_ok] at h
    obtain ⟨c, hc, h⟩ := h
    split at h
    · cases h
    · cases h; exact ⟨by simpa using ht, hc⟩

/-- Subtracting the multiple of `g` with the same leading term. -/
theorem Shrinks.cancel {f g ag f' : Poly F} {ltF ltG a : Term F} (hf : f.Degs n) (hfc : f.Canonical) (hfP : f.Over P)
    (hg : g.Degs n) (hgc : g.Canonical) (hgP : g.Over P) (hF : ltF ∈ f) (hG : ltG ∈ g)
    (hdiv : ltF.tryDiv ltG = .ok (some a)) (hmul : Poly.mulTerm g a = .ok ag) (hsub : Poly.sub f ag = .ok f') :
    ∀ t ∈ f', t.mdeg = ltF.mdeg → w t.coef < w ltF.coef := by
  intro t ht hm
  have hz := hfc.ne _ hF
  obtain ⟨hzG, hq⟩ := tryDiv_coef hz hdiv
  have had := tryDiv_degs (hf _ hF) (hg _ hG).1 hdiv
  have haz : a.isZero = false := S.div_ne _ _ _ (hfP _ hF) (hgP _ hG) hq hz hzG
  have haP : P a.coef := S.closed.div _ _ (hfP _ hF) (hgP _ hG) hzG _ hq
  obtain ⟨hagc, hagm, -⟩ := S.mulTerm hg hgc hgP had haz haP hmul
  have hagd := hg.mulTerm S.build had hmul
  obtain ⟨u, hu, huc, hum⟩ := hagm _ hG
  have hum' : u.mdeg = ltF.mdeg := by
    refine MDeg.toF_inj (hagd _ hu).1 (hf _ hF).1 (hagd _ hu).2 (hf _ hF).2 ?_
    rw [hum, tryDiv_toF (n := n) (hf _ hF).1 (hg _ hG).1 hz hdiv, add_comm]
  unfold Poly.sub at hsub
  rw [bind_eq_ok] at hsub
  obtain ⟨ng, hng, hadd⟩ := hsub
  obtain ⟨c, hc, hcm⟩ := neg_term hng hu
  have hnd : (ng.map (·.mdeg)).Nodup := by rw [mapM_neg_mdeg _ _ hng]; exact hagc.nodup
  have huP : P u.coef := S.closed.mul _ _ (hgP _ hG) haP _ huc
  have hcz : RField.beq c RField.zero = false := S.neg_ne _ _ huP hc (hagc.ne _ hu)
  obtain ⟨h1, h2⟩ := add_same hfc hnd hF hcm hum'.symm hcz hadd ht (hm.trans hum'.symm)
  exact S.shrink _ _ _ _ _ _ (hfP _ hF) (hgP _ hG) hz hzG hq huc hc h1 h2

/-! ### Leading monomials -/

omit S
variable {m : MonomialOrder (Fin n)}

/-- The largest monomial. -/
noncomputable def Poly.lm (m : MonomialOrder (Fin n)) (p : Poly F) : Fin n →₀ ℕ :=
  m.toSyn.symm ((p.map (Term.syn m)).foldr max 0)

omit [RField F] in
theorem Poly.le_lm {p : Poly F} {t : Term F} (ht : t ∈ p) : t.syn m ≤ m.toSyn (p.lm m) := by
  unfold Poly.lm
  rw [AddEquiv.apply_symm_apply]
  induction p with
  | nil => simp at ht
  | cons s p ih =>
    rw [List.map_cons, List.foldr_cons]
    rcases List.mem_cons.mp ht with rfl | ht
    · exact le_max_left _ _
    · exact (ih ht).trans (le_max_right _ _)

omit [RField F] in
theorem Poly.exists_lm {p : Poly F} (hp : p ≠ []) : ∃ t ∈ p, t.mdeg.toF (Fin n) = p.lm m := by
  suffices H : ∃ t ∈ p, t.syn m = (p.map (Term.syn m)).foldr max 0 by
    obtain ⟨t, ht, h⟩ := H
    refine ⟨t, ht, m.toSyn.injective ?_⟩
    unfold Poly.lm
    rw [AddEquiv.apply_symm_apply]
    exact h
  induction p with
  | nil => exact absurd rfl hp
  | cons s p ih =>
    rw [List.map_cons, List.foldr_cons]
    by_cases hp' : p = []
    · subst hp'
      exact ⟨s, by simp, by simp⟩
    · obtain ⟨t, ht, h⟩ := ih hp'
      rcases le_total ((p.map (Term.syn m)).foldr max 0) (s.syn m) with hle | hle
      · exact ⟨s, by simp, (max_eq_left hle).symm⟩
      · exact ⟨t, by simp [ht], h.trans (max_eq_right hle).symm⟩

omit [RField F] in
theorem Poly.lm_eq {p : Poly F} {t : Term F} (ht : t ∈ p) (hle : ∀ u ∈ p, u.syn m ≤ t.syn m) :
    p.lm m = t.mdeg.toF (Fin n) := by
  obtain ⟨u, hu, h⟩ := Poly.exists_lm (m := m) (List.ne_nil_of_mem ht)
  refine m.toSyn.injective (le_antisymm ?_ (Poly.le_lm ht))
  rw [← h]
  exact hle u hu

theorem leadingTerm_lm (k : OrdKind) {p : Poly F} (hp : p.Degs n) {t : Term F}
    (h : leadingTerm (k.order .debug) p = .ok (some t)) : t ∈ p ∧ t.mdeg.toF (Fin n) = p.lm (k.mathlib n) := by
  obtain ⟨h1, h2⟩ := leadingTerm_mem k hp h
  exact ⟨h1, (Poly.lm_eq h1 h2).symm⟩

omit [RField F] in
theorem leadingTerm_nil {O : MOrder} {p : Poly F} (h : leadingTerm O p = .ok none) : p = [] := by
  cases p with
  | nil => rfl
  | cons t p =>
    exfalso
    simp only [leadingTerm, maxBy] at h
    have key : ∀ x : Res (Term F), some <$> x ≠ .ok none := by
      intro x hx
      cases x <;> cases hx
    exact key _ h

/-- If no leading term divides, no leading monomial does. -/
theorem divideFor_none (k : OrdKind) {ltF : Term F} {f : Poly F} (hlt : ltF.mdeg.Clean ∧ ltF.mdeg.InVars (Fin n))
    (L : List (Poly F × Poly F)) (hL : ∀ x ∈ L, x.1.Degs n ∧ x.1.Canonical)
    (h : divideFor (k.order .debug) ltF f L = .ok none) :
    ∀ x ∈ L, x.1 ≠ [] → ¬ x.1.lm (k.mathlib n) ≤ ltF.mdeg.toF (Fin n) := by
  induction L with
  | nil => intro x hx; simp at hx
  | cons x L ih =>
    obtain ⟨g, q⟩ := x
    obtain ⟨hg, hgc⟩ := hL (g, q) (by simp)
    have next : ∀ c : Option (List (Poly F) × Poly F) → Res (Option (List (Poly F) × Poly F)),
        (∀ qs f', c (some (qs, f')) = pure (some (q :: qs, f'))) →
        divideFor (k.order .debug) ltF f L >>= c = .ok none →
        (g ≠ [] → ¬ g.lm (k.mathlib n) ≤ ltF.mdeg.toF (Fin n)) →
        ∀ x ∈ (g, q) :: L, x.1 ≠ [] → ¬ x.1.lm (k.mathlib n) ≤ ltF.mdeg.toF (Fin n) := by
      intro c hc ho hhead
      rw [bind_eq_ok] at ho
      obtain ⟨o', ho', ho⟩ := ho
      rcases o' with _ | ⟨qs₁, f₁⟩
      · intro x hx
        rcases List.mem_cons.mp hx with rfl | hx
        · exact hhead
        · exact ih (fun x hx => hL x (by simp [hx])) ho' x hx
      · rw [hc] at ho; cases ho
    rw [divideFor, bind_eq_ok] at h
    obtain ⟨ol, hol, h⟩ := h
    rcases ol with _ | ltG
    · exact next _ (by intros; rfl) h fun hne => absurd (leadingTerm_nil hol) hne
    · obtain ⟨hG, hGlm⟩ := leadingTerm_lm k hg hol
      rw [bind_eq_ok] at h
      obtain ⟨oa, hoa, h⟩ := h
      rcases oa with _ | a
      · refine next _ (by intros; rfl) h fun _ hle => ?_
        obtain ⟨i, hi⟩ := tryDiv_none hlt.1 (hg _ hG).1 (hgc.ne _ hG) hoa
        rw [← hGlm] at hle
        have := (MDeg.toF_le_iff (hg _ hG).2).mp hle i
        omega
      · clear next
        simp only [bind_eq_ok] at h
        obtain ⟨q', h1, ag, h2, f'', h3, h⟩ := h
        cases h

include S in
/-- If a leading term divides, the leading coefficient gets smaller. -/
theorem Shrinks.divideFor (k : OrdKind) {ltF : Term F} {f : Poly F} (hf : f.Degs n) (hfc : f.Canonical)
    (hfP : f.Over P) (hF : ltF ∈ f) (L : List (Poly F × Poly F))
    (hL : ∀ x ∈ L, x.1.Degs n ∧ x.1.Canonical ∧ x.1.Over P) {qs : List (Poly F)} {f' : Poly F}
    (h : divideFor (k.order .debug) ltF f L = .ok (some (qs, f'))) :
    (∃ x ∈ L, x.1 ≠ [] ∧ x.1.lm (k.mathlib n) ≤ ltF.mdeg.toF (Fin n)) ∧
    ∀ t ∈ f', t.mdeg = ltF.mdeg → w t.coef < w ltF.coef := by
  induction L generalizing qs with
  | nil => cases h
  | cons x L ih =>
    obtain ⟨g, q⟩ := x
    obtain ⟨hg, hgc, hgP⟩ := hL (g, q) (by simp)
    have next : ∀ c : Option (List (Poly F) × Poly F) → Res (Option (List (Poly F) × Poly F)),
        c none = pure none → (∀ qs f', c (some (qs, f')) = pure (some (q :: qs, f'))) →
        Computer.divideFor (k.order .debug) ltF f L >>= c = .ok (some (qs, f')) →
        (∃ x ∈ (g, q) :: L, x.1 ≠ [] ∧ x.1.lm (k.mathlib n) ≤ ltF.mdeg.toF (Fin n)) ∧
        ∀ t ∈ f', t.mdeg = ltF.mdeg → w t.coef < w ltF.coef := by
      intro c hc1 hc2 ho
      rw [bind_eq_ok] at ho
      obtain ⟨o', ho', ho⟩ := ho
      rcases o' with _ | ⟨qs₁, f₁⟩
      · rw [hc1] at ho; cases ho
      · rw [hc2] at ho
        cases ho
        obtain ⟨⟨x, hx, h1⟩, h2⟩ := ih (fun x hx => hL x (by simp [hx])) ho'
        exact ⟨⟨x, by simp [hx], h1⟩, h2⟩
    rw [Computer.divideFor, bind_eq_ok] at h
    obtain ⟨ol, hol, h⟩ := h
    rcases ol with _ | ltG
    · exact next _ (by rfl) (by intros; rfl) h
    · obtain ⟨hG, hGlm⟩ := leadingTerm_lm k hg hol
      rw [bind_eq_ok] at h
      obtain ⟨oa, hoa, h⟩ := h
      rcases oa with _ | a
      · exact next _ (by rfl) (by intros; rfl) h
      · clear next
        simp only [bind_eq_ok] at h
        obtain ⟨q', h1, ag, h2, f'', h3, h⟩ := h
        cases h
        refine ⟨⟨_, List.mem_cons_self, List.ne_nil_of_mem hG, ?_⟩, S.cancel hf hfc hfP hg hgc hgP hF hG hoa h2 h3⟩
        rw [← hGlm, tryDiv_toF (n := n) (hf _ hF).1 (hg _ hG).1 (hfc.ne _ hF) hoa]
        exact le_add_self

/-- A canonical polynomial with valid multidegrees and coefficients in `P`. -/
structure Poly.Sound (n : ℕ) (P : F → Prop) (p : Poly F) : Prop where
  degs : p.Degs n
  canon : p.Canonical
  over : p.Over P

/-- The weight that gets smaller. -/
noncomputable def divWeight (k : OrdKind) (n : ℕ) (w : F → ℕ) (s : DivState F) : WithBot (k.mathlib n).syn × ℕ :=
  match leadingTerm (k.order .debug) s.f with
  | .ok (some t) => (↑(t.syn (k.mathlib n)), w t.coef)
  | _ => (⊥, 0)

theorem divWeight_lt (k : OrdKind) (w : F → ℕ) {s : DivState F} (hd : s.f.Degs n) {t : Term F}
    (h : ∀ u ∈ s.f, u.syn (k.mathlib n) < t.syn (k.mathlib n) ∨
      u.syn (k.mathlib n) = t.syn (k.mathlib n) ∧ w u.coef < w t.coef) :
    Prod.Lex (· < ·) (· < ·) (divWeight k n w s) (↑(t.syn (k.mathlib n)), w t.coef) := by
  unfold divWeight
  split
  · rename_i u hu
    rcases h u (leadingTerm_mem (n := n) k hd hu).1 with h | ⟨h1, h2⟩
    · exact Prod.Lex.left _ _ (WithBot.coe_lt_coe.mpr h)
    · rw [h1]; exact Prod.Lex.right _ h2
  · exact Prod.Lex.left _ _ (WithBot.bot_lt_coe _)

/-- The invariant of the loop of `divide`. -/
structure EndInv (k : OrdKind) (n : ℕ) (P : F → Prop) (f : Poly F) (divs : List (Poly F)) (s : DivState F) : Prop where
  sort : SortInv k n ((k.mathlib n).toSyn (f.lm (k.mathlib n))) divs s
  over : s.f.Over P
  rcanon : s.remainder.Canonical
  rover : s.remainder.Over P
  qover : ∀ q ∈ s.quotients, Poly.Over P q
  irred : ∀ t ∈ s.remainder, ∀ g ∈ divs, g ≠ [] → ¬ g.lm (k.mathlib n) ≤ t.mdeg.toF (Fin n)
  lead : (∀ g ∈ divs, g ≠ [] → ¬ g.lm (k.mathlib n) ≤ f.lm (k.mathlib n)) →
    s.f = f ∨ ∃ t ∈ s.remainder, t.mdeg.toF (Fin n) = f.lm (k.mathlib n)

include S in
theorem Shrinks.divideStep (k : OrdKind) {f : Poly F} {divs : List (Poly F)} (hd : ∀ g ∈ divs, Poly.Sound n P g)
    {s s' : DivState F} (hs : EndInv k n P f divs s)
    (h : divideStep (k.order .debug) divs s = .ok (.inl s')) :
    EndInv k n P f divs s' ∧ Prod.Lex (· < ·) (· < ·) (divWeight k n w s') (divWeight k n w s) := by
  have hsort := divideStep_sorted S.build k (fun g hg => (hd g hg).degs) hs.sort h
  rw [Computer.divideStep, bind_eq_ok] at h
  obtain ⟨ol, hol, h⟩ := h
  rcases ol with _ | ltF
  · cases h
  · obtain ⟨hm, hmax⟩ := leadingTerm_mem (n := n) k hs.sort.degs hol
    have hw : divWeight k n w s = (↑(ltF.syn (k.mathlib n)), w ltF.coef) := by
      unfold divWeight; rw [hol]
    have hzip : ∀ x ∈ divs.zip s.quotients, x.1.Degs n ∧ x.1.Canonical ∧ x.1.Over P := fun x hx =>
      have := hd _ (List.of_mem_zip hx).1
      ⟨this.degs, this.canon, this.over⟩
    have hcov : ∀ g ∈ divs, ∃ q, (g, q) ∈ divs.zip s.quotients := by
      intro g hg
      obtain ⟨i, hi, rfl⟩ := List.getElem_of_mem hg
      have hl := hs.sort.quo.length_eq
      exact ⟨s.quotients[i]'(by omega), List.mem_iff_getElem.mpr ⟨i, by simp; omega, by simp⟩⟩
    rw [bind_eq_ok] at h
    obtain ⟨o, ho, h⟩ := h
    rcases o with _ | ⟨qs', f'⟩
    · have hirr := divideFor_none k (hs.sort.degs _ hm) _ (fun x hx => ⟨(hzip x hx).1, (hzip x hx).2.1⟩) ho
      have hirr' : ∀ g ∈ divs, g ≠ [] → ¬ g.lm (k.mathlib n) ≤ ltF.mdeg.toF (Fin n) := fun g hg hne => by
        obtain ⟨q, hq⟩ := hcov g hg
        exact hirr _ hq hne
      rw [bind_eq_ok] at h
      obtain ⟨sorted, hso, h⟩ := h
      obtain ⟨hp, hpw⟩ := sort_degs (n := n) k hs.sort.degs hso
      split at h
      · rename_i hlast
        rw [List.getLast?_eq_none_iff] at hlast
        subst hlast
        have := hp.symm.eq_nil
        rw [this] at hm
        simp at hm
      · rename_i lt hlast
        obtain ⟨l', rfl⟩ := List.getLast?_eq_some_iff.mp hlast
        rw [bind_eq_ok] at h
        obtain ⟨r', hr', h⟩ := h
        cases h
        rw [List.dropLast_concat] at hsort ⊢
        have hltm : lt ∈ s.f := hp.mem_iff.mp (by simp)
        have hsub : ∀ t ∈ l', t ∈ s.f := fun t ht => hp.mem_iff.mp (by simp [ht])
        have hlt : lt.mdeg = ltF.mdeg := by
          refine Term.syn_inj (m := k.mathlib n) (hs.sort.degs _ hltm) (hs.sort.degs _ hm) (le_antisymm (hmax _ hltm) ?_)
          rcases List.mem_append.mp (hp.mem_iff.mpr hm) with h | h
          · exact (List.pairwise_append.mp hpw).2.2 _ h lt (by simp)
          · rw [List.mem_singleton.mp h]
        have hnew : ∀ u ∈ s.remainder, u.mdeg ≠ lt.mdeg := fun u hu he => by
          have := hs.sort.above u hu lt hltm
          unfold Term.syn at this
          rw [he] at this
          exact lt_irrefl _ this
        rw [addTerm_append (hs.sort.canon.ne _ hltm) hnew] at hr'
        have hr' := Res.ok.inj hr'
        subst hr'
        refine ⟨⟨hsort, fun t ht => hs.over t (hsub t ht), ⟨?_, ?_⟩, ?_, hs.qover, ?_, ?_⟩, ?_⟩
        · intro t ht
          rcases List.mem_append.mp ht with ht | ht
          · exact hs.rcanon.ne t ht
          · rw [List.mem_singleton.mp ht]; exact hs.sort.canon.ne _ hltm
        · rw [List.map_append, List.nodup_append]
          refine ⟨hs.rcanon.nodup, by simp, ?_⟩
          intro a ha b hb
          obtain ⟨u, hu, rfl⟩ := List.mem_map.mp ha
          simp only [List.map_cons, List.map_nil, List.mem_singleton] at hb
          rw [hb]; exact hnew u hu
        · intro t ht
          rcases List.mem_append.mp ht with ht | ht
          · exact hs.rover t ht
          · rw [List.mem_singleton.mp ht]; exact hs.over _ hltm
        · intro t ht
          rcases List.mem_append.mp ht with ht | ht
          · exact hs.irred t ht
          · rw [List.mem_singleton.mp ht, hlt]; exact hirr'
        · intro hall
          rcases hs.lead hall with h | ⟨t, ht, h⟩
          · refine .inr ⟨lt, by simp, ?_⟩
            rw [hlt, ← h, Poly.lm_eq hm hmax]
          · exact .inr ⟨t, by simp [ht], h⟩
        · rw [hw]
          refine divWeight_lt k w hsort.degs fun u hu => .inl ?_
          have := hsort.above lt (by simp) u hu
          unfold Term.syn at this ⊢
          rwa [hlt] at this
    · cases h
      obtain ⟨⟨x, hx, hx0, hxle⟩, hsm⟩ := S.divideFor k hs.sort.degs hs.sort.canon hs.over hm _ hzip ho
      have hov := over_divideFor S.closed.toClosedRing S.closed.div (O := k.order .debug) (hs.over _ hm) hs.over
        (divs.zip s.quotients) (fun x hx => ⟨(hzip x hx).2.2, leadsIn_of_over (hzip x hx).2.2,
          hs.qover _ (List.of_mem_zip hx).2⟩) _ ho _ _ rfl
      have hle := (divideFor_sorted S.build k (hs.sort.degs _ hm) (hs.sort.canon.ne _ hm) hs.sort.degs hs.sort.canon hmax _
        (fun x hx => (hzip x hx).1) ho).2.2.1
      refine ⟨⟨hsort, hov.2, hs.rcanon, hs.rover, hov.1, hs.irred, fun hall => ?_⟩, ?_⟩
      · rcases hs.lead hall with h | h
        · refine absurd hxle ?_
          rw [← Poly.lm_eq hm hmax, h]
          exact hall _ (List.of_mem_zip hx).1 hx0
        · exact .inr h
      · rw [hw]
        refine divWeight_lt k w hsort.degs fun u hu => ?_
        rcases lt_or_eq_of_le (hle u hu) with h | h
        · exact .inl h
        · exact .inr ⟨h, hsm u hu (Term.syn_inj (hsort.degs _ hu) (hs.sort.degs _ hm) h)⟩

include S in
/-- Division ends, and what is true of the remainder. -/
theorem Shrinks.divide (k : OrdKind) {f : Poly F} {divs : List (Poly F)} (hf : Poly.Sound n P f)
    (hd : ∀ g ∈ divs, Poly.Sound n P g) :
    Spec (fun _ => True) (divide (k.order .debug) f divs) (fun x => Poly.Sound n P x.1 ∧
      (∀ t ∈ x.1, ∀ g ∈ divs, g ≠ [] → ¬ g.lm (k.mathlib n) ≤ t.mdeg.toF (Fin n)) ∧
      (f ≠ [] → (∀ g ∈ divs, g ≠ [] → ¬ g.lm (k.mathlib n) ≤ f.lm (k.mathlib n)) →
        x.1 ≠ [] ∧ x.1.lm (k.mathlib n) = f.lm (k.mathlib n))) := by
  refine loop_spec (Prod.Lex (· < ·) (· < ·)) (WellFounded.prod_lex wellFounded_lt wellFounded_lt)
    (EndInv k n P f divs) (divWeight k n w) _ (fun s hs => ?_) _ ?_
  · refine (S.ends.divideStep (fun _ _ => k.ends _ _ _) _ _).spec fun x hx => ?_
    rcases x with s' | ⟨r, qs⟩
    · exact S.divideStep k hd hs hx
    · rw [Computer.divideStep, bind_eq_ok] at hx
      obtain ⟨ol, hol, hx⟩ := hx
      rcases ol with _ | ltF
      · cases hx
        refine ⟨⟨hs.sort.rdegs, hs.rcanon, hs.rover⟩, hs.irred, fun hne hall => ?_⟩
        rcases hs.lead hall with h | ⟨t, ht, h⟩
        · exact absurd (h ▸ leadingTerm_nil hol) hne
        · refine ⟨List.ne_nil_of_mem ht, (Poly.lm_eq ht fun u hu => ?_).trans h⟩
          have := hs.sort.rle u hu
          unfold Term.syn at this ⊢
          rwa [h]
      · rw [bind_eq_ok] at hx
        obtain ⟨o, ho, hx⟩ := hx
        rcases o with _ | ⟨qs', f'⟩
        · rw [bind_eq_ok] at hx
          obtain ⟨sorted, hso, hx⟩ := hx
          split at hx
          · cases hx
          · rw [bind_eq_ok] at hx
            obtain ⟨r', hr', hx⟩ := hx
            cases hx
        · cases hx
  · refine ⟨sortInv_start k divs hf.degs hf.canon fun t ht => Poly.le_lm ht, hf.over, ⟨?_, ?_⟩, ?_, ?_, ?_,
      fun _ => .inl rfl⟩
    · intro t ht; cases ht
    · exact List.nodup_nil
    · intro t ht; cases ht
    · intro q hq
      rw [List.eq_of_mem_replicate hq]
      intro t ht; cases ht
    · intro t ht; cases ht

include S in
theorem Shrinks.tryReduce (k : OrdKind) {f g : Poly F} (hf : Poly.Sound n P f) (hg : Poly.Sound n P g) :
    Spec (fun _ => True) (tryReduce (k.order .debug) f g) (fun o => ∀ s, o = some s → Poly.Sound n P s) := by
  refine (S.ends.tryReduce (fun _ _ => k.ends _ _ _) _ _).spec fun o ho s hs => ?_
  subst hs
  have hov := over_tryReduce S.closed hf.over hg.over _ ho _ rfl
  unfold Computer.tryReduce at ho
  rw [bind_eq_ok] at ho
  obtain ⟨oF, hoF, ho⟩ := ho
  rcases oF with _ | ltF
  · cases ho
  dsimp only at ho
  rw [bind_eq_ok] at ho
  obtain ⟨oG, hoG, ho⟩ := ho
  rcases oG with _ | ltG
  · cases ho
  have hF := (leadingTerm_mem k hf.degs hoF).1
  have hG := (leadingTerm_mem k hg.degs hoG).1
  have hzF := hf.canon.ne _ hF
  have hzG := hg.canon.ne _ hG
  have hl : monicLcm ltF ltG = Term.monic (lcmMDeg ltF.mdeg ltG.mdeg) := by
    unfold monicLcm
    rw [if_neg (by simp [hzF, hzG])]
  have hlz : (monicLcm ltF ltG).isZero = false := by rw [hl]; exact S.one_ne
  have hlP : P (monicLcm ltF ltG).coef := by rw [hl]; exact S.closed.one
  have hld : (monicLcm ltF ltG).mdeg.Clean ∧ (monicLcm ltF ltG).mdeg.InVars (Fin n) := by
    rw [hl]
    exact ⟨lcmMDeg_clean (hf.degs _ hF).1 (hg.degs _ hG).1, lcmMDeg_vars (hf.degs _ hF).2 (hg.degs _ hG).2⟩
  dsimp only at ho
  rw [bind_eq_ok] at ho
  obtain ⟨oa, hoa, ho⟩ := ho
  rcases oa with _ | a
  · cases ho
  dsimp only at ho
  rw [bind_eq_ok] at ho
  obtain ⟨af, haf, ho⟩ := ho
  rw [bind_eq_ok] at ho
  obtain ⟨ob, hob, ho⟩ := ho
  rcases ob with _ | b
  · cases ho
  dsimp only at ho
  simp only [bind_eq_ok] at ho
  obtain ⟨bg, hbg, s', hs', ho⟩ := ho
  cases ho
  have hqa := (tryDiv_coef hlz hoa).2
  have hda := tryDiv_degs hld (hf.degs _ hF).1 hoa
  have hdb := tryDiv_degs hld (hg.degs _ hG).1 hob
  have hcaf := (S.mulTerm hf.degs hf.canon hf.over hda (S.div_ne _ _ _ hlP (hf.over _ hF) hqa hlz hzF)
    (S.closed.div _ _ hlP (hf.over _ hF) hzF _ hqa) haf).1
  exact ⟨(hf.degs.mulTerm S.build hda haf).sub (hg.degs.mulTerm S.build hdb hbg) hs',
    (C94_sub_partial _ _ _ hcaf hs').1, hov⟩

include S in
theorem Shrinks.divCoef {p r : Poly F} {c : F} (hp : Poly.Sound n P p) (hc : P c)
    (hz : RField.beq c RField.zero = false) (h : Poly.divCoef p c = .ok r) :
    Poly.Sound n P r ∧ (p ≠ [] → r ≠ []) ∧ ∀ u ∈ r, ∃ s ∈ p, u.mdeg.toF (Fin n) = s.mdeg.toF (Fin n) := by
  have hov := Poly.over_divCoef S.closed hp.over hc hz _ h
  unfold Poly.divCoef at h
  rw [bind_eq_ok] at h
  obtain ⟨i, hi, h⟩ := h
  have hd : (Term.constantUnchecked i).mdeg.Clean ∧ (Term.constantUnchecked i).mdeg.InVars (Fin n) :=
    ⟨MDeg.zero_clean, MDeg.InVars.zero⟩
  have hiz : (Term.constantUnchecked i).isZero = false := S.inv_ne _ _ hc hi hz
  obtain ⟨h1, h2, h3⟩ := S.mulTerm hp.degs hp.canon hp.over hd hiz (S.closed.inv _ hc hz _ hi) h
  refine ⟨⟨hp.degs.mulTerm S.build hd h, h1, hov⟩, fun hne hr => ?_, fun u hu => ?_⟩
  · obtain ⟨t, ht⟩ := List.exists_mem_of_ne_nil _ hne
    obtain ⟨u, hu, _⟩ := h2 t ht
    rw [hr] at hu; simp at hu
  · obtain ⟨t, ht, h⟩ := h3 u hu
    refine ⟨t, ht, ?_⟩
    rw [h]
    change _ + MDeg.toF (Fin n) MDeg.zero = _
    rw [MDeg.toF_zero, add_zero]

/-! ### Buchberger's algorithm -/

/-- Fine and not zero. -/
def FineGens (n : ℕ) (P : F → Prop) (gens : List (Poly F)) : Prop := ∀ g ∈ gens, Poly.Sound n P g ∧ g ≠ []

omit [RField F] in
theorem index_ends {α : Type} (l : List α) (i : ℕ) :
    Spec (fun _ => True) (Computer.index l i) (fun a => ∃ h : i < l.length, a = l[i]) := by
  refine (OpsEnd.index l i).spec fun a ha => ?_
  unfold Computer.index at ha
  split at ha
  · rename_i b hb
    cases ha
    obtain ⟨h, rfl⟩ := List.getElem?_eq_some_iff.mp hb
    exact ⟨h, rfl⟩
  · cases ha

include S in
theorem Shrinks.criterionFor (k : OrdKind) {gens : List (Poly F)} (hg : FineGens n P gens) (L : List (ℕ × ℕ)) :
    Ends (criterionFor (k.order .debug) gens L) := by
  induction L with
  | nil => exact Ends.ok _
  | cons x L ih =>
    obtain ⟨i, j⟩ := x
    unfold Computer.criterionFor
    refine (OpsEnd.index _ _).bind fun gi hi => (OpsEnd.index _ _).bind fun gj hj => ?_
    have mi := (hg _ (index_holds_mem _ hi)).1
    have mj := (hg _ (index_holds_mem _ hj)).1
    refine (S.tryReduce k mi mj).ends.bind fun o ho => ?_
    rcases o with _ | s
    · exact Ends.panic _
    · have hs := (S.tryReduce k mi mj).of_ok ho s rfl
      refine (S.divide k hs fun g h => (hg g h).1).ends.bind fun x _ => ?_
      obtain ⟨r, qs⟩ := x
      dsimp only
      split
      · exact Ends.pure _
      · exact ih

include S in
theorem Shrinks.extendFor (k : OrdKind) {gens : List (Poly F)} (hg : FineGens n P gens) (i : ℕ) (L : List ℕ) :
    Spec (fun _ => True) (extendFor (k.order .debug) gens i L) (fun o => ∀ r, o = some r →
      Poly.Sound n P r ∧ r ≠ [] ∧ ∀ g ∈ gens, ¬ g.lm (k.mathlib n) ≤ r.lm (k.mathlib n)) := by
  induction L with
  | nil => exact (Ends.ok _).spec fun o ho r hr => by cases ho; cases hr
  | cons j L ih =>
    unfold Computer.extendFor
    refine (index_ends _ _).bind ?_
    rintro gi ⟨hi, rfl⟩
    refine (index_ends _ _).bind ?_
    rintro gj ⟨hj, rfl⟩
    refine (S.tryReduce k (hg _ (List.getElem_mem hi)).1 (hg _ (List.getElem_mem hj)).1).bind fun o ho => ?_
    rcases o with _ | s
    · exact trivial
    · refine (S.divide k (ho s rfl) fun g h => (hg g h).1).bind ?_
      rintro ⟨r, qs⟩ ⟨hr, hirr, -⟩
      dsimp only at hr hirr ⊢
      refine ((OpsEnd.leadingCoef (fun _ _ => k.ends _ _ _) r).spec fun a ha => ha).bind fun o ho => ?_
      rcases o with _ | lc
      · exact ih
      · have hlc : ∃ t ∈ r, t.coef = lc := by
          unfold Computer.leadingCoef at ho
          rw [bind_eq_ok] at ho
          obtain ⟨t, ht, ho⟩ := ho
          rcases t with _ | t
          · cases ho
          · cases ho; exact ⟨t, (leadingTerm_mem k hr.degs ht).1, rfl⟩
        obtain ⟨t, ht, rfl⟩ := hlc
        refine ((S.ends.divCoef r t.coef).spec fun a ha => ha).bind fun r' hr' => ?_
        obtain ⟨h1, h2, h3⟩ := S.divCoef hr (hr.over _ ht) (hr.canon.ne _ ht) hr'
        rintro _ ⟨⟩
        have hne := h2 (List.ne_nil_of_mem ht)
        refine ⟨h1, hne, fun g hgm => ?_⟩
        obtain ⟨u, hu, hue⟩ := Poly.exists_lm (m := k.mathlib n) hne
        obtain ⟨v, hv, hve⟩ := h3 u hu
        rw [← hue, hve]
        exact hirr v hv g hgm (hg g hgm).2

/-- The leading monomials. -/
def lms (m : MonomialOrder (Fin n)) (gens : List (Poly F)) : Set (Fin n →₀ ℕ) := {d | ∃ g ∈ gens, g.lm m = d}

include S in
theorem Shrinks.extend (k : OrdKind) {gens : List (Poly F)} (hg : FineGens n P gens) :
    Spec (fun _ => True) (buchbergerExtend (k.order .debug) gens) (FineGens n P) := by
  classical
  unfold Computer.buchbergerExtend
  have : IsNoetherianRing (MvPolynomial (Fin n) ℚ) := MvPolynomial.isNoetherianRing
  refine loop_spec (Prod.Lex (fun I J : Ideal (MvPolynomial (Fin n) ℚ) => J < I) ((· < ·) : ℕ → ℕ → Prop))
    (WellFounded.prod_lex (wellFounded_gt (α := Ideal (MvPolynomial (Fin n) ℚ))) wellFounded_lt)
    (fun s : List (Poly F) × ℕ => FineGens n P s.1)
    (fun s => (monIdeal ℚ (lms (k.mathlib n) s.1), s.1.length - s.2)) _ ?_ _ hg
  rintro ⟨G, i⟩ hG
  unfold Computer.extendStep
  dsimp only at hG ⊢
  split
  · rename_i hi
    refine (S.extendFor k hG i _).bind fun o ho => ?_
    rcases o with _ | r
    · refine ⟨hG, Prod.Lex.right _ ?_⟩
      dsimp only
      omega
    · obtain ⟨h1, h2, h3⟩ := ho r rfl
      refine ⟨?_, Prod.Lex.left _ _ ?_⟩
      · intro g hg
        rcases List.mem_append.mp hg with h | h
        · exact hG g h
        · rw [List.mem_singleton.mp h]; exact ⟨h1, h2⟩
      · have : lms (k.mathlib n) (G ++ [r]) = insert (r.lm (k.mathlib n)) (lms (k.mathlib n) G) := by
          ext d
          simp only [lms, List.mem_append, List.mem_singleton, Set.mem_ofPred_eq, Set.mem_insert_iff]
          constructor
          · rintro ⟨g, hg | rfl, rfl⟩
            · exact Or.inr ⟨g, hg, rfl⟩
            · exact Or.inl rfl
          · rintro (rfl | ⟨g, hg, rfl⟩)
            · exact ⟨r, Or.inr rfl, rfl⟩
            · exact ⟨g, Or.inl hg, rfl⟩
        dsimp only
        rw [this]
        refine monIdeal_lt ?_
        rintro _ ⟨g, hg, rfl⟩
        exact h3 g hg
  · exact hG

theorem unwrap_lm (k : OrdKind) {g : Poly F} (hg : g.Degs n) :
    Spec (fun _ => True) (unwrapLeadingTerm (k.order .debug) g) (fun t => t ∈ g ∧
      t.mdeg.toF (Fin n) = g.lm (k.mathlib n)) := by
  refine (OpsEnd.unwrapLeadingTerm (fun _ _ => k.ends _ _ _) g).spec fun t ht => ?_
  unfold Computer.unwrapLeadingTerm at ht
  rw [bind_eq_ok] at ht
  obtain ⟨o, ho, ht⟩ := ht
  rcases o with _ | u
  · cases ht
  · cases ht; exact leadingTerm_lm k hg ho

omit [RField F] in
theorem divides_lm [RField F] {s t : Term F} (hs : s.isZero = false) (hd : s.mdeg.Clean ∧ s.mdeg.InVars (Fin n)) :
    s.divides t = true ↔ s.mdeg.toF (Fin n) ≤ t.mdeg.toF (Fin n) := by
  unfold Term.divides
  rw [hs, ← MDeg.isSucc_den hd.1 hd.2]
  simp

theorem minimizeFor_lm (k : OrdKind) {gens : List (Poly F)} (hg : FineGens n P gens) (L : List (ℕ × ℕ)) :
    Spec (fun _ => True) (minimizeFor (k.order .debug) gens L) (fun o => match o with
      | none => ∀ x ∈ L, ∀ (hi : x.1 < gens.length) (hj : x.2 < gens.length),
          ¬ gens[x.2].lm (k.mathlib n) ≤ gens[x.1].lm (k.mathlib n)
      | some i => i < gens.length) := by
  induction L with
  | nil => exact (Ends.ok _).spec fun o ho => by cases ho; intro x hx; simp at hx
  | cons x L ih =>
    obtain ⟨i, j⟩ := x
    unfold Computer.minimizeFor
    refine (index_ends _ _).bind ?_
    rintro gj ⟨hj, rfl⟩
    have mj := (hg _ (List.getElem_mem hj)).1
    refine (unwrap_lm k mj.degs).bind fun ltJ hJ => ?_
    refine (index_ends _ _).bind ?_
    rintro gi ⟨hi, rfl⟩
    have mi := (hg _ (List.getElem_mem hi)).1
    refine (unwrap_lm k mi.degs).bind fun ltI hI => ?_
    have hdiv := divides_lm (t := ltI) (mj.canon.ne _ hJ.1) (mj.degs _ hJ.1)
    rw [hJ.2, hI.2] at hdiv
    split
    · exact hi
    · rename_i hd
      refine ih.imp ?_
      rintro (_ | k) h
      · intro x hx
        rcases List.mem_cons.mp hx with rfl | hx
        · intro _ _ hle
          exact hd (hdiv.mpr hle)
        · exact h x hx
      · exact h

/-- No leading monomial divides another. -/
def LmsFree (m : MonomialOrder (Fin n)) (gens : List (Poly F)) : Prop :=
  gens.Pairwise fun f g => ¬ f.lm m ≤ g.lm m ∧ ¬ g.lm m ≤ f.lm m

theorem minimize_lm (k : OrdKind) {gens : List (Poly F)} (hg : FineGens n P gens) :
    Spec (fun _ => True) (buchbergerMinimize (k.order .debug) gens) (fun G => FineGens n P G ∧
      LmsFree (k.mathlib n) G) := by
  unfold Computer.buchbergerMinimize
  refine loop_spec (· < ·) wellFounded_lt (fun G : List (Poly F) => FineGens n P G) List.length _ ?_ _ hg
  intro G hG
  unfold Computer.minimizeStep
  refine (minimizeFor_lm k hG _).bind ?_
  rintro (_ | i) h
  · refine ⟨hG, ?_⟩
    unfold LmsFree
    rw [List.pairwise_iff_getElem]
    intro i j hi hj hij
    exact ⟨h (j, i) (mem_pairsIter.mpr ⟨hj, hi, by omega⟩) hj hi,
      h (i, j) (mem_pairsIter.mpr ⟨hi, hj, by omega⟩) hi hj⟩
  · dsimp only at h
    refine ⟨fun g hg => hG g (List.mem_of_mem_eraseIdx hg), ?_⟩
    rw [List.length_eraseIdx_of_lt h]
    omega

theorem reduceTerms_lm (k : OrdKind) {g : Poly F} (hg : Poly.Sound n P g) (ts : List (Term F)) :
    Spec (fun _ => True) (reduceTerms (k.order .debug) g ts) (fun b => b = true →
      ∃ t ∈ ts, g.lm (k.mathlib n) ≤ t.mdeg.toF (Fin n)) := by
  induction ts with
  | nil => exact (Ends.ok _).spec fun o ho => by cases ho; simp
  | cons t ts ih =>
    unfold Computer.reduceTerms
    refine (unwrap_lm k hg.degs).bind fun ltJ hJ => ?_
    have hdiv := divides_lm (t := t) (hg.canon.ne _ hJ.1) (hg.degs _ hJ.1)
    rw [hJ.2] at hdiv
    split
    · rename_i hd
      exact fun _ => ⟨t, by simp, hdiv.mp hd⟩
    · refine ih.imp fun b hb h => ?_
      obtain ⟨u, hu, hle⟩ := hb h
      exact ⟨u, by simp [hu], hle⟩

theorem reduceFor_lm (k : OrdKind) {gens : List (Poly F)} (hg : FineGens n P gens) (L : List (ℕ × ℕ))
    (hL : ∀ x ∈ L, x.1 ≠ x.2) :
    Spec (fun _ => True) (reduceFor (k.order .debug) gens L) (fun o => ∀ i, o = some i →
      ∃ (hi : i < gens.length) (j : ℕ) (hj : j < gens.length), j ≠ i ∧
        ∃ t ∈ gens[i], gens[j].lm (k.mathlib n) ≤ t.mdeg.toF (Fin n)) := by
  induction L with
  | nil => exact (Ends.ok _).spec fun o ho i hi => by cases ho; cases hi
  | cons x L ih =>
    obtain ⟨i, j⟩ := x
    unfold Computer.reduceFor
    refine (index_ends _ _).bind ?_
    rintro gi ⟨hi, rfl⟩
    refine (index_ends _ _).bind ?_
    rintro gj ⟨hj, rfl⟩
    refine (reduceTerms_lm k (hg _ (List.getElem_mem hj)).1 _).bind fun b hb => ?_
    split
    · rename_i hd
      rintro _ ⟨⟩
      obtain ⟨t, ht, hle⟩ := hb hd
      exact ⟨hi, j, hj, (hL (i, j) (by simp)).symm, t, ht, hle⟩
    · exact ih fun x hx => hL x (by simp [hx])

/-- No term is divisible by another leading monomial. -/
def LmReduced (m : MonomialOrder (Fin n)) (D : Set (Fin n →₀ ℕ)) (f : Poly F) : Prop :=
  ∀ d ∈ D, d ≠ f.lm m → ∀ t ∈ f, ¬ d ≤ t.mdeg.toF (Fin n)

include S in
theorem Shrinks.reduce (k : OrdKind) {gens : List (Poly F)} (hg : FineGens n P gens)
    (hinc : LmsFree (k.mathlib n) gens) : Ends (buchbergerReduce (k.order .debug) gens) := by
  classical
  unfold Computer.buchbergerReduce
  refine Spec.ends (E := fun _ => True) (P := fun _ => True) (loop_spec (· < ·) wellFounded_lt
    (fun G : List (Poly F) => FineGens n P G ∧ LmsFree (k.mathlib n) G ∧
      lms (k.mathlib n) G = lms (k.mathlib n) gens)
    (fun G => G.countP fun g => ¬ LmReduced (k.mathlib n) (lms (k.mathlib n) gens) g) _ ?_ _ ⟨hg, hinc, rfl⟩)
  rintro G ⟨hok, hinc, hlead⟩
  unfold Computer.reduceStep
  refine (reduceFor_lm k hok _ fun x hx => (mem_pairsIter.mp hx).2.2).bind ?_
  rintro (_ | i) h
  · exact trivial
  · obtain ⟨hi, j, hj, hji, e, he, hle⟩ := h i rfl
    dsimp only
    refine (index_ends _ _).bind ?_
    rintro g ⟨_, rfl⟩
    have mi := List.getElem_mem hi
    have mj := List.getElem_mem hj
    have hsub : ∀ g ∈ G.eraseIdx i, g ∈ G := fun g hg => List.mem_of_mem_eraseIdx hg
    have hperm : (G[i] :: G.eraseIdx i).Perm G := List.getElem_cons_eraseIdx_perm hi
    have hinc' : LmsFree (k.mathlib n) (G[i] :: G.eraseIdx i) :=
      (hperm.symm.pairwise_iff (fun h => ⟨h.2, h.1⟩)).mp hinc
    have hothers := (List.pairwise_cons.mp hinc').1
    have hjo : G[j] ∈ G.eraseIdx i := List.mem_eraseIdx_iff_getElem.mpr ⟨j, hj, hji, rfl⟩
    refine (S.divide k (hok _ mi).1 fun g h => (hok g (hsub g h)).1).bind ?_
    rintro ⟨r, qs⟩ ⟨hr, hirr, hkeep⟩
    dsimp only at hr hirr hkeep ⊢
    obtain ⟨hrne, hlt⟩ := hkeep (hok _ mi).2 fun g hg _ => (hothers g hg).2
    have hlead' : lms (k.mathlib n) (G.eraseIdx i ++ [r]) = lms (k.mathlib n) G := by
      ext d
      constructor
      · rintro ⟨g, hg, rfl⟩
        rcases List.mem_append.mp hg with h | h
        · exact ⟨g, hsub g h, rfl⟩
        · rw [List.mem_singleton.mp h]; exact ⟨_, mi, hlt.symm⟩
      · rintro ⟨g, hg, rfl⟩
        rcases List.mem_cons.mp (hperm.mem_iff.mpr hg) with rfl | h
        · exact ⟨r, by simp, hlt⟩
        · exact ⟨g, by simp [h], rfl⟩
    refine ⟨⟨?_, ?_, hlead'.trans hlead⟩, ?_⟩
    · intro g hg
      rcases List.mem_append.mp hg with h | h
      · exact hok g (hsub g h)
      · rw [List.mem_singleton.mp h]; exact ⟨hr, hrne⟩
    · refine ((List.perm_append_singleton r _).symm.pairwise_iff (fun h => ⟨h.2, h.1⟩)).mp ?_
      refine List.pairwise_cons.mpr ⟨?_, (List.pairwise_cons.mp hinc').2⟩
      rw [hlt]
      exact hothers
    · have c1 : ¬ LmReduced (k.mathlib n) (lms (k.mathlib n) gens) G[i] := by
        intro hR
        refine hR _ (by rw [← hlead]; exact ⟨_, mj, rfl⟩) ?_ e he hle
        intro heq
        exact (hothers _ hjo).1 heq.ge
      have c2 : LmReduced (k.mathlib n) (lms (k.mathlib n) gens) r := by
        rintro d hd hne t ht
        rw [← hlead, ← hlead'] at hd
        obtain ⟨g, hg, rfl⟩ := hd
        rcases List.mem_append.mp hg with h | h
        · exact hirr t ht g h (hok g (hsub g h)).2
        · rw [List.mem_singleton.mp h] at hne; exact absurd rfl hne
      rw [← hperm.countP_eq, (List.perm_append_singleton r (G.eraseIdx i)).countP_eq,
        List.countP_cons_of_neg (by simpa using c2), List.countP_cons_of_pos (by simpa using c1)]
      omega

include S in
theorem Shrinks.algorithm (k : OrdKind) {gens : List (Poly F)} (hg : FineGens n P gens) :
    Ends (buchbergerAlgorithm (k.order .debug) gens) := by
  unfold Computer.buchbergerAlgorithm
  refine (S.extend k hg).ends.bind fun G hG => ?_
  have hG := (S.extend k hg).of_ok hG
  refine (minimize_lm k hG).ends.bind fun H hH => ?_
  have hH := (minimize_lm k hG).of_ok hH
  exact S.reduce k hH.1 hH.2

end Verif
