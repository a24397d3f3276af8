import Verif.Proofs.Elts
import Verif.Proofs.Ord
import Verif.Poly.Comp
import Mathlib.RingTheory.MvPolynomial.MonomialOrder
import Mathlib.Order.WithBot

/-! # Sorting, leading terms and the division algorithm -/

namespace Verif
open Res MvPolynomial LawfulRField

theorem Res.Spec.map {α β : Type} {E : Panic → Prop} {x : Res α} {f : α → β} {P : β → Prop}
    (h : Spec E x (fun a => P (f a))) : Spec E (f <$> x) P := by
  cases x <;> exact h

/-! ## `max_by` and `sort_by` -/

section
variable {α : Type} {S : Type*} [LinearOrder S] {E : Panic → Prop} {cmp : α → α → Res Ordering}

theorem maxBy_spec (key : α → S) (l : List α)
    (h : ∀ a ∈ l, ∀ b ∈ l, Spec E (cmp a b) (fun o => o = compare (key a) (key b))) :
    Spec E (maxBy cmp l) (fun o => match o with
      | none => l = []
      | some x => x ∈ l ∧ ∀ y ∈ l, key y ≤ key x) := by
  cases l with
  | nil => exact rfl
  | cons x xs =>
    refine Spec.map ?_
    refine (foldlM_spec (fun done b => b ∈ x :: done ∧ ∀ y ∈ x :: done, key y ≤ key b)
      ⟨by simp, by simp⟩ ?_).imp fun b hb => hb
    intro done y rest best hl hb
    have hbm : best ∈ x :: xs := by
      rcases List.mem_cons.mp hb.1 with h | h
      · simp [h]
      · simp [hl, h]
    refine (h best hbm y (by simp [hl])).bind fun o ho => ?_
    subst ho
    have mono : ∀ z, z ∈ x :: (done ++ [y]) → z ∈ x :: done ∨ z = y := by
      intro z hz; simp at hz ⊢; tauto
    rcases lt_trichotomy (key best) (key y) with hlt | heq | hgt
    · rw [compare_lt_iff_lt.mpr hlt]
      refine ⟨by simp, fun z hz => ?_⟩
      rcases mono z hz with hz | rfl
      · exact (hb.2 z hz).trans hlt.le
      · exact le_refl _
    · rw [compare_eq_iff_eq.mpr heq]
      refine ⟨by simp, fun z hz => ?_⟩
      rcases mono z hz with hz | rfl
      · exact (hb.2 z hz).trans heq.le
      · exact le_refl _
    · rw [compare_gt_iff_gt.mpr hgt]
      refine ⟨by have := hb.1; simp at this ⊢; tauto, fun z hz => ?_⟩
      rcases mono z hz with hz | rfl
      · exact hb.2 z hz
      · exact hgt.le

theorem insertBy_spec (key : α → S) (x : α) (l : List α)
    (h : ∀ b ∈ l, Spec E (cmp x b) (fun o => o = compare (key x) (key b)))
    (hs : l.Pairwise fun a b => key a ≤ key b) :
    Spec E (insertBy cmp x l) (fun r => r.Perm (x :: l) ∧ r.Pairwise fun a b => key a ≤ key b) := by
  induction l with
  | nil => exact ⟨List.Perm.refl _, by simp⟩
  | cons y ys ih =>
    unfold insertBy
    refine (h y (by simp)).bind fun o ho => ?_
    subst ho
    rw [List.pairwise_cons] at hs
    have tail : key y ≤ key x → Spec E (do let ys' ← insertBy cmp x ys; pure (y :: ys'))
        (fun r => r.Perm (x :: y :: ys) ∧ r.Pairwise fun a b => key a ≤ key b) := by
      intro hle
      refine (ih (fun b hb => h b (by simp [hb])) hs.2).bind fun r hr => ?_
      refine ⟨(hr.1.cons y).trans (List.Perm.swap x y ys), ?_⟩
      rw [List.pairwise_cons]
      refine ⟨fun z hz => ?_, hr.2⟩
      rcases List.mem_cons.mp (hr.1.mem_iff.mp hz) with rfl | hz
      · exact hle
      · exact hs.1 z hz
    rcases lt_trichotomy (key x) (key y) with hlt | heq | hgt
    · rw [compare_lt_iff_lt.mpr hlt]
      refine ⟨List.Perm.refl _, ?_⟩
      rw [List.pairwise_cons, List.pairwise_cons]
      refine ⟨fun z hz => ?_, hs⟩
      rcases List.mem_cons.mp hz with rfl | hz
      · exact hlt.le
      · exact hlt.le.trans (hs.1 z hz)
    · rw [compare_eq_iff_eq.mpr heq]; exact tail heq.ge
    · rw [compare_gt_iff_gt.mpr hgt]; exact tail hgt.le

theorem sortBy_spec (key : α → S) (l : List α)
    (h : ∀ a ∈ l, ∀ b ∈ l, Spec E (cmp a b) (fun o => o = compare (key a) (key b))) :
    Spec E (sortBy cmp l) (fun r : List α => r.Perm l ∧ r.Pairwise fun a b => key a ≤ key b) := by
  unfold sortBy
  refine foldlM_spec (fun (done r : List α) => r.Perm done ∧ r.Pairwise fun a b => key a ≤ key b)
    ⟨List.Perm.refl _, by simp⟩ ?_
  intro done a rest c hl hc
  refine (insertBy_spec key a c (fun b hb => h a (by simp [hl]) b ?_) hc.2).imp fun r hr =>
    ⟨hr.1.trans ?_, hr.2⟩
  · have := hc.1.mem_iff.mp hb; simp [hl, this]
  · exact (hc.1.cons a).trans (List.perm_append_singleton a done).symm

end

/-! ## Lawful orders -/

/-- `O` implements the monomial order `m` on the multidegrees in the region `B`, up to the panics in
`E`.  `B` is closed downwards; outside of `E ∋ overflowU8` it must guarantee `u8` exponents. -/
structure LawfulOrder {σ : Type} [VarIdx σ] (O : MOrder) (m : MonomialOrder σ)
    (B : (σ →₀ ℕ) → Prop) (E : Panic → Prop) : Prop where
  down : ∀ a b, B b → m.toSyn a ≤ m.toSyn b → B a
  ovf : E .overflowU8 ∨ ∀ e, B e → ∀ s, e s < 256
  cmp : ∀ a b : MDeg, a.Clean → b.Clean → a.InVars σ → b.InVars σ → B (a.toF σ) → B (b.toF σ) →
    Spec E (O.cmp a b) (fun o => o = compare (m.toSyn (a.toF σ)) (m.toSyn (b.toF σ)))

theorem extend_toF {n : ℕ} {a : MDeg} (ha : a.length ≤ n) : extend (a.toF (Fin n)) = a.deg := by
  funext i
  unfold extend
  split
  · rfl
  · exact (MDeg.deg_of_length_le (by omega)).symm

theorem CmpMeans.compare {n : ℕ} {k : OrdKind} {a b : MDeg} (ha : a.length ≤ n) (hb : b.length ≤ n)
    {o : Ordering} (h : CmpMeans n k a b o) :
    o = compare ((k.mathlib n).toSyn (a.toF (Fin n))) ((k.mathlib n).toSyn (b.toF (Fin n))) := by
  symm
  cases o with
  | lt => rw [compare_lt_iff_lt, OrdKind.mathlib_lt, extend_toF ha, extend_toF hb]; exact h
  | eq => rw [compare_eq_iff_eq]; simp only [CmpMeans] at h; rw [h]
  | gt => rw [compare_gt_iff_gt, OrdKind.mathlib_lt, extend_toF ha, extend_toF hb]; exact h

/-- The four orders of the crate, in `n` variables. -/
theorem OrdKind.lawful (k : OrdKind) (n : ℕ) {E : Panic → Prop} (hE : E .overflowU8) :
    LawfulOrder (σ := Fin n) (k.order .debug) (k.mathlib n) (fun _ => True) E where
  down _ _ _ _ := trivial
  ovf := Or.inl hE
  cmp a b ha hb hav hbv _ _ := by
    rw [MDeg.inVars_fin ha] at hav
    rw [MDeg.inVars_fin hb] at hbv
    refine (cmp_spec k ha hb hav hbv).mono ?_ fun o ho => ho.compare hav hbv
    rintro p ⟨rfl, _⟩; exact hE

theorem tot_extend {n : ℕ} (e : Fin n →₀ ℕ) : tot n (extend e) = ∑ s, e s := by
  unfold tot
  rw [← Fin.sum_univ_eq_sum_range]
  refine Finset.sum_congr rfl fun s _ => ?_
  simp [extend]

/-- The graded orders on the monomials of total degree at most 255: no panic at all. -/
theorem OrdKind.lawful_graded (k : OrdKind) (hk : k.graded = true) (n : ℕ) {E : Panic → Prop} :
    LawfulOrder (σ := Fin n) (k.order .debug) (k.mathlib n) (fun e => ∑ s, e s ≤ 255) E where
  down a b hb hab := by
    have : tot n (extend a) ≤ tot n (extend b) := by
      rcases hab.lt_or_eq with h | h
      · rw [OrdKind.mathlib_lt] at h
        cases k
        · simp [graded] at hk
        · simp [graded] at hk
        · rcases h with h | h
          · exact h.le
          · exact h.1.le
        · rcases h with h | h
          · exact h.le
          · exact h.1.le
      · rw [(k.mathlib n).toSyn.injective h]
    rw [tot_extend, tot_extend] at this
    exact this.trans hb
  ovf := Or.inr fun e he s => by
    have := Finset.single_le_sum (f := fun s => e s) (fun _ _ => Nat.zero_le _) (Finset.mem_univ s)
    omega
  cmp a b ha hb hav hbv hBa hBb := by
    rw [MDeg.inVars_fin ha] at hav
    rw [MDeg.inVars_fin hb] at hbv
    refine (cmp_spec k ha hb hav hbv).mono ?_ fun o ho => ho.compare hav hbv
    rintro p ⟨rfl, _, h⟩
    rw [sum_eq_tot hav, sum_eq_tot hbv, ← extend_toF hav, ← extend_toF hbv, tot_extend,
      tot_extend] at h
    omega

/-! ## Degrees -/

section
variable {σ : Type} {K : Type} [Field K] (m : MonomialOrder σ)

theorem degree_le_of_support {f : MvPolynomial σ K} {d : m.syn}
    (h : ∀ e ∈ f.support, m.toSyn e ≤ d) : m.toSyn (m.degree f) ≤ d := by
  by_cases hf : f = 0
  · subst hf
    rw [m.degree_zero, map_zero]
    have : m.toSyn 0 ≤ m.toSyn (m.toSyn.symm d) := m.toSyn_monotone (zero_le)
    simp
  · exact h _ (m.degree_mem_support hf)

theorem degree_lt_of_coeff {f : MvPolynomial σ K} {d : σ →₀ ℕ} (hf : f ≠ 0)
    (h : ∀ e ∈ f.support, m.toSyn e ≤ m.toSyn d) (h0 : coeff d f = 0) :
    m.toSyn (m.degree f) < m.toSyn d := by
  have hmem := m.degree_mem_support hf
  refine lt_of_le_of_ne (h _ hmem) fun he => ?_
  rw [m.toSyn.injective he] at hmem
  exact mem_support_iff.mp hmem h0

/-- Subtracting something with the same leading term lowers the degree. -/
theorem degree_sub_lt {f g : MvPolynomial σ K} (hd : m.degree f = m.degree g)
    (hc : m.leadingCoeff f = m.leadingCoeff g) (hne : f - g ≠ 0) :
    m.toSyn (m.degree (f - g)) < m.toSyn (m.degree f) := by
  classical
  refine degree_lt_of_coeff m hne ?_ ?_
  · intro e he
    rcases Finset.mem_union.mp (support_sub _ f g he) with h | h
    · exact m.le_degree h
    · rw [hd]; exact m.le_degree h
  · rw [coeff_sub]
    change m.leadingCoeff f - _ = 0
    rw [hc, hd]; exact sub_self _

/-- The degree as an element of `WithBot`, `⊥` for zero: a termination measure. -/
noncomputable def wdeg (f : MvPolynomial σ K) : WithBot m.syn :=
  open scoped Classical in if f = 0 then ⊥ else ((m.toSyn (m.degree f) : m.syn) : WithBot m.syn)

theorem wdeg_lt {f g : MvPolynomial σ K} (hg : g ≠ 0)
    (h : f ≠ 0 → m.toSyn (m.degree f) < m.toSyn (m.degree g)) : wdeg m f < wdeg m g := by
  unfold wdeg
  rw [if_neg hg]
  split
  · exact WithBot.bot_lt_coe _
  · rename_i hf
    exact WithBot.coe_lt_coe.mpr (h hf)

theorem wdeg_wf : WellFounded ((· < ·) : WithBot m.syn → WithBot m.syn → Prop) :=
  wellFounded_lt

end

/-! ## Leading terms -/

section
variable {F : Type} [RField F] {K : Type} [Field K] [LawfulRField F K] {σ : Type} [VarIdx σ]
variable {E : Panic → Prop} {O : MOrder} {m : MonomialOrder σ} {B : (σ →₀ ℕ) → Prop}

/-- All multidegrees of `p` are in the region `B`. -/
def Poly.In (B : (σ →₀ ℕ) → Prop) (p : Poly F) : Prop := ∀ t ∈ p, B (t.mdeg.toF σ)

theorem Poly.in_iff {p : Poly F} (hp : Poly.Clean σ p) :
    Poly.In B p ↔ ∀ e ∈ (Poly.den σ p).support, B e := by
  constructor
  · intro h e he
    obtain ⟨t, ht, rfl⟩ := (Poly.mem_support_den hp).mp he
    exact h t ht
  · intro h t ht
    exact h _ ((Poly.mem_support_den hp).mpr ⟨t, ht, rfl⟩)

theorem LawfulOrder.cmp_terms (hO : LawfulOrder O m B E) {p : Poly F} (hp : Poly.Clean σ p)
    (hB : Poly.In B p) : ∀ s ∈ p, ∀ t ∈ p, Spec E (O.cmp s.mdeg t.mdeg)
      (fun o => o = compare (m.toSyn (s.mdeg.toF σ)) (m.toSyn (t.mdeg.toF σ))) :=
  fun s hs t ht => hO.cmp _ _ (hp.terms s hs).mdeg (hp.terms t ht).mdeg (hp.terms s hs).vars
    (hp.terms t ht).vars (hB s hs) (hB t ht)

/-- A maximal term of a canonical polynomial is its leading term. -/
theorem max_is_leading {p : Poly F} (hp : Poly.Clean σ p) {t : Term F} (ht : t ∈ p)
    (hmax : ∀ u ∈ p, m.toSyn (u.mdeg.toF σ) ≤ m.toSyn (t.mdeg.toF σ)) :
    t.mdeg.toF σ = m.degree (Poly.den σ p) ∧ val t.coef = m.leadingCoeff (Poly.den σ p) := by
  have hne : Poly.den σ p ≠ 0 := by
    rw [Ne, Poly.den_eq_zero_iff hp]; rintro rfl; simp at ht
  have h1 : t.mdeg.toF σ = m.degree (Poly.den σ p) := by
    apply m.toSyn.injective
    apply le_antisymm
    · exact m.le_degree ((Poly.mem_support_den hp).mpr ⟨t, ht, rfl⟩)
    · obtain ⟨u, hu, he⟩ := (Poly.mem_support_den hp).mp (m.degree_mem_support hne)
      rw [← he]; exact hmax u hu
  refine ⟨h1, ?_⟩
  unfold MonomialOrder.leadingCoeff
  rw [← h1, Poly.coeff_den hp ht]

theorem leadingTerm_spec (hO : LawfulOrder O m B E) {p : Poly F} (hp : Poly.Clean σ p)
    (hB : Poly.In B p) :
    Spec E (Computer.leadingTerm O p) (fun o => match o with
      | none => p = []
      | some t => t ∈ p ∧ t.Clean σ ∧ t.mdeg.toF σ = m.degree (Poly.den σ p) ∧
          val t.coef = m.leadingCoeff (Poly.den σ p)) := by
  refine (maxBy_spec (fun t : Term F => m.toSyn (t.mdeg.toF σ)) p (hO.cmp_terms hp hB)).imp ?_
  rintro (_ | t) h
  · exact h
  · have := max_is_leading (m := m) hp h.1 h.2
    exact ⟨h.1, hp.terms t h.1, this.1, this.2⟩

theorem leadingCoef_spec (hO : LawfulOrder O m B E) {p : Poly F} (hp : Poly.Clean σ p)
    (hB : Poly.In B p) :
    Spec E (Computer.leadingCoef O p) (fun o => match o with
      | none => p = []
      | some c => p ≠ [] ∧ wf c ∧ val c ≠ (0 : K) ∧ val c = m.leadingCoeff (Poly.den σ p)) := by
  unfold Computer.leadingCoef
  refine (leadingTerm_spec hO hp hB).bind ?_
  rintro (_ | t) h
  · exact h
  · exact ⟨by rintro rfl; simp at h, h.2.1.wf, h.2.1.ne, h.2.2.2⟩

theorem sortTerms_spec (hO : LawfulOrder O m B E) {p : Poly F} (hp : Poly.Clean σ p)
    (hB : Poly.In B p) :
    Spec E (Computer.sortTerms O p) (fun r => r.Perm p ∧
      r.Pairwise fun a b => m.toSyn (a.mdeg.toF σ) ≤ m.toSyn (b.mdeg.toF σ)) :=
  sortBy_spec (fun t : Term F => m.toSyn (t.mdeg.toF σ)) p (hO.cmp_terms hp hB)

/-! ## Division -/

omit [VarIdx σ] in
/-- Degree of `a * g` and of each of its terms. -/
theorem den_mul_monomial {g : MvPolynomial σ K} (hg : g ≠ 0) {e : σ →₀ ℕ} {c : K} (hc : c ≠ 0) :
    m.degree (g * monomial e c) = m.degree g + e ∧
    m.leadingCoeff (g * monomial e c) = m.leadingCoeff g * c := by
  classical
  have hm : monomial e c ≠ 0 := by rwa [Ne, monomial_eq_zero]
  refine ⟨?_, ?_⟩
  · rw [m.degree_mul hg hm, m.degree_monomial, if_neg hc]
  · rw [m.leadingCoeff_mul, m.leadingCoeff_monomial]

/-- The multiple of a divisor used in a division step does not overflow outside of `E`. -/
theorem mul_no_overflow (hO : LawfulOrder O m B E) {g : Poly F} (hg : Poly.Clean σ g) {a : Term F}
    (ha : a.Clean σ) {d : σ →₀ ℕ} (hd : m.degree (Poly.den σ g) + a.mdeg.toF σ = d) (hB : B d) :
    E .overflowU8 ∨ ∀ u ∈ g, ∀ i, u.mdeg.deg i + a.mdeg.deg i < 256 := by
  refine hO.ovf.imp id fun h u hu i => ?_
  by_cases hi : u.mdeg.deg i + a.mdeg.deg i = 0
  · omega
  · have : ∃ s : σ, VarIdx.idx s = i := by
      by_cases h1 : u.mdeg.deg i = 0
      · exact ha.vars i (by omega)
      · exact (hg.terms u hu).vars i h1
    obtain ⟨s, rfl⟩ := this
    refine h (u.mdeg.toF σ + a.mdeg.toF σ) (hO.down _ d hB ?_) s
    rw [← hd, map_add, map_add]
    have := m.le_degree ((Poly.mem_support_den hg).mpr ⟨u, hu, rfl⟩)
    exact add_le_add_left this _

/-- The inner loop of `divide`. -/
theorem divideFor_spec (hO : LawfulOrder O m B E) (hE : ∀ p, allowed F p → E p) {ltF : Term F}
    {f : Poly F} (hf : Poly.Clean σ f) (hlt : ltF.Clean σ) (hBf : B (ltF.mdeg.toF σ))
    (L : List (Poly F × Poly F))
    (hL : ∀ x ∈ L, Poly.Clean σ x.1 ∧ Poly.In B x.1 ∧ Poly.Clean σ x.2) :
    Spec E (Computer.divideFor O ltF f L) (fun o => match o with
      | none => ∀ x ∈ L, x.1 ≠ [] → ¬ m.degree (Poly.den σ x.1) ≤ ltF.mdeg.toF σ
      | some (qs, f') => Poly.Clean σ f' ∧ ∃ pre g q suf q', ∃ a : Term F, L = pre ++ (g, q) :: suf ∧
          qs = pre.map (·.2) ++ q' :: suf.map (·.2) ∧ g ≠ [] ∧ Poly.Clean σ q' ∧ a.Clean σ ∧
          Poly.den σ q' = Poly.den σ q + a.den σ ∧
          Poly.den σ f' = Poly.den σ f - Poly.den σ g * a.den σ ∧
          ltF.mdeg.toF σ = m.degree (Poly.den σ g) + a.mdeg.toF σ ∧
          val ltF.coef = m.leadingCoeff (Poly.den σ g) * val a.coef) := by
  induction L with
  | nil => intro x hx; simp at hx
  | cons x rest ih =>
    obtain ⟨g, q⟩ := x
    obtain ⟨hg, hgB, hq⟩ := hL (g, q) (by simp)
    have next : (g ≠ [] → ¬ m.degree (Poly.den σ g) ≤ ltF.mdeg.toF σ) →
        Spec E (do
          match ← Computer.divideFor O ltF f rest with
          | none => pure none
          | some (qs, f') => pure (some (q :: qs, f'))) (fun o => match o with
        | none => ∀ x ∈ (g, q) :: rest, x.1 ≠ [] → ¬ m.degree (Poly.den σ x.1) ≤ ltF.mdeg.toF σ
        | some (qs, f') => Poly.Clean σ f' ∧ ∃ pre g' q₀ suf q', ∃ a : Term F,
            (g, q) :: rest = pre ++ (g', q₀) :: suf ∧
            qs = pre.map (·.2) ++ q' :: suf.map (·.2) ∧ g' ≠ [] ∧ Poly.Clean σ q' ∧ a.Clean σ ∧
            Poly.den σ q' = Poly.den σ q₀ + a.den σ ∧
            Poly.den σ f' = Poly.den σ f - Poly.den σ g' * a.den σ ∧
            ltF.mdeg.toF σ = m.degree (Poly.den σ g') + a.mdeg.toF σ ∧
            val ltF.coef = m.leadingCoeff (Poly.den σ g') * val a.coef) := by
      intro hno
      refine (ih fun x hx => hL x (by simp [hx])).bind ?_
      rintro (_ | ⟨qs, f'⟩) ho
      · intro x hx
        rcases List.mem_cons.mp hx with rfl | hx
        · exact hno
        · exact ho x hx
      · obtain ⟨hf', pre, g', q₀, suf, q', a, h1, h2, h3⟩ := ho
        exact ⟨hf', (g, q) :: pre, g', q₀, suf, q', a, by simp [h1], by simp [h2], h3⟩
    unfold Computer.divideFor
    refine (leadingTerm_spec hO hg hgB).bind ?_
    rintro (_ | ltG) hG
    · exact next fun h => absurd hG h
    · obtain ⟨hmem, hltG, hdG, hcG⟩ := hG
      have hgne : g ≠ [] := by rintro rfl; simp at hmem
      have hgden : Poly.den σ g ≠ 0 := by rwa [Ne, Poly.den_eq_zero_iff hg]
      refine ((Term.tryDiv_spec hlt hltG).mono hE fun _ h => h).bind ?_
      rintro (_ | a) ha
      · exact next fun _ => by rw [← hdG]; exact ha
      · obtain ⟨hac, hav, had⟩ := ha
        have hd : m.degree (Poly.den σ g) + a.mdeg.toF σ = ltF.mdeg.toF σ := by
          rw [had, ← hdG, add_comm]
        refine ((Poly.addTerm_spec hq hac.toOk).mono hE fun _ h => h).bind fun q' hq' => ?_
        refine (Poly.mulTerm_spec hg hac.toOk hE (mul_no_overflow hO hg hac hd hBf)).bind
          fun ag hag => ?_
        refine ((Poly.sub_spec hf hag.1).mono hE fun _ h => h).bind fun f' hf' => ?_
        refine ⟨hf'.1, [], g, q, rest, q', a, rfl, rfl, hgne, hq'.1, hac, hq'.2, ?_, hd.symm, ?_⟩
        · rw [hf'.2, hag.2]
        · rw [hav, hcG, mul_div_cancel₀]
          rw [← hcG]; exact hltG.ne

/-- Invariant of the division loop, for dividend `f₀` and divisors `divs`. -/
structure DivInv (m : MonomialOrder σ) (B : (σ →₀ ℕ) → Prop) (f₀ : Poly F) (divs : List (Poly F))
    (s : Computer.DivState F) : Prop where
  clean : Poly.Clean σ s.f
  inB : Poly.In B s.f
  degF : m.toSyn (m.degree (Poly.den σ s.f)) ≤ m.toSyn (m.degree (Poly.den σ f₀))
  pairs : ∃ L : List (Poly F × Poly F), L.map (·.1) = divs ∧ L.map (·.2) = s.quotients ∧
    (∀ x ∈ L, Poly.Clean σ x.2 ∧
      m.toSyn (m.degree (Poly.den σ x.2 * Poly.den σ x.1)) ≤ m.toSyn (m.degree (Poly.den σ f₀))) ∧
    Poly.den σ f₀ = (L.map fun x => Poly.den σ x.2 * Poly.den σ x.1).sum + Poly.den σ s.f +
      Poly.den σ s.remainder
  cleanR : Poly.Clean σ s.remainder
  red : ∀ e ∈ (Poly.den σ s.remainder).support,
    m.toSyn e ≤ m.toSyn (m.degree (Poly.den σ f₀)) ∧
    ∀ g ∈ divs, g ≠ [] → ¬ m.degree (Poly.den σ g) ≤ e

theorem zip_of_maps {α β : Type} (L : List (α × β)) : (L.map (·.1)).zip (L.map (·.2)) = L := by
  induction L with
  | nil => rfl
  | cons x L ih => simp [ih]

theorem divideStep_spec (hO : LawfulOrder O m B E) (hE : ∀ p, allowed F p → E p) {f₀ : Poly F}
    {divs : List (Poly F)} (hdivs : ∀ g ∈ divs, Poly.Clean σ g ∧ Poly.In B g)
    (s : Computer.DivState F) (hs : DivInv m B f₀ divs s) :
    Spec E (Computer.divideStep O divs s) (fun x => match x with
      | .inl s' => DivInv m B f₀ divs s' ∧ wdeg m (Poly.den σ s'.f) < wdeg m (Poly.den σ s.f)
      | .inr (r, qs) => r = s.remainder ∧ qs = s.quotients ∧ s.f = []) := by
  classical
  unfold Computer.divideStep
  refine (leadingTerm_spec hO hs.clean hs.inB).bind ?_
  rintro (_ | ltF) hF
  · exact ⟨rfl, rfl, hF⟩
  · obtain ⟨hmem, hlt, hdF, hcF⟩ := hF
    have hfne : s.f ≠ [] := by intro h; rw [h] at hmem; simp at hmem
    have hfden : Poly.den σ s.f ≠ 0 := by rwa [Ne, Poly.den_eq_zero_iff hs.clean]
    obtain ⟨L, hL1, hL2, hL3, hL4⟩ := hs.pairs
    have hzip : divs.zip s.quotients = L := by rw [← hL1, ← hL2]; exact zip_of_maps L
    rw [hzip]
    refine (divideFor_spec hO hE hs.clean hlt (hs.inB _ hmem) L fun x hx => ?_).bind ?_
    · have hx1 : x.1 ∈ divs := by rw [← hL1]; exact List.mem_map.mpr ⟨x, hx, rfl⟩
      exact ⟨(hdivs _ hx1).1, (hdivs _ hx1).2, (hL3 x hx).1⟩
    rintro (_ | ⟨qs, f'⟩) ho
    · -- no divisor applies: move the leading term to the remainder
      refine (sortTerms_spec hO hs.clean hs.inB).bind fun sorted hsort => ?_
      have hsne : sorted ≠ [] := by
        intro h; rw [h] at hsort; exact hfne (List.nil_perm.mp hsort.1)
      rcases List.eq_nil_or_concat sorted with h | ⟨init, lt, rfl⟩
      · exact absurd h hsne
      rw [List.concat_eq_append] at *
      rw [List.getLast?_append_of_ne_nil _ (by simp)]
      simp only [List.getLast?_singleton]
      have hcs : Poly.Clean σ (init ++ [lt]) := hs.clean.perm hsort.1.symm
      have hltmem : lt ∈ s.f := hsort.1.mem_iff.mp (by simp)
      have hltc := hs.clean.terms lt hltmem
      have hmax : ∀ u ∈ s.f, m.toSyn (u.mdeg.toF σ) ≤ m.toSyn (lt.mdeg.toF σ) := by
        intro u hu
        rcases List.mem_append.mp (hsort.1.mem_iff.mpr hu) with h | h
        · exact (List.pairwise_append.mp hsort.2).2.2 u h lt (by simp)
        · simp at h; rw [h]
      obtain ⟨hld, hlc⟩ := max_is_leading (m := m) hs.clean hltmem hmax
      have hden : Poly.den σ s.f = Poly.den σ init + lt.den σ := by
        rw [← Poly.den_perm hsort.1, Poly.den_append]; simp
      have hinit : Poly.den σ init = Poly.den σ s.f - lt.den σ := by rw [hden]; ring
      refine ((Poly.addTerm_spec hs.cleanR hltc.toOk).mono hE fun _ h => h).bind fun r hr => ?_
      rw [List.dropLast_concat]
      have hci : Poly.Clean σ init := hcs.sublist (List.sublist_append_left _ _)
      have hlt_lc : m.leadingCoeff (lt.den σ) = m.leadingCoeff (Poly.den σ s.f) := by
        unfold Term.den; rw [m.leadingCoeff_monomial, hlc]
      have hlt_deg : m.degree (lt.den σ) = m.degree (Poly.den σ s.f) := by
        unfold Term.den; rw [m.degree_monomial, if_neg hltc.ne, hld]
      have hdec : Poly.den σ init ≠ 0 →
          m.toSyn (m.degree (Poly.den σ init)) < m.toSyn (m.degree (Poly.den σ s.f)) := by
        rw [hinit]; exact degree_sub_lt m hlt_deg.symm hlt_lc.symm
      refine ⟨⟨hci, ?_, ?_, ⟨L, hL1, hL2, hL3, ?_⟩, hr.1, ?_⟩, wdeg_lt m hfden hdec⟩
      · intro t ht
        exact hs.inB t (hsort.1.mem_iff.mp (by simp [ht]))
      · refine le_trans ?_ hs.degF
        by_cases h : Poly.den σ init = 0
        · rw [h, m.degree_zero]; exact m.toSyn_monotone (zero_le)
        · exact (hdec h).le
      · rw [hL4, hr.2, hden]; ring
      · intro e he
        rw [hr.2] at he
        rcases Finset.mem_union.mp (support_add he) with h | h
        · exact hs.red e h
        · have : e = lt.mdeg.toF σ := by
            have := support_monomial_subset h
            simpa using this
          subst this
          refine ⟨by rw [hld]; exact hs.degF, fun g hg hgne => ?_⟩
          rw [← hL1] at hg
          obtain ⟨x, hx, rfl⟩ := List.mem_map.mp hg
          rw [hld, ← hdF]
          exact ho x hx hgne
    · -- subtract a multiple of a divisor
      obtain ⟨hf', pre, g, q, suf, q', a, hLe, hqs, hgne, hq', ha, hdq, hdf, hdeg, hcoef⟩ := ho
      have hgL : (g, q) ∈ L := by rw [hLe]; simp
      have hgd : g ∈ divs := by rw [← hL1]; exact List.mem_map.mpr ⟨_, hgL, rfl⟩
      have hgden : Poly.den σ g ≠ 0 := by rwa [Ne, Poly.den_eq_zero_iff (hdivs g hgd).1]
      obtain ⟨hgd1, hgc1⟩ := den_mul_monomial (m := m) hgden (e := a.mdeg.toF σ) ha.ne
      have hd : m.degree (Poly.den σ g * a.den σ) = m.degree (Poly.den σ s.f) := by
        unfold Term.den; rw [hgd1, ← hdeg, hdF]
      have hc : m.leadingCoeff (Poly.den σ g * a.den σ) = m.leadingCoeff (Poly.den σ s.f) := by
        unfold Term.den; rw [hgc1, ← hcoef, hcF]
      have hdec : Poly.den σ f' ≠ 0 →
          m.toSyn (m.degree (Poly.den σ f')) < m.toSyn (m.degree (Poly.den σ s.f)) := by
        rw [hdf]; exact degree_sub_lt m hd.symm hc.symm
      have hle : m.toSyn (m.degree (Poly.den σ f')) ≤ m.toSyn (m.degree (Poly.den σ s.f)) := by
        by_cases h : Poly.den σ f' = 0
        · rw [h, m.degree_zero]; exact m.toSyn_monotone (zero_le)
        · exact (hdec h).le
      refine ⟨⟨hf', ?_, hle.trans hs.degF, ⟨pre ++ (g, q') :: suf, ?_, ?_, ?_, ?_⟩, hs.cleanR, hs.red⟩,
        wdeg_lt m hfden hdec⟩
      · rw [Poly.in_iff hf']
        intro e he
        refine hO.down e _ (hs.inB _ hmem) ?_
        rw [hdF]
        exact (m.le_degree he).trans hle
      · rw [← hL1, hLe]; simp
      · rw [hqs]; simp
      · intro x hx
        have hx' : x = (g, q') ∨ x ∈ L := by
          rw [hLe]; simp at hx ⊢; tauto
        rcases hx' with rfl | hx'
        · refine ⟨hq', ?_⟩
          simp only
          rw [hdq, add_mul]
          refine m.degree_add_le.trans (max_le (hL3 _ hgL).2 ?_)
          rw [mul_comm, hd]; exact hs.degF
        · exact hL3 x hx'
      · rw [hL4, hLe, hdf]
        simp only [List.map_append, List.map_cons, List.sum_append, List.sum_cons, hdq]
        ring

theorem divInv_init {f : Poly F} {divs : List (Poly F)} (hf : Poly.Clean σ f)
    (hfB : Poly.In B f) :
    DivInv m B f divs ⟨f, List.replicate divs.length Poly.zero, Poly.zero⟩ := by
  refine ⟨hf, hfB, le_refl _, ⟨divs.map fun g => (g, Poly.zero), ?_, ?_, ?_, ?_⟩, Poly.clean_nil, ?_⟩
  · simp [Function.comp_def]
  · simp [Function.comp_def, List.map_const']
  · intro x hx
    obtain ⟨g, _, rfl⟩ := List.mem_map.mp hx
    refine ⟨Poly.clean_nil, ?_⟩
    change m.toSyn (m.degree (0 * _)) ≤ _
    rw [zero_mul, m.degree_zero]
    exact m.toSyn_monotone (zero_le)
  · have : ((divs.map fun g => (g, Poly.zero)).map fun x : Poly F × Poly F =>
        Poly.den σ x.2 * Poly.den σ x.1).sum = 0 := by
      rw [List.map_map]
      refine List.sum_eq_zero ?_
      intro x hx
      obtain ⟨g, _, rfl⟩ := List.mem_map.mp hx
      change 0 * _ = _
      rw [zero_mul]
    rw [this]
    change _ = 0 + _ + 0
    simp
  · intro e he
    change e ∈ (0 : MvPolynomial σ K).support at he
    simp at he

/-- `divide`: division with remainder. -/
theorem divide_spec (hO : LawfulOrder O m B E) (hE : ∀ p, allowed F p → E p) {f : Poly F}
    {divs : List (Poly F)} (hf : Poly.Clean σ f) (hfB : Poly.In B f)
    (hdivs : ∀ g ∈ divs, Poly.Clean σ g ∧ Poly.In B g) :
    Spec E (Computer.divide O f divs) (fun x => Poly.Clean σ x.1 ∧
      (∀ e ∈ (Poly.den σ x.1).support, m.toSyn e ≤ m.toSyn (m.degree (Poly.den σ f)) ∧
        ∀ g ∈ divs, g ≠ [] → ¬ m.degree (Poly.den σ g) ≤ e) ∧
      ∃ L : List (Poly F × Poly F), L.map (·.1) = divs ∧ L.map (·.2) = x.2 ∧
        (∀ y ∈ L, Poly.Clean σ y.2 ∧
          m.toSyn (m.degree (Poly.den σ y.2 * Poly.den σ y.1)) ≤ m.toSyn (m.degree (Poly.den σ f))) ∧
        Poly.den σ f = (L.map fun y => Poly.den σ y.2 * Poly.den σ y.1).sum + Poly.den σ x.1) := by
  unfold Computer.divide
  refine loop_spec (· < ·) (wdeg_wf m) (DivInv m B f divs) (fun s => wdeg m (Poly.den σ s.f)) _ ?_ _ ?_
  · intro s hs
    refine (divideStep_spec hO hE hdivs s hs).imp ?_
    rintro (s' | ⟨r, qs⟩) h
    · exact h
    · obtain ⟨rfl, rfl, hnil⟩ := h
      obtain ⟨L, h1, h2, h3, h4⟩ := hs.pairs
      refine ⟨hs.cleanR, hs.red, L, h1, h2, h3, ?_⟩
      rw [h4, hnil, Poly.den_nil, add_zero]
  · exact divInv_init hf hfB

/-! ## Least common multiples and S-polynomials -/

theorem lcmMDeg_eq (a b : MDeg) : Computer.lcmMDeg a b = MDeg.zipWithLongest max a b := by
  unfold Computer.lcmMDeg MDeg.zipWithLongest
  refine List.map_congr_left fun x _ => ?_
  cases x <;> simp

theorem lcmMDeg_clean {a b : MDeg} (ha : a.Clean) (hb : b.Clean) : (Computer.lcmMDeg a b).Clean := by
  rw [lcmMDeg_eq]; exact MDeg.zipWithLongest_max_clean ha hb

theorem deg_lcmMDeg (a b : MDeg) (i : ℕ) :
    (Computer.lcmMDeg a b).deg i = max (a.deg i) (b.deg i) := by
  rw [lcmMDeg_eq, MDeg.deg_zipWithLongest (by rfl)]

theorem lcmMDeg_vars {a b : MDeg} (ha : a.InVars σ) (hb : b.InVars σ) :
    (Computer.lcmMDeg a b).InVars σ := by
  intro i hi
  rw [deg_lcmMDeg] at hi
  by_cases h : a.deg i = 0
  · exact hb i (by rw [h] at hi; simpa using hi)
  · exact ha i h

theorem toF_lcmMDeg (a b : MDeg) : (Computer.lcmMDeg a b).toF σ = a.toF σ ⊔ b.toF σ := by
  ext s; simp [deg_lcmMDeg]

theorem monicLcm_spec {s t : Term F} (hs : s.Clean σ) (ht : t.Clean σ) :
    (Computer.monicLcm s t).Clean σ ∧ val (Computer.monicLcm s t).coef = (1 : K) ∧
    (Computer.monicLcm s t).mdeg.toF σ = s.mdeg.toF σ ⊔ t.mdeg.toF σ := by
  unfold Computer.monicLcm
  rw [Term.isZero_false hs.wf hs.ne, Term.isZero_false ht.wf ht.ne]
  exact ⟨Term.monic_clean (lcmMDeg_clean hs.mdeg ht.mdeg) (lcmMDeg_vars hs.vars ht.vars), val_one,
    toF_lcmMDeg _ _⟩

/-- `try_reduce`: the S-polynomial, here as `(M / LT f) f - (M / LT g) g`. -/
theorem tryReduce_spec (hO : LawfulOrder O m B E) (hE : ∀ p, allowed F p → E p) {f g : Poly F}
    (hf : Poly.Clean σ f) (hfB : Poly.In B f) (hg : Poly.Clean σ g) (hgB : Poly.In B g)
    (hB : f ≠ [] → g ≠ [] → B (m.degree (Poly.den σ f) ⊔ m.degree (Poly.den σ g))) :
    Spec E (Computer.tryReduce O f g) (fun o => match o with
      | none => f = [] ∨ g = []
      | some s => f ≠ [] ∧ g ≠ [] ∧ Poly.Clean σ s ∧
          Poly.den σ s =
            monomial (m.degree (Poly.den σ f) ⊔ m.degree (Poly.den σ g) - m.degree (Poly.den σ f))
              (m.leadingCoeff (Poly.den σ f))⁻¹ * Poly.den σ f -
            monomial (m.degree (Poly.den σ f) ⊔ m.degree (Poly.den σ g) - m.degree (Poly.den σ g))
              (m.leadingCoeff (Poly.den σ g))⁻¹ * Poly.den σ g ∧
          ∀ e ∈ (Poly.den σ s).support,
            m.toSyn e < m.toSyn (m.degree (Poly.den σ f) ⊔ m.degree (Poly.den σ g))) := by
  unfold Computer.tryReduce
  refine (leadingTerm_spec hO hf hfB).bind ?_
  rintro (_ | ltF) hF
  · exact Or.inl hF
  refine (leadingTerm_spec hO hg hgB).bind ?_
  rintro (_ | ltG) hG
  · exact Or.inr hG
  obtain ⟨hmF, hltF, hdF, hcF⟩ := hF
  obtain ⟨hmG, hltG, hdG, hcG⟩ := hG
  have hfne : f ≠ [] := by rintro rfl; simp at hmF
  have hgne : g ≠ [] := by rintro rfl; simp at hmG
  have hfden : Poly.den σ f ≠ 0 := by rwa [Ne, Poly.den_eq_zero_iff hf]
  have hgden : Poly.den σ g ≠ 0 := by rwa [Ne, Poly.den_eq_zero_iff hg]
  obtain ⟨hlc, hl1, hld⟩ := monicLcm_spec hltF hltG
  have hB := hB hfne hgne
  simp only
  refine ((Term.tryDiv_spec hlc hltF).mono hE fun _ h => h).bind ?_
  rintro (_ | a) ha
  · exact absurd (by rw [hld]; exact le_sup_left) ha
  obtain ⟨hac, hav, had⟩ := ha
  have had' : m.degree (Poly.den σ f) + a.mdeg.toF σ =
      m.degree (Poly.den σ f) ⊔ m.degree (Poly.den σ g) := by
    rw [← hdF, ← hdG, ← hld, had, add_comm]
  refine (Poly.mulTerm_spec hf hac.toOk hE (mul_no_overflow hO hf hac had' hB)).bind fun af haf => ?_
  refine ((Term.tryDiv_spec hlc hltG).mono hE fun _ h => h).bind ?_
  rintro (_ | b) hb
  · exact absurd (by rw [hld]; exact le_sup_right) hb
  obtain ⟨hbc, hbv, hbd⟩ := hb
  have hbd' : m.degree (Poly.den σ g) + b.mdeg.toF σ =
      m.degree (Poly.den σ f) ⊔ m.degree (Poly.den σ g) := by
    rw [← hdF, ← hdG, ← hld, hbd, add_comm]
  refine (Poly.mulTerm_spec hg hbc.toOk hE (mul_no_overflow hO hg hbc hbd' hB)).bind fun bg hbg => ?_
  refine ((Poly.sub_spec haf.1 hbg.1).mono hE fun _ h => h).bind fun s hs => ?_
  have ea : a.den σ = monomial (m.degree (Poly.den σ f) ⊔ m.degree (Poly.den σ g) -
      m.degree (Poly.den σ f)) (m.leadingCoeff (Poly.den σ f))⁻¹ := by
    unfold Term.den
    rw [← had', add_tsub_cancel_left, hav, hl1, hcF, one_div]
  have eb : b.den σ = monomial (m.degree (Poly.den σ f) ⊔ m.degree (Poly.den σ g) -
      m.degree (Poly.den σ g)) (m.leadingCoeff (Poly.den σ g))⁻¹ := by
    unfold Term.den
    rw [← hbd', add_tsub_cancel_left, hbv, hl1, hcG, one_div]
  have d1 := den_mul_monomial (m := m) hfden (e := a.mdeg.toF σ) hac.ne
  have d2 := den_mul_monomial (m := m) hgden (e := b.mdeg.toF σ) hbc.ne
  refine ⟨hfne, hgne, hs.1, ?_, ?_⟩
  · rw [hs.2, haf.2, hbg.2, ea, eb, mul_comm, mul_comm (Poly.den σ g)]
  · intro e he
    have hne : Poly.den σ s ≠ 0 := by intro h; rw [h] at he; simp at he
    refine lt_of_le_of_lt (m.le_degree he) ?_
    have h1 : m.degree (Poly.den σ af) = m.degree (Poly.den σ f) ⊔ m.degree (Poly.den σ g) := by
      rw [haf.2]; unfold Term.den; rw [d1.1, had']
    have h2 : m.degree (Poly.den σ bg) = m.degree (Poly.den σ f) ⊔ m.degree (Poly.den σ g) := by
      rw [hbg.2]; unfold Term.den; rw [d2.1, hbd']
    have c1 : m.leadingCoeff (Poly.den σ af) = 1 := by
      rw [haf.2]; unfold Term.den
      rw [d1.2, hav, hl1, hcF, one_div, mul_inv_cancel₀]; rw [← hcF]; exact hltF.ne
    have c2 : m.leadingCoeff (Poly.den σ bg) = 1 := by
      rw [hbg.2]; unfold Term.den
      rw [d2.2, hbv, hl1, hcG, one_div, mul_inv_cancel₀]; rw [← hcG]; exact hltG.ne
    rw [hs.2] at hne ⊢
    rw [← h1]
    exact degree_sub_lt m (h1.trans h2.symm) (c1.trans c2.symm) hne

end
end Verif
