import Verif.Proofs.Den
import Mathlib.Algebra.MvPolynomial.Eval

/-! # Contracts of the polynomial arithmetic -/

namespace Verif
open Res MvPolynomial LawfulRField

theorem forall₂_mem_right {α β : Type} {R : α → β → Prop} {l : List α} {l' : List β}
    (h : List.Forall₂ R l l') {b : β} (hb : b ∈ l') : ∃ a ∈ l, R a b := by
  induction h with
  | nil => simp at hb
  | cons h _ ih =>
    rcases List.mem_cons.mp hb with rfl | hb
    · exact ⟨_, by simp, h⟩
    · obtain ⟨a, ha, hr⟩ := ih hb; exact ⟨a, by simp [ha], hr⟩

/-- `reduce` of a sum-like operation. -/
theorem reduceM_spec {α M : Type} [AddMonoid M] {E : Panic → Prop} {f : α → α → Res α} {d : α}
    (P : M → α → Prop) (hd : P 0 d)
    (hf : ∀ v w a b, P v a → P w b → Spec E (f a b) (P (v + w)))
    {l : List (Res α)} {vs : List M} (h : List.Forall₂ (fun r v => Spec E r (P v)) l vs) :
    Spec E (reduceM f d l) (P vs.sum) := by
  have key : ∀ (l : List (Res α)) (vs : List M) (acc : α) (v : M), P v acc →
      List.Forall₂ (fun r v => Spec E r (P v)) l vs →
      Spec E (l.foldlM (fun acc y => do let y ← y; f acc y) acc) (P (v + vs.sum)) := by
    intro l
    induction l with
    | nil => intro vs acc v hv h; cases h; simpa using hv
    | cons r l ih =>
      intro vs acc v hv h
      cases h with
      | cons h1 h2 =>
        rename_i w ws
        rw [List.foldlM_cons]
        refine Spec.bind (P := P (v + w)) ?_ ?_
        · exact h1.bind fun y hy => hf _ _ _ _ hv hy
        · intro a ha
          rw [List.sum_cons, ← add_assoc]
          exact ih _ _ _ ha h2
  cases h with
  | nil => exact hd
  | cons h1 h2 =>
    rw [List.sum_cons]
    exact h1.bind fun y hy => key _ _ _ _ hy h2

section
variable {F : Type} [RField F] {K : Type} [Field K] [LawfulRField F K] {σ : Type} [VarIdx σ]
variable {E : Panic → Prop}

namespace Term

theorem constantUnchecked_ok {c : F} (h : wf c) : (constantUnchecked c).Ok σ :=
  ⟨h, MDeg.zero_clean, MDeg.InVars.zero⟩

theorem den_constantUnchecked (c : F) : (constantUnchecked c).den σ = C (val c) := by
  unfold den constantUnchecked newUnchecked
  rw [MDeg.toF_zero]; rfl

theorem den_one : (one : Term F).den σ = 1 := by
  unfold one; rw [den_constantUnchecked, val_one]; simp

theorem one_clean : (one : Term F).Clean σ :=
  ⟨constantUnchecked_ok wf_one, by
    change val (RField.one : F) ≠ 0; rw [val_one]; exact one_ne_zero⟩

theorem monic_clean {m : MDeg} (h : m.Clean) (hv : m.InVars σ) : (monic m : Term F).Clean σ :=
  ⟨⟨wf_one, h, hv⟩, by change val (RField.one : F) ≠ 0; rw [val_one]; exact one_ne_zero⟩

theorem den_monic (m : MDeg) : (monic m : Term F).den σ = monomial (m.toF σ) 1 := by
  unfold den monic newUnchecked; rw [val_one]

theorem new_ok {c : F} {m : MDeg} (hc : wf c) (h : m.Clean) (hv : m.InVars σ) :
    (new c m).Ok σ ∧ (new c m).den σ = monomial (m.toF σ) (val c) := by
  unfold new
  split
  · rename_i hb
    have : val c = (0 : K) := by rw [val_eq_of_beq _ _ hb, val_zero]
    exact ⟨zero_ok, by simp [this]⟩
  · exact ⟨⟨hc, h, hv⟩, rfl⟩

theorem neg_spec {t : Term F} (h : t.Ok σ) :
    Spec (allowed F) t.neg (fun u => u.Ok σ ∧ u.mdeg = t.mdeg ∧ val u.coef = -val t.coef ∧
      u.den σ = - t.den σ) := by
  unfold neg
  refine (LawfulRField.neg_spec _ h.wf).bind fun c hc => ?_
  refine ⟨⟨hc.1, h.mdeg, h.vars⟩, rfl, hc.2, ?_⟩
  unfold den newUnchecked
  simp [hc.2]

/-- Product of terms; `overflowU8` can only be caused by an exponent sum above 255. -/
theorem mul_spec {s t : Term F} (hs : s.Ok σ) (ht : t.Ok σ) (hE : ∀ p, allowed F p → E p)
    (hov : E .overflowU8 ∨ ∀ i, s.mdeg.deg i + t.mdeg.deg i < 256) :
    Spec E (s.mul t) (fun u => u.Ok σ ∧ u.den σ = s.den σ * t.den σ ∧
      (val s.coef ≠ (0 : K) → val t.coef ≠ (0 : K) → u.Clean σ ∧ val u.coef = (val s.coef * val t.coef : K) ∧
        u.mdeg.toF σ = s.mdeg.toF σ + t.mdeg.toF σ)) := by
  unfold mul
  split
  · rename_i h
    simp only [Bool.or_eq_true] at h
    rw [isZero_iff hs.wf, isZero_iff ht.wf] at h
    refine ⟨zero_ok, ?_, fun h1 h2 => by tauto⟩
    rw [den_zero]
    rcases h with h | h
    · rw [den_eq_zero.mpr h, zero_mul]
    · rw [den_eq_zero.mpr h, mul_zero]
  · refine ((LawfulRField.mul_spec _ _ hs.wf ht.wf).mono hE fun _ h => h).bind fun c hc => ?_
    rw [build_debug (F := F)]
    refine ((MDeg.add_den hs.mdeg ht.mdeg hs.vars ht.vars).mono ?_ fun _ h => h).bind fun m hm => ?_
    · rintro p ⟨rfl, i, hi⟩
      rcases hov with h | h
      · exact h
      · have := h i; omega
    · refine ⟨⟨hc.1, hm.1, hm.2.1⟩, ?_, fun h1 h2 => ⟨⟨⟨hc.1, hm.1, hm.2.1⟩, ?_⟩, hc.2, hm.2.2⟩⟩
      · unfold den newUnchecked
        rw [monomial_mul, hc.2, hm.2.2]
      · change val c ≠ 0; rw [hc.2]; exact mul_ne_zero h1 h2

theorem divides_iff {s t : Term F} (hs : s.Clean σ) :
    s.divides t = true ↔ s.mdeg.toF σ ≤ t.mdeg.toF σ := by
  unfold divides
  rw [isZero_false hs.wf hs.ne, ← MDeg.isSucc_den hs.mdeg hs.vars]; simp

/-- `try_div` of clean terms. -/
theorem tryDiv_spec {s t : Term F} (hs : s.Clean σ) (ht : t.Clean σ) :
    Spec (allowed F) (s.tryDiv t) (fun o => match o with
      | none => ¬ t.mdeg.toF σ ≤ s.mdeg.toF σ
      | some q => q.Clean σ ∧ val q.coef = (val s.coef / val t.coef : K) ∧
        s.mdeg.toF σ = q.mdeg.toF σ + t.mdeg.toF σ) := by
  unfold tryDiv
  rw [isZero_false hs.wf hs.ne, isZero_false ht.wf ht.ne]
  simp only [Bool.false_eq_true, if_false]
  refine (LawfulRField.div_spec _ _ hs.wf ht.wf ht.ne).bind fun c hc => ?_
  have h := MDeg.checkedSub_den hs.mdeg ht.mdeg hs.vars ht.vars
  cases hsub : s.mdeg.checkedSub t.mdeg with
  | none => rw [hsub] at h; exact h
  | some m =>
    rw [hsub] at h
    refine ⟨⟨⟨hc.1, h.2.1, h.2.2.1⟩, ?_⟩, hc.2, h.2.2.2⟩
    change val c ≠ 0
    rw [hc.2]; exact div_ne_zero hs.ne ht.ne

/-- The value of a term at a point; the multidegree may end in zeros. -/
theorem eval_raw {t : Term F} (hw : wf t.coef) (hd : ∀ d ∈ t.mdeg, d < 256)
    (hv : t.mdeg.InVars σ) {x : List F} (hx : ∀ a ∈ x, wf a) (hl : t.mdeg.length ≤ x.length) :
    Spec (allowed F) (t.eval x) (fun c => wf c ∧
      val c = MvPolynomial.eval (fun s : σ => (val (x.getD (VarIdx.idx s) RField.zero) : K)) (t.den σ)) := by
  unfold eval MDeg.len
  rw [if_neg (by omega)]
  -- the fold multiplies the powers in order
  have key : ∀ (m : List Nat) (x : List F) (acc : F), (∀ d ∈ m, d < 256) → (∀ a ∈ x, wf a) →
      m.length ≤ x.length → wf acc →
      Spec (allowed F) ((m.zip x).foldlM
        (fun acc (deg, v) => do let v ← RField.powi32 v (deg : Int); RField.mul acc v) acc)
        (fun c => wf c ∧ val c = (val acc : K) *
          ((List.range m.length).map fun i => (val (x.getD i RField.zero) : K) ^ (MDeg.deg m i)).prod) := by
    intro m
    induction m with
    | nil => intro x acc _ _ _ ha; simp [ha]
    | cons d m ih =>
      intro x acc hd hx hl ha
      cases x with
      | nil => simp at hl
      | cons a x =>
        rw [List.zip_cons_cons, List.foldlM_cons]
        refine Spec.bind (P := fun c => wf c ∧ val c = (val acc : K) * val a ^ d) ?_ ?_
        · refine (LawfulRField.pow_spec a d (hd d (by simp)) (hx a (by simp))).bind fun v hv => ?_
          refine (LawfulRField.mul_spec _ _ ha hv.1).imp fun c hc => ⟨hc.1, by rw [hc.2, hv.2]⟩
        · intro c hc
          refine (ih x c (fun d h => hd d (by simp [h])) (fun a h => hx a (by simp [h]))
            (by simpa using hl) hc.1).imp fun r hr => ⟨hr.1, ?_⟩
          rw [hr.2, hc.2, List.length_cons, List.range_succ_eq_map, List.map_cons, List.prod_cons,
            List.map_map]
          simp [Function.comp_def, mul_assoc]
  refine (key t.mdeg x t.coef hd hx hl hw).imp fun c hc => ⟨hc.1, ?_⟩
  rw [hc.2, den, eval_monomial]
  congr 1
  -- both products range over the variables that occur
  rw [Finsupp.prod]
  have e1 : ((List.range t.mdeg.length).map fun i => (val (x.getD i RField.zero) : K) ^ (MDeg.deg t.mdeg i)).prod
      = ∏ i ∈ Finset.range t.mdeg.length, (val (x.getD i RField.zero) : K) ^ (MDeg.deg t.mdeg i) := by
    generalize t.mdeg.length = n
    induction n with
    | zero => simp
    | succ n ih => rw [List.range_succ, Finset.prod_range_succ, List.map_append, List.prod_append, ih]; simp
  rw [e1]
  classical
  have e2 : ∏ s ∈ (t.mdeg.toF σ).support,
      (val (x.getD (VarIdx.idx s) RField.zero) : K) ^ (t.mdeg.toF σ) s =
      ∏ i ∈ (t.mdeg.toF σ).support.map VarIdx.idx,
      (val (x.getD i RField.zero) : K) ^ (MDeg.deg t.mdeg i) := by
    rw [Finset.prod_map]; rfl
  rw [e2]
  symm
  refine Finset.prod_subset ?_ ?_
  · intro i hi
    obtain ⟨s, hs, rfl⟩ := Finset.mem_map.mp hi
    rw [Finset.mem_range]
    by_contra hc
    exact Finsupp.mem_support_iff.mp hs (MDeg.deg_of_length_le (by omega))
  · intro i _ hi
    by_cases h0 : MDeg.deg t.mdeg i = 0
    · rw [h0, pow_zero]
    · obtain ⟨s, rfl⟩ := hv i h0
      exact absurd (Finset.mem_map.mpr ⟨s, Finsupp.mem_support_iff.mpr h0, rfl⟩) hi

/-- The value of a term at a point. -/
theorem eval_spec {t : Term F} (h : t.Ok σ) {x : List F} (hx : ∀ a ∈ x, wf a)
    (hl : t.mdeg.length ≤ x.length) :
    Spec (allowed F) (t.eval x) (fun c => wf c ∧
      val c = MvPolynomial.eval (fun s : σ => (val (x.getD (VarIdx.idx s) RField.zero) : K)) (t.den σ)) :=
  eval_raw h.wf h.mdeg.lt h.vars hx hl

end Term

namespace Poly

theorem ofTerm_spec {t : Term F} (h : t.Ok σ) :
    Clean σ (ofTerm t) ∧ den σ (ofTerm t) = t.den σ := by
  unfold ofTerm
  split
  · rename_i hz
    rw [Term.isZero_iff h.wf] at hz
    exact ⟨clean_nil, by rw [Term.den_eq_zero.mpr hz]; rfl⟩
  · rename_i hz
    rw [Term.isZero_iff h.wf] at hz
    exact ⟨clean_singleton.mpr ⟨h, hz⟩, by simp [termUnchecked, newUnchecked]⟩

theorem ofCoef_spec {c : F} (h : wf c) :
    Clean σ (ofCoef c) ∧ den σ (ofCoef c) = C (val c) := by
  have := ofTerm_spec (σ := σ) (Term.constantUnchecked_ok h)
  rw [Term.den_constantUnchecked] at this
  exact this

theorem termAddTerm_spec {s t : Term F} (hs : s.Ok σ) (ht : t.Ok σ) :
    Spec (allowed F) (termAddTerm s t) (fun r => Clean σ r ∧ den σ r = s.den σ + t.den σ) := by
  unfold termAddTerm
  split
  · rename_i hz
    rw [Term.isZero_iff hs.wf] at hz
    obtain ⟨h1, h2⟩ := ofTerm_spec ht
    exact ⟨h1, by rw [h2, Term.den_eq_zero.mpr hz, zero_add]⟩
  · rename_i hzs
    rw [Term.isZero_iff hs.wf] at hzs
    split
    · rename_i hz
      rw [Term.isZero_iff ht.wf] at hz
      obtain ⟨h1, h2⟩ := ofTerm_spec hs
      exact ⟨h1, by rw [h2, Term.den_eq_zero.mpr hz, add_zero]⟩
    · rename_i hzt
      rw [Term.isZero_iff ht.wf] at hzt
      split
      · rename_i he
        refine (LawfulRField.add_spec _ _ hs.wf ht.wf).bind fun c hc => ?_
        obtain ⟨h1, h2⟩ := Term.new_ok (σ := σ) hc.1 hs.mdeg hs.vars
        obtain ⟨h3, h4⟩ := ofTerm_spec h1
        refine ⟨h3, ?_⟩
        rw [h4, h2, hc.2, Term.den, Term.den, ← he, map_add]
      · rename_i hne
        refine ⟨clean_cons.mpr ⟨⟨hs, hzs⟩, clean_singleton.mpr ⟨ht, hzt⟩, ?_⟩, by
          simp [newUnchecked]⟩
        intro u hu he
        simp at hu; subst hu
        exact hne he.symm

theorem addNonzeroTerm_spec {p : Poly F} {t : Term F} (hp : Clean σ p) (ht : t.Clean σ) :
    Spec (allowed F) (addNonzeroTerm p t) (fun r => Clean σ r ∧ den σ r = den σ p + t.den σ ∧
      ∀ u ∈ r, u.mdeg = t.mdeg ∨ u ∈ p) := by
  induction p with
  | nil =>
    refine ⟨clean_singleton.mpr ht, by simp, ?_⟩
    intro u hu; simp at hu; left; rw [hu]
  | cons a p ih =>
    obtain ⟨h1, h2, h3⟩ := clean_cons.mp hp
    unfold addNonzeroTerm
    split
    · rename_i he
      refine (LawfulRField.add_spec _ _ h1.wf ht.wf).bind fun c hc => ?_
      have hok : (⟨c, a.mdeg⟩ : Term F).Ok σ := ⟨hc.1, h1.mdeg, h1.vars⟩
      have hden : (⟨c, a.mdeg⟩ : Term F).den σ = a.den σ + t.den σ := by
        simp only [Term.den, hc.2, ← he, map_add]
      dsimp only
      split
      · rename_i hz
        rw [Term.isZero_iff hok.wf] at hz
        refine ⟨h2, ?_, fun u hu => Or.inr (by simp [hu])⟩
        rw [Term.den_eq_zero.mpr hz] at hden
        rw [den_cons, add_right_comm, ← hden, zero_add]
      · rename_i hz
        rw [Term.isZero_iff hok.wf] at hz
        refine ⟨clean_cons.mpr ⟨⟨hok, hz⟩, h2, h3⟩, ?_, ?_⟩
        · rw [den_cons, den_cons, hden, add_right_comm]
        · intro u hu
          rcases List.mem_cons.mp hu with rfl | hu
          · left; exact he
          · right; simp [hu]
    · rename_i hne
      refine (ih h2).bind fun r hr => ?_
      refine ⟨clean_cons.mpr ⟨h1, hr.1, ?_⟩, ?_, ?_⟩
      · intro u hu he
        rcases hr.2.2 u hu with h | h
        · exact hne (he ▸ h)
        · exact h3 u h he
      · rw [den_cons, hr.2.1, den_cons, add_assoc]
      · intro u hu
        rcases List.mem_cons.mp hu with rfl | hu
        · right; simp
        · rcases hr.2.2 u hu with h | h
          · exact Or.inl h
          · right; simp [h]

theorem addTerm_spec {p : Poly F} {t : Term F} (hp : Clean σ p) (ht : t.Ok σ) :
    Spec (allowed F) (addTerm p t) (fun r => Clean σ r ∧ den σ r = den σ p + t.den σ) := by
  unfold addTerm
  split
  · rename_i hz
    rw [isZero_iff hp] at hz
    obtain ⟨h1, h2⟩ := ofTerm_spec ht
    exact ⟨h1, by rw [h2, hz, zero_add]⟩
  · split
    · rename_i hz
      rw [Term.isZero_iff ht.wf] at hz
      exact ⟨hp, by rw [Term.den_eq_zero.mpr hz, add_zero]⟩
    · rename_i hz
      rw [Term.isZero_iff ht.wf] at hz
      exact (addNonzeroTerm_spec hp ⟨ht, hz⟩).imp fun r hr => ⟨hr.1, hr.2.1⟩

theorem add_spec {p q : Poly F} (hp : Clean σ p) (hq : ∀ t ∈ q, t.Ok σ) :
    Spec (allowed F) (add p q) (fun r => Clean σ r ∧ den σ r = den σ p + den σ q) := by
  unfold add
  refine foldlM_spec (fun done r => Clean σ r ∧ den σ r = den σ p + den σ done) ⟨hp, by simp⟩ ?_
  intro done a rest c hl hc
  refine (addTerm_spec hc.1 (hq a (by simp [hl]))).imp fun r hr => ⟨hr.1, ?_⟩
  rw [hr.2, hc.2, den_append, den_cons, den_nil, add_zero, add_assoc]

theorem Clean.oks {p : Poly F} (h : Clean σ p) : ∀ t ∈ p, t.Ok σ := fun t ht => (h.terms t ht).toOk

theorem neg_spec {p : Poly F} (hp : Clean σ p) :
    Spec (allowed F) (neg p) (fun r => Clean σ r ∧ den σ r = - den σ p) := by
  unfold neg
  refine (mapM_spec (P := fun (t u : Term F) => u.Clean σ ∧ u.mdeg = t.mdeg ∧ u.den σ = - t.den σ)
    fun t ht => ?_).imp ?_
  · refine (Term.neg_spec (hp.terms t ht).toOk).imp fun u hu => ⟨⟨hu.1, ?_⟩, hu.2.1, hu.2.2.2⟩
    rw [hu.2.2.1]; exact neg_ne_zero.mpr (hp.terms t ht).ne
  · intro r hr
    refine ⟨⟨?_, ?_⟩, ?_⟩
    · intro u hu
      obtain ⟨t, _, h⟩ := forall₂_mem_right hr hu
      exact h.1
    · have : r.map Term.mdeg = p.map Term.mdeg := by
        clear hp
        induction hr with
        | nil => rfl
        | cons h _ ih => rw [List.map_cons, List.map_cons, h.2.1, ih]
      rw [this]; exact hp.nodup
    · clear hp
      induction hr with
      | nil => simp
      | cons h _ ih => rw [den_cons, den_cons, h.2.2, ih, neg_add]

theorem termSubTerm_spec {s t : Term F} (hs : s.Ok σ) (ht : t.Ok σ) :
    Spec (allowed F) (termSubTerm s t) (fun r => Clean σ r ∧ den σ r = s.den σ - t.den σ) := by
  unfold termSubTerm
  refine (Term.neg_spec ht).bind fun u hu => ?_
  exact (termAddTerm_spec hs hu.1).imp fun r hr => ⟨hr.1, by rw [hr.2, hu.2.2.2, sub_eq_add_neg]⟩

theorem termSub_spec {s : Term F} {q : Poly F} (hs : s.Ok σ) (hq : Clean σ q) :
    Spec (allowed F) (termSub s q) (fun r => Clean σ r ∧ den σ r = s.den σ - den σ q) := by
  unfold termSub
  refine (neg_spec hq).bind fun u hu => ?_
  exact (addTerm_spec hu.1 hs).imp fun r hr => ⟨hr.1, by rw [hr.2, hu.2]; ring⟩

theorem subTerm_spec {p : Poly F} {t : Term F} (hp : Clean σ p) (ht : t.Ok σ) :
    Spec (allowed F) (subTerm p t) (fun r => Clean σ r ∧ den σ r = den σ p - t.den σ) := by
  unfold subTerm
  refine (Term.neg_spec ht).bind fun u hu => ?_
  exact (addTerm_spec hp hu.1).imp fun r hr => ⟨hr.1, by rw [hr.2, hu.2.2.2, sub_eq_add_neg]⟩

theorem sub_spec {p q : Poly F} (hp : Clean σ p) (hq : Clean σ q) :
    Spec (allowed F) (sub p q) (fun r => Clean σ r ∧ den σ r = den σ p - den σ q) := by
  unfold sub
  refine (neg_spec hq).bind fun u hu => ?_
  exact (add_spec hp hu.1.oks).imp fun r hr => ⟨hr.1, by rw [hr.2, hu.2, sub_eq_add_neg]⟩

theorem mulTerm_spec {p : Poly F} {t : Term F} (hp : Clean σ p) (ht : t.Ok σ)
    (hE : ∀ p, allowed F p → E p)
    (hov : E .overflowU8 ∨ ∀ u ∈ p, ∀ i, u.mdeg.deg i + t.mdeg.deg i < 256) :
    Spec E (mulTerm p t) (fun r => Clean σ r ∧ den σ r = den σ p * t.den σ) := by
  unfold mulTerm
  split
  · rename_i h
    simp only [Bool.or_eq_true] at h
    rw [Term.isZero_iff ht.wf, isZero_iff hp] at h
    refine ⟨clean_nil, ?_⟩
    change 0 = _
    rcases h with h | h
    · rw [Term.den_eq_zero.mpr h, mul_zero]
    · rw [h, zero_mul]
  · rename_i h
    simp only [Bool.or_eq_true, not_or] at h
    rw [Term.isZero_iff ht.wf] at h
    refine (mapM_spec (P := fun (s u : Term F) => u.Clean σ ∧ u.den σ = s.den σ * t.den σ ∧
      u.mdeg.toF σ = s.mdeg.toF σ + t.mdeg.toF σ) fun s hs => ?_).imp ?_
    · have hsc := hp.terms s hs
      refine (Term.mul_spec hsc.toOk ht hE (hov.imp id fun h => h s hs)).imp fun u hu => ?_
      have := hu.2.2 hsc.ne h.1
      exact ⟨this.1, hu.2.1, this.2.2⟩
    · intro r hr
      refine ⟨⟨?_, ?_⟩, ?_⟩
      · intro u hu
        obtain ⟨s, _, h⟩ := forall₂_mem_right hr hu
        exact h.1
      · have hnd : (p.map fun s => s.mdeg.toF σ + t.mdeg.toF σ).Nodup := by
          have h1 : (p.map fun s => s.mdeg.toF σ).Nodup := by
            rw [show (p.map fun s => s.mdeg.toF σ) = (p.map Term.mdeg).map (MDeg.toF σ) by simp]
            refine (List.nodup_map_iff_inj_on hp.nodup).mpr ?_
            intro a ha b hb he
            obtain ⟨s, hs, rfl⟩ := List.mem_map.mp ha
            obtain ⟨s', hs', rfl⟩ := List.mem_map.mp hb
            have h1 := hp.terms s hs; have h2 := hp.terms s' hs'
            exact MDeg.toF_inj h1.mdeg h2.mdeg h1.vars h2.vars he
          rw [show (p.map fun s => s.mdeg.toF σ + t.mdeg.toF σ) =
            (p.map fun s => s.mdeg.toF σ).map (· + t.mdeg.toF σ) by simp]
          exact h1.map (add_left_injective _)
        have : r.map (fun u => u.mdeg.toF σ) = p.map fun s => s.mdeg.toF σ + t.mdeg.toF σ := by
          clear hnd hp hov h
          induction hr with
          | nil => rfl
          | cons h _ ih => rw [List.map_cons, List.map_cons, h.2.2, ih]
        rw [← this, show r.map (fun u => u.mdeg.toF σ) = (r.map Term.mdeg).map (MDeg.toF σ) by simp] at hnd
        exact List.Nodup.of_map _ hnd
      · clear hp hov h
        induction hr with
        | nil => simp
        | cons h _ ih => rw [den_cons, den_cons, h.2.1, ih, add_mul]

theorem mulCoef_spec {p : Poly F} {c : F} (hp : Clean σ p) (hc : wf c) :
    Spec (allowed F) (mulCoef p c) (fun r => Clean σ r ∧ den σ r = C (val c) * den σ p) := by
  unfold mulCoef
  refine (mulTerm_spec hp (Term.constantUnchecked_ok hc) (fun _ h => h) (Or.inr ?_)).imp
    fun r hr => ⟨hr.1, by rw [hr.2, Term.den_constantUnchecked, mul_comm]⟩
  intro u hu i
  simpa [Term.constantUnchecked, Term.newUnchecked, MDeg.zero] using
    MDeg.deg_lt (hp.terms u hu).mdeg.lt i

theorem divCoef_spec {p : Poly F} {c : F} (hp : Clean σ p) (hc : wf c) (h0 : val c ≠ (0 : K)) :
    Spec (allowed F) (divCoef p c) (fun r => Clean σ r ∧ den σ r = C (val c)⁻¹ * den σ p) := by
  unfold divCoef
  refine (LawfulRField.inv_spec _ hc h0).bind fun d hd => ?_
  exact (mulCoef_spec hp hd.1).imp fun r hr => ⟨hr.1, by rw [hr.2, hd.2]⟩

theorem mul_spec {p q : Poly F} (hp : ∀ t ∈ p, t.Ok σ) (hq : Clean σ q)
    (hE : ∀ p, allowed F p → E p)
    (hov : E .overflowU8 ∨ ∀ t ∈ p, ∀ u ∈ q, ∀ i, u.mdeg.deg i + t.mdeg.deg i < 256) :
    Spec E (mul p q) (fun r => Clean σ r ∧ den σ r = den σ p * den σ q) := by
  unfold mul
  refine (reduceM_spec (M := MvPolynomial σ K) (vs := p.map fun t => den σ q * t.den σ)
    (fun v r => Clean σ r ∧ den σ r = v) ⟨clean_nil, rfl⟩ ?_ ?_).imp fun r hr => ⟨hr.1, ?_⟩
  · rintro v w a b ⟨ha, rfl⟩ ⟨hb, rfl⟩
    exact (add_spec ha hb.oks).mono hE fun _ h => h
  · rw [List.forall₂_map_left_iff, List.forall₂_map_right_iff]
    refine List.forall₂_same.mpr fun t ht => ?_
    exact mulTerm_spec hq (hp t ht) hE (hov.imp id fun h => h t ht)
  · rw [hr.2, List.sum_map_mul_left, mul_comm]; rfl

/-- `eval` is evaluation. -/
theorem eval_spec {p : Poly F} (hp : ∀ t ∈ p, t.Ok σ) {x : List F} (hx : ∀ a ∈ x, wf a)
    (hl : ∀ t ∈ p, t.mdeg.length ≤ x.length) :
    Spec (allowed F) (eval p x) (fun c => wf c ∧
      val c = MvPolynomial.eval (fun s : σ => (val (x.getD (VarIdx.idx s) RField.zero) : K)) (den σ p)) := by
  unfold eval
  refine (sum_spec (allowed F) (fun _ h => h) (p.map fun t => t.eval x)
    (p.map fun t => MvPolynomial.eval (fun s : σ => (val (x.getD (VarIdx.idx s) RField.zero) : K)) (t.den σ))
    ?_).imp fun c hc => ⟨hc.1, ?_⟩
  · rw [List.forall₂_map_left_iff, List.forall₂_map_right_iff]
    exact List.forall₂_same.mpr fun t ht => Term.eval_spec (hp t ht) hx (hl t ht)
  · rw [hc.2]
    unfold den
    rw [map_list_sum, List.map_map]; rfl

end Poly
end
end Verif
