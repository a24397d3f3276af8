import Verif.Props.Endless
import Verif.Props.Unchecked
import Verif.Proofs.Closed
import Verif.Proofs.Run

/-!
# Properties C170–C171: polynomials that are not in canonical form

`Polynomial::new` drops zero coefficients but keeps repeated multidegrees, `new_unchecked` keeps
everything, the fields are public, and a `MultiDegree` may end in zeros.  Here the terms are
arbitrary: `Term.Raw` only says that the coefficient is well-formed and the degrees are `u8`s.
-/

namespace Verif
open Res MvPolynomial LawfulRField Computer

section
variable {F : Type} [RField F] {K : Type} [Field K] [LawfulRField F K]

/-- An arbitrary term: a well-formed coefficient and degrees that fit into `u8`. -/
structure Term.Raw (t : Term F) : Prop where
  wf : LawfulRField.wf t.coef
  lt : ∀ d ∈ t.mdeg, d < 256

/-- An arbitrary list of arbitrary terms. -/
def Poly.Raw (p : Poly F) : Prop := ∀ t ∈ p, t.Raw

theorem Term.Ok.raw {t : Term F} (h : t.Ok ℕ) : t.Raw := ⟨h.wf, h.mdeg.lt⟩

theorem Term.raw_zero : (Term.zero : Term F).Raw := Term.zero_ok.raw

theorem Poly.raw_nil : Poly.Raw ([] : Poly F) := fun t ht => by cases ht

theorem Poly.raw_cons {t : Term F} {p : Poly F} : Poly.Raw (t :: p) ↔ t.Raw ∧ Poly.Raw p := by
  simp [Poly.Raw]

theorem mdeg_add_raw {a b : MDeg} (ha : ∀ d ∈ a, d < 256) (hb : ∀ d ∈ b, d < 256) :
    Spec (fun p => p = .overflowU8 ∧ ∃ i, 256 ≤ a.deg i + b.deg i) (MDeg.add .debug a b)
      (fun c => c.Clean ∧ ∀ i, c.deg i = a.deg i + b.deg i) := by
  rw [MDeg.add_eq ha hb]
  split
  · rename_i h
    refine ⟨MDeg.fromVec_clean ?_, fun i => ?_⟩
    · rw [MDeg.forall_mem_iff_deg (· < 256) (by omega)]
      intro i; rw [MDeg.deg_zipWithLongest (by rfl)]; exact h i
    · rw [MDeg.deg_fromVec, MDeg.deg_zipWithLongest (by rfl)]
  · rename_i h
    refine ⟨rfl, ?_⟩
    by_contra hc
    exact h fun i => by
      by_contra hi; exact hc ⟨i, by omega⟩

theorem Term.neg_raw {t : Term F} (h : t.Raw) :
    Spec (allowed F) t.neg (fun u => u.Raw ∧ u.den ℕ = - t.den ℕ) := by
  unfold Term.neg
  refine (LawfulRField.neg_spec _ h.wf).bind fun c hc => ?_
  refine ⟨⟨hc.1, h.lt⟩, ?_⟩
  unfold Term.den Term.newUnchecked
  simp [hc.2]

theorem Term.mul_raw {s t : Term F} (hs : s.Raw) (ht : t.Raw) {E : Panic → Prop}
    (hE : ∀ p, allowed F p → E p)
    (hov : E .overflowU8 ∨ ∀ i, s.mdeg.deg i + t.mdeg.deg i < 256) :
    Spec E (s.mul t) (fun u => u.Raw ∧ u.den ℕ = s.den ℕ * t.den ℕ) := by
  unfold Term.mul
  split
  · rename_i h
    simp only [Bool.or_eq_true] at h
    rw [Term.isZero_iff hs.wf, Term.isZero_iff ht.wf] at h
    refine ⟨Term.raw_zero, ?_⟩
    rw [Term.den_zero]
    rcases h with h | h
    · rw [Term.den_eq_zero.mpr h, zero_mul]
    · rw [Term.den_eq_zero.mpr h, mul_zero]
  · refine ((LawfulRField.mul_spec _ _ hs.wf ht.wf).mono hE fun _ h => h).bind fun c hc => ?_
    rw [build_debug (F := F)]
    refine ((mdeg_add_raw hs.lt ht.lt).mono ?_ fun _ h => h).bind fun m hm => ?_
    · rintro p ⟨rfl, i, hi⟩
      rcases hov with h | h
      · exact h
      · have := h i; omega
    · refine ⟨⟨hc.1, hm.1.lt⟩, ?_⟩
      unfold Term.den Term.newUnchecked
      rw [monomial_mul, hc.2, MDeg.toF_eq_add hm.2]

theorem Poly.ofTerm_raw {t : Term F} (h : t.Raw) :
    Poly.Raw (Poly.ofTerm t) ∧ Poly.den ℕ (Poly.ofTerm t) = t.den ℕ := by
  unfold Poly.ofTerm
  split
  · rename_i hz
    rw [Term.isZero_iff h.wf] at hz
    exact ⟨Poly.raw_nil, by rw [Term.den_eq_zero.mpr hz]; rfl⟩
  · exact ⟨Poly.raw_cons.mpr ⟨h, Poly.raw_nil⟩, by
      simp [Poly.termUnchecked, Poly.newUnchecked]⟩

theorem Poly.addNonzeroTerm_raw {p : Poly F} {t : Term F} (hp : Poly.Raw p) (ht : t.Raw) :
    Spec (allowed F) (Poly.addNonzeroTerm p t)
      (fun r => Poly.Raw r ∧ Poly.den ℕ r = Poly.den ℕ p + t.den ℕ) := by
  induction p with
  | nil => exact ⟨Poly.raw_cons.mpr ⟨ht, Poly.raw_nil⟩, by simp⟩
  | cons a p ih =>
    obtain ⟨h1, h2⟩ := Poly.raw_cons.mp hp
    unfold Poly.addNonzeroTerm
    split
    · rename_i he
      refine (LawfulRField.add_spec _ _ h1.wf ht.wf).bind fun c hc => ?_
      have hden : (⟨c, a.mdeg⟩ : Term F).den ℕ = a.den ℕ + t.den ℕ := by
        simp only [Term.den, hc.2, ← he, map_add]
      dsimp only
      split
      · rename_i hz
        rw [Term.isZero_iff (t := ⟨c, a.mdeg⟩) hc.1] at hz
        refine ⟨h2, ?_⟩
        rw [Term.den_eq_zero.mpr hz] at hden
        rw [Poly.den_cons, add_right_comm, ← hden, zero_add]
      · refine ⟨Poly.raw_cons.mpr ⟨⟨hc.1, h1.lt⟩, h2⟩, ?_⟩
        rw [Poly.den_cons, Poly.den_cons, hden, add_right_comm]
    · refine (ih h2).bind fun r hr => ⟨Poly.raw_cons.mpr ⟨h1, hr.1⟩, ?_⟩
      rw [Poly.den_cons, hr.2, Poly.den_cons, add_assoc]

end

/-! ## C170 the values are right whatever the representation -/

section
variable {F : Type} [RField F] {K : Type} [Field K] [LawfulRField F K]

/-- C170. `term + term` and `term - term`. -/
theorem C170_terms {s t : Term F} (hs : s.Raw) (ht : t.Raw) :
    Spec (allowed F) (Poly.termAddTerm s t)
      (fun r => Poly.Raw r ∧ Poly.den ℕ r = s.den ℕ + t.den ℕ) ∧
    Spec (allowed F) (Poly.termSubTerm s t)
      (fun r => Poly.Raw r ∧ Poly.den ℕ r = s.den ℕ - t.den ℕ) ∧
    Spec (PolyPanic F) (s.mul t) (fun r => r.Raw ∧ r.den ℕ = s.den ℕ * t.den ℕ) := by
  have add : ∀ {s t : Term F}, s.Raw → t.Raw → Spec (allowed F) (Poly.termAddTerm s t)
      (fun r => Poly.Raw r ∧ Poly.den ℕ r = s.den ℕ + t.den ℕ) := by
    intro s t hs ht
    unfold Poly.termAddTerm
    split
    · rename_i hz
      rw [Term.isZero_iff hs.wf] at hz
      obtain ⟨h1, h2⟩ := Poly.ofTerm_raw ht
      exact ⟨h1, by rw [h2, Term.den_eq_zero.mpr hz, zero_add]⟩
    · split
      · rename_i hz
        rw [Term.isZero_iff ht.wf] at hz
        obtain ⟨h1, h2⟩ := Poly.ofTerm_raw hs
        exact ⟨h1, by rw [h2, Term.den_eq_zero.mpr hz, add_zero]⟩
      · split
        · rename_i he
          refine (LawfulRField.add_spec _ _ hs.wf ht.wf).bind fun c hc => ?_
          have h1 : (Term.new c s.mdeg).Raw ∧
              (Term.new c s.mdeg).den ℕ = monomial (s.mdeg.toF ℕ) (val c : K) := by
            unfold Term.new
            split
            · rename_i hb
              have : val c = (0 : K) := by rw [val_eq_of_beq _ _ hb, val_zero]
              exact ⟨Term.raw_zero, by simp [this]⟩
            · exact ⟨⟨hc.1, hs.lt⟩, rfl⟩
          obtain ⟨h3, h4⟩ := Poly.ofTerm_raw h1.1
          refine ⟨h3, ?_⟩
          rw [h4, h1.2, hc.2, Term.den, Term.den, ← he, map_add]
        · exact ⟨Poly.raw_cons.mpr ⟨hs, Poly.raw_cons.mpr ⟨ht, Poly.raw_nil⟩⟩, by
            simp [Poly.newUnchecked]⟩
  refine ⟨add hs ht, ?_, Term.mul_raw hs ht (fun _ h => Or.inl h) (Or.inl (Or.inr rfl))⟩
  unfold Poly.termSubTerm
  refine (Term.neg_raw ht).bind fun u hu => ?_
  exact (add hs hu.1).imp fun r hr => ⟨hr.1, by rw [hr.2, hu.2, sub_eq_add_neg]⟩

/-- C170. `polynomial + term`. -/
theorem C170_addTerm {p : Poly F} {t : Term F} (hp : Poly.Raw p) (ht : t.Raw) :
    Spec (allowed F) (Poly.addTerm p t)
      (fun r => Poly.Raw r ∧ Poly.den ℕ r = Poly.den ℕ p + t.den ℕ) := by
  unfold Poly.addTerm
  split
  · rename_i hz
    have : p = [] := by simpa [Poly.isZero] using hz
    subst this
    obtain ⟨h1, h2⟩ := Poly.ofTerm_raw ht
    exact ⟨h1, by rw [h2, Poly.den_nil, zero_add]⟩
  · split
    · rename_i hz
      rw [Term.isZero_iff ht.wf] at hz
      exact ⟨hp, by rw [Term.den_eq_zero.mpr hz, add_zero]⟩
    · exact Poly.addNonzeroTerm_raw hp ht

/-- C170. `polynomial + polynomial`. -/
theorem C170_add {p q : Poly F} (hp : Poly.Raw p) (hq : Poly.Raw q) :
    Spec (allowed F) (Poly.add p q)
      (fun r => Poly.Raw r ∧ Poly.den ℕ r = Poly.den ℕ p + Poly.den ℕ q) := by
  unfold Poly.add
  refine foldlM_spec (fun done r => Poly.Raw r ∧ Poly.den ℕ r = Poly.den ℕ p + Poly.den ℕ done)
    ⟨hp, by simp⟩ ?_
  intro done a rest c hl hc
  refine (C170_addTerm hc.1 (hq a (by simp [hl]))).imp fun r hr => ⟨hr.1, ?_⟩
  rw [hr.2, hc.2, Poly.den_append, Poly.den_cons, Poly.den_nil, add_zero, add_assoc]

/-- C170. `-polynomial`. -/
theorem C170_neg {p : Poly F} (hp : Poly.Raw p) :
    Spec (allowed F) (Poly.neg p) (fun r => Poly.Raw r ∧ Poly.den ℕ r = - Poly.den ℕ p) := by
  unfold Poly.neg
  refine (mapM_spec (P := fun (t u : Term F) => u.Raw ∧ u.den ℕ = - t.den ℕ)
    fun t ht => Term.neg_raw (hp t ht)).imp fun r hr => ?_
  clear hp
  induction hr with
  | nil => exact ⟨Poly.raw_nil, by simp⟩
  | cons h _ ih => exact ⟨Poly.raw_cons.mpr ⟨h.1, ih.1⟩, by
      rw [Poly.den_cons, Poly.den_cons, h.2, ih.2, neg_add]⟩

/-- C170. `polynomial - polynomial`, `polynomial - term` and `term - polynomial`. -/
theorem C170_sub {p q : Poly F} {t : Term F} (hp : Poly.Raw p) (hq : Poly.Raw q) (ht : t.Raw) :
    Spec (allowed F) (Poly.sub p q)
      (fun r => Poly.Raw r ∧ Poly.den ℕ r = Poly.den ℕ p - Poly.den ℕ q) ∧
    Spec (allowed F) (Poly.subTerm p t)
      (fun r => Poly.Raw r ∧ Poly.den ℕ r = Poly.den ℕ p - t.den ℕ) ∧
    Spec (allowed F) (Poly.termSub t q)
      (fun r => Poly.Raw r ∧ Poly.den ℕ r = t.den ℕ - Poly.den ℕ q) := by
  refine ⟨?_, ?_, ?_⟩
  · unfold Poly.sub
    refine (C170_neg hq).bind fun u hu => ?_
    exact (C170_add hp hu.1).imp fun r hr => ⟨hr.1, by rw [hr.2, hu.2, sub_eq_add_neg]⟩
  · unfold Poly.subTerm
    refine (Term.neg_raw ht).bind fun u hu => ?_
    exact (C170_addTerm hp hu.1).imp fun r hr => ⟨hr.1, by rw [hr.2, hu.2, sub_eq_add_neg]⟩
  · unfold Poly.termSub
    refine (C170_neg hq).bind fun u hu => ?_
    exact (C170_addTerm hu.1 ht).imp fun r hr => ⟨hr.1, by rw [hr.2, hu.2]; ring⟩

/-- C170. `polynomial * term`; no exponent overflows if every sum of exponents fits. -/
theorem C170_mulTerm {p : Poly F} {t : Term F} (hp : Poly.Raw p) (ht : t.Raw) {E : Panic → Prop}
    (hE : ∀ p, allowed F p → E p)
    (hov : E .overflowU8 ∨ ∀ u ∈ p, ∀ i, u.mdeg.deg i + t.mdeg.deg i < 256) :
    Spec E (Poly.mulTerm p t)
      (fun r => Poly.Raw r ∧ Poly.den ℕ r = Poly.den ℕ p * t.den ℕ) := by
  unfold Poly.mulTerm
  split
  · rename_i h
    simp only [Bool.or_eq_true] at h
    rw [Term.isZero_iff ht.wf] at h
    refine ⟨Poly.raw_nil, ?_⟩
    change 0 = _
    rcases h with h | h
    · rw [Term.den_eq_zero.mpr h, mul_zero]
    · have : p = [] := by simpa [Poly.isZero] using h
      subst this
      rw [Poly.den_nil, zero_mul]
  · refine (mapM_spec (P := fun (s u : Term F) => u.Raw ∧ u.den ℕ = s.den ℕ * t.den ℕ)
      fun s hs => Term.mul_raw (hp s hs) ht hE (hov.imp id fun h => h s hs)).imp fun r hr => ?_
    rename_i hz
    clear hp hov hz
    induction hr with
    | nil => exact ⟨Poly.raw_nil, by simp⟩
    | cons h _ ih => exact ⟨Poly.raw_cons.mpr ⟨h.1, ih.1⟩, by
        rw [Poly.den_cons, Poly.den_cons, h.2, ih.2, add_mul]⟩

theorem Term.raw_constant {c : F} (hc : wf c) : (Term.constantUnchecked c).Raw :=
  (Term.constantUnchecked_ok hc).raw

/-- C170. `polynomial * coefficient` and `polynomial / coefficient`. -/
theorem C170_coef {p : Poly F} {c : F} (hp : Poly.Raw p) (hc : wf c) :
    Spec (allowed F) (Poly.mulCoef p c)
      (fun r => Poly.Raw r ∧ Poly.den ℕ r = C (val c) * Poly.den ℕ p) ∧
    (val c ≠ (0 : K) → Spec (allowed F) (Poly.divCoef p c)
      (fun r => Poly.Raw r ∧ Poly.den ℕ r = C (val c)⁻¹ * Poly.den ℕ p)) := by
  have h : ∀ c : F, wf c → Spec (allowed F) (Poly.mulCoef p c)
      (fun r => Poly.Raw r ∧ Poly.den ℕ r = C (val c) * Poly.den ℕ p) := by
    intro c hc
    unfold Poly.mulCoef
    refine (C170_mulTerm hp (Term.raw_constant hc) (fun _ h => h) (Or.inr ?_)).imp
      fun r hr => ⟨hr.1, by rw [hr.2, Term.den_constantUnchecked, mul_comm]⟩
    intro u hu i
    simpa [Term.constantUnchecked, Term.newUnchecked, MDeg.zero] using
      MDeg.deg_lt (hp u hu).lt i
  refine ⟨h c hc, fun h0 => ?_⟩
  unfold Poly.divCoef
  refine (LawfulRField.inv_spec _ hc h0).bind fun d hd => ?_
  exact (h d hd.1).imp fun r hr => ⟨hr.1, by rw [hr.2, hd.2]⟩

/-- C170. `polynomial * polynomial`. -/
theorem C170_mul {p q : Poly F} (hp : Poly.Raw p) (hq : Poly.Raw q) {E : Panic → Prop}
    (hE : ∀ p, allowed F p → E p)
    (hov : E .overflowU8 ∨ ∀ t ∈ p, ∀ u ∈ q, ∀ i, u.mdeg.deg i + t.mdeg.deg i < 256) :
    Spec E (Poly.mul p q)
      (fun r => Poly.Raw r ∧ Poly.den ℕ r = Poly.den ℕ p * Poly.den ℕ q) := by
  unfold Poly.mul
  refine (reduceM_spec (M := MvPolynomial ℕ K) (vs := p.map fun t => Poly.den ℕ q * t.den ℕ)
    (fun v r => Poly.Raw r ∧ Poly.den ℕ r = v) ⟨Poly.raw_nil, rfl⟩ ?_ ?_).imp
    fun r hr => ⟨hr.1, ?_⟩
  · rintro v w a b ⟨ha, rfl⟩ ⟨hb, rfl⟩
    exact (C170_add ha hb).mono hE fun _ h => h
  · rw [List.forall₂_map_left_iff, List.forall₂_map_right_iff]
    refine List.forall₂_same.mpr fun t ht => ?_
    exact C170_mulTerm hq (hp t ht) hE (hov.imp id fun h => h t ht)
  · rw [hr.2, List.sum_map_mul_left, mul_comm]; rfl

/-- C170. `eval`: every variable up to the length of every multidegree must be given, even those
whose exponent is a trailing zero. -/
theorem C170_eval {p : Poly F} (hp : Poly.Raw p) {x : List F} (hx : ∀ a ∈ x, wf a)
    (hl : ∀ t ∈ p, t.mdeg.length ≤ x.length) :
    Spec (allowed F) (Poly.eval p x) (fun c => wf c ∧
      val c = MvPolynomial.eval (fun i => (val (x.getD i RField.zero) : K)) (Poly.den ℕ p)) := by
  unfold Poly.eval
  refine (sum_spec (allowed F) (fun _ h => h) (p.map fun t => t.eval x)
    (p.map fun t => MvPolynomial.eval (fun i => (val (x.getD i RField.zero) : K)) (t.den ℕ))
    ?_).imp fun c hc => ⟨hc.1, ?_⟩
  · rw [List.forall₂_map_left_iff, List.forall₂_map_right_iff]
    exact List.forall₂_same.mpr fun t ht =>
      Term.eval_raw (hp t ht).wf (hp t ht).lt (MDeg.inVars_nat _) hx (hl t ht)
  · rw [hc.2]
    unfold Poly.den
    rw [map_list_sum, List.map_map]; rfl

/-- C170. Adding onto zero brings a list of terms with canonical multidegrees into canonical
form. -/
theorem C170_normalise {p : Poly F} (hp : ∀ t ∈ p, t.Ok ℕ) :
    Spec (allowed F) (Poly.add Poly.zero p)
      (fun r => Poly.Clean ℕ r ∧ Poly.den ℕ r = Poly.den ℕ p) :=
  (Poly.add_spec Poly.clean_nil hp).imp fun r hr => ⟨hr.1, by rw [hr.2]; exact zero_add _⟩

/-! ### Division -/

theorem checkedSubLoop_lt {items : List (EitherOrBoth Nat)} {z : Nat} {degs c : List Nat}
    (hl : ∀ x ∈ items, match x with | .both a _ => a < 256 | .left a => a < 256 | .right _ => True)
    (hd : ∀ d ∈ degs, d < 256) (h : MDeg.checkedSubLoop items z degs = some c) :
    ∀ d ∈ c, d < 256 := by
  have push : ∀ {degs : List Nat} (z x : Nat), (∀ d ∈ degs, d < 256) → x < 256 →
      ∀ d ∈ degs ++ List.replicate z 0 ++ [x], d < 256 := by
    intro degs z x h1 h2 d hd
    simp only [List.mem_append, List.mem_replicate, List.mem_singleton] at hd
    rcases hd with (hd | ⟨-, rfl⟩) | rfl
    · exact h1 d hd
    · omega
    · exact h2
  induction items generalizing z degs with
  | nil => cases h; exact hd
  | cons x items ih =>
    have hl' := fun y hy => hl y (List.mem_cons_of_mem x hy)
    have hx := hl x (by simp)
    match x, hx with
    | .both a b, hx =>
      rw [MDeg.checkedSubLoop] at h
      split at h
      · cases h
      · exact ih hl' hd h
      · exact ih hl' (push z (a - b) hd (by change a < 256 at hx; omega)) h
    | .left a, hx => exact ih hl' (push z a hd hx) h
    | .right _, _ => cases h

theorem zipLongest_left {a b : MDeg} (ha : ∀ d ∈ a, d < 256) : ∀ x ∈ zipLongest a b,
    match x with | .both a _ => a < 256 | .left a => a < 256 | .right _ => True := by
  induction a generalizing b with
  | nil =>
    intro x hx
    simp only [MDeg.zipLongest_nil_left, List.mem_map] at hx
    obtain ⟨d, hd, rfl⟩ := hx
    trivial
  | cons a as ih =>
    cases b with
    | nil =>
      intro x hx
      simp only [MDeg.zipLongest_nil_right, List.mem_map] at hx
      obtain ⟨d, hd, rfl⟩ := hx
      exact ha d hd
    | cons b bs =>
      intro x hx
      simp only [zipLongest, List.mem_cons] at hx
      rcases hx with rfl | hx
      · exact ha a (by simp)
      · exact ih (fun d hd => ha d (by simp [hd])) x hx

theorem checkedSub_lt {a b c : MDeg} (ha : ∀ d ∈ a, d < 256) (h : a.checkedSub b = some c) :
    ∀ d ∈ c, d < 256 := by
  unfold MDeg.checkedSub at h
  split at h
  · cases h; exact ha
  · split at h
    · cases h
    · exact checkedSubLoop_lt (zipLongest_left ha) (by simp) h

theorem Term.tryDiv_raw {s t u : Term F} (hs : s.Raw) (ht : t.Raw)
    (h : s.tryDiv t = .ok (some u)) : u.Raw := by
  unfold Term.tryDiv at h
  split at h
  · cases h; exact Term.raw_zero
  · split at h
    · cases h
    · rename_i hz
      rw [Term.isZero_iff ht.wf] at hz
      obtain ⟨c, h1, h⟩ := bind_eq_ok.mp h
      have hc := Spec.of_ok (LawfulRField.div_spec _ _ hs.wf ht.wf hz) h1
      split at h
      · cases h
      · rename_i m hm
        cases h
        exact ⟨hc.1, checkedSub_lt hs.lt hm⟩

/-- The sum of the products of a list of pairs. -/
noncomputable def rawComb (l : List (Poly F × Poly F)) : MvPolynomial ℕ K :=
  (l.map fun x => Poly.den ℕ x.1 * Poly.den ℕ x.2).sum

theorem divideFor_raw (O : MOrder) {lt : Term F} {f : Poly F} {l : List (Poly F × Poly F)}
    {qs : List (Poly F)} {f' : Poly F} (hlt : lt.Raw) (hf : Poly.Raw f)
    (hl : ∀ x ∈ l, Poly.Raw x.1 ∧ Poly.Raw x.2)
    (h : divideFor O lt f l = .ok (some (qs, f'))) :
    qs.length = l.length ∧ (∀ q ∈ qs, Poly.Raw q) ∧ Poly.Raw f' ∧
    Poly.den ℕ f + rawComb l = Poly.den ℕ f' + rawComb ((l.map (·.1)).zip qs) := by
  induction l generalizing qs f' with
  | nil => cases h
  | cons x l ih =>
    obtain ⟨g, q⟩ := x
    obtain ⟨hg, hq⟩ := hl (g, q) (by simp)
    have hl' := fun x hx => hl x (List.mem_cons_of_mem _ hx)
    have hnext : (do
        match ← divideFor O lt f l with
        | none => pure none
        | some (qs, f') => pure (some (q :: qs, f'))) = Res.ok (some (qs, f')) →
        qs.length = ((g, q) :: l).length ∧ (∀ q ∈ qs, Poly.Raw q) ∧ Poly.Raw f' ∧
        Poly.den ℕ f + rawComb ((g, q) :: l) =
          Poly.den ℕ f' + rawComb ((((g, q) :: l).map (·.1)).zip qs) := by
      intro h
      obtain ⟨o, h1, h⟩ := bind_eq_ok.mp h
      rcases o with _ | ⟨qs', f''⟩
      · cases h
      · cases h
        obtain ⟨h2, h3, h4, h5⟩ := ih hl' h1
        refine ⟨by simp [h2], ?_, h4, ?_⟩
        · intro r hr
          rcases List.mem_cons.mp hr with rfl | hr
          · exact hq
          · exact h3 r hr
        · simp only [rawComb, List.map_cons, List.zip_cons_cons, List.sum_cons] at h5 ⊢
          rw [add_left_comm, h5, add_left_comm]
    rw [divideFor] at h
    obtain ⟨o, h1, h⟩ := bind_eq_ok.mp h
    rcases o with _ | ltG
    · exact hnext h
    · obtain ⟨o, h2, h⟩ := bind_eq_ok.mp h
      rcases o with _ | t
      · exact hnext h
      · obtain ⟨q', h3, h⟩ := bind_eq_ok.mp h
        obtain ⟨ag, h4, h⟩ := bind_eq_ok.mp h
        obtain ⟨f'', h5, h⟩ := bind_eq_ok.mp h
        cases h
        have ht := Term.tryDiv_raw hlt (hg _ (maxBy_mem _ h1 ltG rfl)) h2
        dsimp only at hg hq
        obtain ⟨e1, e2⟩ := Spec.of_ok (C170_addTerm hq ht) h3
        obtain ⟨e3, e4⟩ := Spec.of_ok (C170_mulTerm hg ht (E := fun _ => True)
          (fun _ _ => trivial) (Or.inl trivial)) h4
        obtain ⟨e5, e6⟩ := Spec.of_ok (C170_sub hf e3 ht).1 h5
        refine ⟨by simp, ?_, e5, ?_⟩
        · intro r hr
          rcases List.mem_cons.mp hr with rfl | hr
          · exact e1
          · obtain ⟨x, hx, rfl⟩ := List.mem_map.mp hr
            exact (hl' x hx).2
        · have hz : (l.map (·.1)).zip (l.map (·.2)) = l := by
            rw [List.zip_map', List.map_id'']; intro x; rfl
          simp only [rawComb, List.map_cons, List.zip_cons_cons, List.sum_cons]
          rw [hz, e2, e6, e4]
          ring

/-- C170. Whatever `divide` returns satisfies `f = q_1 g_1 + … + q_m g_m + r`, for arbitrary lists
of terms and for every comparison of multidegrees, be it an order or not. -/
theorem C170_divide (O : MOrder) {f : Poly F} {divs : List (Poly F)} (hf : Poly.Raw f)
    (hd : ∀ g ∈ divs, Poly.Raw g) {r : Poly F} {qs : List (Poly F)}
    (h : divide O f divs = .ok (r, qs)) :
    qs.length = divs.length ∧ (∀ q ∈ qs, Poly.Raw q) ∧ Poly.Raw r ∧
    Poly.den ℕ f = (List.zipWith (fun q g => Poly.den ℕ q * Poly.den ℕ g) qs divs).sum +
      Poly.den ℕ r := by
  have hcomb : ∀ qs : List (Poly F), rawComb (divs.zip qs) =
      (List.zipWith (fun q g => Poly.den ℕ q * Poly.den ℕ g) qs divs).sum := by
    intro qs
    unfold rawComb
    rw [List.zipWith_comm, ← List.map_uncurry_zip_eq_zipWith]
    congr 1
    refine List.map_congr_left fun x _ => ?_
    simp only [Function.uncurry]
    rw [mul_comm]
  have := loop_partial (step := divideStep O divs)
    (fun s => Poly.Raw s.f ∧ Poly.Raw s.remainder ∧ (∀ q ∈ s.quotients, Poly.Raw q) ∧
      s.quotients.length = divs.length ∧
      Poly.den ℕ f = Poly.den ℕ s.f + rawComb (divs.zip s.quotients) + Poly.den ℕ s.remainder)
    (fun x => x.2.length = divs.length ∧ (∀ q ∈ x.2, Poly.Raw q) ∧ Poly.Raw x.1 ∧
      Poly.den ℕ f = rawComb (divs.zip x.2) + Poly.den ℕ x.1)
    ?_ ?_ ?_ h
  · rw [← hcomb]; exact this
  · rintro ⟨g, q, r⟩ s' ⟨hg, hr, hq, hl, hv⟩ hs
    dsimp only at hg hr hq hl hv
    rw [divideStep] at hs
    obtain ⟨o, h1, hs⟩ := bind_eq_ok.mp hs
    rcases o with _ | lt
    · cases hs
    · obtain ⟨o, h2, hs⟩ := bind_eq_ok.mp hs
      rcases o with _ | ⟨qs', f'⟩
      · obtain ⟨sorted, h3, hs⟩ := bind_eq_ok.mp hs
        have hperm := sortBy_perm h3
        have hp : Poly.den ℕ sorted = Poly.den ℕ g := Poly.den_perm hperm
        have hsr : Poly.Raw sorted := fun t ht => hg t (hperm.mem_iff.mp ht)
        dsimp only at hs
        rcases hgl : sorted.getLast? with _ | lt'
        · rw [hgl] at hs
          cases hs
          exact ⟨hsr, hr, hq, hl, by rw [hv, hp]⟩
        · rw [hgl] at hs
          obtain ⟨r', h4, hs⟩ := bind_eq_ok.mp hs
          cases hs
          obtain ⟨ys, rfl⟩ := List.getLast?_eq_some_iff.mp hgl
          obtain ⟨e1, e2⟩ := Spec.of_ok (C170_addTerm hr (hsr lt' (by simp))) h4
          refine ⟨?_, e1, hq, hl, ?_⟩
          · dsimp only
            rw [List.dropLast_concat]
            exact fun t ht => hsr t (by simp [ht])
          · dsimp only
            rw [hv, ← hp, e2, List.dropLast_concat, Poly.den_append, Poly.den_cons, Poly.den_nil]
            ring
      · cases hs
        have hlt : lt.Raw := hg _ (maxBy_mem _ h1 lt rfl)
        obtain ⟨e1, e2, e3, e4⟩ := divideFor_raw O hlt hg (fun x hx =>
          ⟨hd _ (List.of_mem_zip hx).1, hq _ (List.of_mem_zip hx).2⟩) h2
        have hz : (divs.zip q).map (·.1) = divs := by
          rw [List.map_fst_zip]; exact hl.ge
        rw [hz] at e4
        have e1 : qs'.length = min divs.length q.length := by rw [e1, List.length_zip]
        exact ⟨e3, hr, e2, by dsimp only; omega, by dsimp only; rw [hv, e4]⟩
  · rintro ⟨g, q, r⟩ x ⟨hg, hr, hq, hl, hv⟩ hs
    dsimp only at hg hr hq hl hv
    rw [divideStep] at hs
    obtain ⟨o, h1, hs⟩ := bind_eq_ok.mp hs
    rcases o with _ | lt
    · cases hs
      have : g = [] := by
        cases g with
        | nil => rfl
        | cons t g =>
          exfalso
          change (some <$> _ : Res (Option (Term F))) = _ at h1
          obtain ⟨y, -, h1⟩ := bind_eq_ok.mp h1
          cases h1
      subst this
      exact ⟨hl, hq, hr, by rw [hv, Poly.den_nil, zero_add]⟩
    · obtain ⟨o, h2, hs⟩ := bind_eq_ok.mp hs
      rcases o with _ | ⟨qs', f'⟩
      · obtain ⟨sorted, h3, hs⟩ := bind_eq_ok.mp hs
        dsimp only at hs
        rcases hgl : sorted.getLast? with _ | lt' <;> rw [hgl] at hs
        · cases hs
        · obtain ⟨r', h4, hs⟩ := bind_eq_ok.mp hs
          cases hs
      · cases hs
  · refine ⟨hf, Poly.raw_nil, ?_, by simp, ?_⟩
    · intro q hq
      rw [(List.mem_replicate.mp hq).2]; exact Poly.raw_nil
    · have : (rawComb (divs.zip (List.replicate divs.length Poly.zero)) : MvPolynomial ℕ K) = 0 := by
        unfold rawComb
        refine List.sum_eq_zero fun x hx => ?_
        obtain ⟨⟨g, q⟩, hm, rfl⟩ := List.mem_map.mp hx
        have := (List.mem_replicate.mp (List.of_mem_zip hm).2).2
        dsimp only
        rw [this, Poly.zero, Poly.newUnchecked, Poly.den_nil, mul_zero]
      dsimp only
      rw [this, Poly.zero, Poly.newUnchecked, Poly.den_nil, add_zero, add_zero]

end

/-! ## C171 what does not work without canonical form -/

section
variable {F : Type} [RField F]

theorem addTerm_zero {q : Poly F} {t : Term F} (h : t.isZero = true) : Poly.addTerm q t = .ok q := by
  unfold Poly.addTerm
  split
  · rename_i hz
    have : q = [] := by simpa [Poly.isZero] using hz
    subst this
    unfold Poly.ofTerm
    rw [if_pos h]; rfl
  · rfl

/-- C171. `divide` never returns if the leading term of the dividend has coefficient zero and the
first divisor has a leading term: for every coefficient type in which zero is zero, and every
comparison of multidegrees. -/
theorem C171_zero_lead (h0 : RField.beq (RField.zero : F) RField.zero = true) (O : MOrder)
    {f g : Poly F} {divs : List (Poly F)} {lt ltG : Term F} (hf : leadingTerm O f = .ok (some lt))
    (hz : lt.isZero = true) (hg : leadingTerm O g = .ok (some ltG)) :
    divide O f (g :: divs) = .diverge := by
  have hz0 : (Term.zero : Term F).isZero = true := h0
  have hstep : ∀ (qs : List (Poly F)) (q r : Poly F),
      divideStep O (g :: divs) ⟨f, q :: qs, r⟩ =
        .ok (.inl ⟨f, q :: ((divs.zip qs).map (·.2)), r⟩) := by
    intro qs q r
    unfold divideStep
    dsimp only
    rw [hf, bind_ok]
    dsimp only
    rw [List.zip_cons_cons, divideFor, hg, bind_ok]
    dsimp only
    rw [Term.tryDiv, if_pos hz, pure_eq, bind_ok]
    dsimp only
    rw [addTerm_zero hz0, bind_ok, Poly.mulTerm, hz0, Bool.true_or, if_pos rfl, pure_eq, bind_ok]
    rfl
  unfold divide
  refine loop_diverge (fun s => s.f = f ∧ ∃ q qs, s.quotients = q :: qs) ?_
    ⟨rfl, Poly.zero, List.replicate divs.length Poly.zero, rfl⟩
  rintro ⟨f', _, r⟩ ⟨rfl, q, qs, rfl⟩
  exact ⟨_, hstep qs q r, rfl, q, _, rfl⟩

end

section
variable {F : Type} [RField F] {K : Type} [Field K] [LawfulRField F K]

theorem _root_.Verif.Res.Spec.and_eq {α : Type} {E : Panic → Prop} {x : Res α} {P : α → Prop}
    (h : Spec E x P) : Spec E x (fun a => P a ∧ x = .ok a) := by
  cases x with
  | ok a => exact ⟨h, rfl⟩
  | panic p => exact h
  | diverge => exact h

/-- The states of `divide` on two terms with the same multidegree `m`. -/
def RepState (m : MDeg) (a b : F) (s : DivState F) : Prop :=
  ∃ (c : F) (q r : Poly F) (n : ℕ), s = ⟨[⟨c, m⟩, ⟨b, m⟩], [q], r⟩ ∧ Poly.Raw q ∧ wf c ∧
    val c = (val a - n * val b : K)

theorem rep_step {O : MOrder} {m : MDeg} (hm : m.Clean) (hO : O.cmp m m = .ok .eq) {a b e : F}
    (hb : wf b) (he : wf e) (hb0 : val b ≠ (0 : K)) (he0 : val e ≠ (0 : K))
    (hab : ∀ n : ℕ, val a ≠ (n * val b : K)) {c : F} {q : Poly F} {n : ℕ} {r : Poly F}
    (hq : Poly.Raw q) (hc : wf c) (hv : val c = (val a - n * val b : K)) :
    Spec (allowed F) (divideStep O [[⟨e, m⟩]] ⟨[⟨c, m⟩, ⟨b, m⟩], [q], r⟩)
      (fun x => ∃ c' q', x = .inl ⟨[⟨c', m⟩, ⟨b, m⟩], [q'], r⟩ ∧ Poly.Raw q' ∧ wf c' ∧
        val c' = (val a - (n + 1 : ℕ) * val b : K) ∧ ∃ y, RField.add c y = .ok c') := by
  have hlead : leadingTerm O [⟨c, m⟩, ⟨b, m⟩] = .ok (some ⟨b, m⟩) := by
    unfold leadingTerm maxBy
    dsimp only
    rw [List.foldlM_cons]
    dsimp only
    rw [hO]
    rfl
  have hb' : RField.beq b (RField.zero : F) = false :=
    Term.isZero_false (t := ⟨b, m⟩) hb hb0
  have he' : RField.beq e (RField.zero : F) = false :=
    Term.isZero_false (t := ⟨e, m⟩) he he0
  have hsub : m.checkedSub m = some [] := by
    have h := MDeg.checkedSub_spec hm hm
    split at h
    · obtain ⟨i, hi⟩ := h; omega
    · rename_i d hd
      rw [hd]
      have : d = [] := MDeg.ext_deg h.2.1.last (by simp) fun i => by rw [h.2.2 i]; simp
      rw [this]
  unfold divideStep
  dsimp only
  rw [hlead, bind_ok]
  dsimp only
  rw [List.zip_cons_cons, divideFor]
  have hlg : leadingTerm O ([⟨e, m⟩] : Poly F) = .ok (some ⟨e, m⟩) := rfl
  rw [hlg, bind_ok]
  dsimp only
  have htd : Term.tryDiv (⟨b, m⟩ : Term F) ⟨e, m⟩ =
      (do let d ← RField.div b e; pure (some ⟨d, []⟩)) := by
    unfold Term.tryDiv Term.isZero
    dsimp only
    rw [hb', he', hsub]
    rfl
  rw [htd]
  simp only [bind_assoc, pure_bind]
  refine (LawfulRField.div_spec _ _ hb he he0).bind fun d hd => ?_
  have hd0 : val d ≠ (0 : K) := by rw [hd.2]; exact div_ne_zero hb0 he0
  have hdz : RField.beq d (RField.zero : F) = false := Term.isZero_false (t := ⟨d, []⟩) hd.1 hd0
  refine (C170_addTerm hq ⟨hd.1, by simp⟩).bind fun q' hq' => ?_
  have hmul : Poly.mulTerm ([⟨e, m⟩] : Poly F) ⟨d, []⟩ =
      (do let x ← RField.mul e d; pure [⟨x, m⟩]) := by
    have hadd : MDeg.add .debug m [] = .ok m := by
      have h := mdeg_add_raw hm.lt (b := []) (by simp)
      cases hx : MDeg.add .debug m [] with
      | ok y =>
        rw [hx] at h
        rw [MDeg.ext_deg h.1.last hm.last fun i => by rw [h.2 i]; simp]
      | panic p =>
        rw [hx] at h
        obtain ⟨-, i, hi⟩ := h
        have := MDeg.deg_lt hm.lt i
        simp at hi; omega
      | diverge => rw [hx] at h; exact h.elim
    unfold Poly.mulTerm Term.isZero Poly.isZero
    dsimp only
    rw [hdz]
    simp only [List.isEmpty_cons, Bool.or_self, Bool.false_eq_true, if_false, List.mapM_cons,
      List.mapM_nil]
    unfold Term.mul Term.isZero
    dsimp only
    rw [he', hdz, build_debug (F := F)]
    simp only [Bool.or_self, Bool.false_eq_true, if_false, hadd, bind_ok, bind_assoc, pure_bind]
    rfl
  rw [hmul]
  simp only [bind_assoc, pure_bind]
  refine (LawfulRField.mul_spec _ _ he hd.1).bind fun x hx => ?_
  have hxv : val x = (val b : K) := by rw [hx.2, hd.2]; field_simp
  unfold Poly.sub Poly.neg
  simp only [List.mapM_cons, List.mapM_nil, bind_assoc, pure_bind]
  unfold Term.neg
  simp only [bind_assoc, pure_bind, Term.newUnchecked]
  refine (LawfulRField.neg_spec _ hx.1).bind fun y hy => ?_
  have hyz : RField.beq y (RField.zero : F) = false :=
    Term.isZero_false (t := ⟨y, m⟩) hy.1 (by rw [hy.2, hxv]; exact neg_ne_zero.mpr hb0)
  unfold Poly.add
  simp only [List.foldlM_cons, List.foldlM_nil]
  unfold Poly.addTerm Poly.isZero Term.isZero
  simp only [List.isEmpty_cons, hyz, Bool.false_eq_true, if_false]
  unfold Poly.addNonzeroTerm
  simp only [if_true, bind_assoc, pure_bind]
  refine ((LawfulRField.add_spec _ _ hc hy.1).and_eq).bind fun z hz' => ?_
  obtain ⟨hz, hze⟩ := hz'
  have hzv : val z = (val a - (n + 1 : ℕ) * val b : K) := by
    rw [hz.2, hy.2, hxv, hv]; push_cast; ring
  have hzz : RField.beq z (RField.zero : F) = false :=
    Term.isZero_false (t := ⟨z, m⟩) hz.1 (by
      rw [hzv]; exact sub_ne_zero.mpr (hab _))
  unfold Term.isZero
  simp only [hzz, Bool.false_eq_true, if_false, pure_bind]
  exact ⟨z, q', rfl, hq'.1, hz.1, hzv, y, hze⟩

/-- C171. Dividing `a x^m + b x^m`, written as two terms, by `e x^m` does not return a result unless
`a` is a natural multiple of `b`: in every lawful field, for every comparison of multidegrees. -/
theorem C171_repeated {O : MOrder} {m : MDeg} (hm : m.Clean) (hO : O.cmp m m = .ok .eq) {a b e : F}
    (ha : wf a) (hb : wf b) (he : wf e) (hb0 : val b ≠ (0 : K)) (he0 : val e ≠ (0 : K))
    (hab : ∀ n : ℕ, val a ≠ (n * val b : K)) (x : Poly F × List (Poly F)) :
    divide O (Poly.new [⟨a, m⟩, ⟨b, m⟩]) [Poly.new [⟨e, m⟩]] ≠ .ok x := by
  have ha' : (⟨a, m⟩ : Term F).isZero = false :=
    Term.isZero_false ha (by simpa using hab 0)
  have hb' : (⟨b, m⟩ : Term F).isZero = false := Term.isZero_false hb hb0
  have he' : (⟨e, m⟩ : Term F).isZero = false := Term.isZero_false he he0
  have h1 : Poly.new [⟨a, m⟩, ⟨b, m⟩] = [(⟨a, m⟩ : Term F), ⟨b, m⟩] := by
    simp [Poly.new, Poly.newUnchecked, ha', hb']
  have h2 : Poly.new [⟨e, m⟩] = [(⟨e, m⟩ : Term F)] := by
    simp [Poly.new, Poly.newUnchecked, he']
  rw [h1, h2]
  intro h
  refine loop_partial (step := divideStep O [[⟨e, m⟩]]) (RepState (K := K) m a b) (fun _ => False)
    ?_ ?_ ⟨a, [], [], 0, rfl, Poly.raw_nil, ha, by simp⟩ h
  · rintro s s' ⟨c, q, r, n, rfl, hq, hc, hv⟩ hs
    obtain ⟨c', q', he, hq', hc', hv', -⟩ :=
      Spec.of_ok (rep_step hm hO hb he hb0 he0 hab hq hc hv) hs
    cases he
    exact ⟨c', q', r, n + 1, rfl, hq', hc', hv'⟩
  · rintro s r' ⟨c, q, r, n, rfl, hq, hc, hv⟩ hs
    obtain ⟨c', q', he, -⟩ := Spec.of_ok (rep_step hm hO hb he hb0 he0 hab hq hc hv) hs
    cases he

end

/-- C171. Over an exact field of characteristic zero, dividing `Polynomial::new([2x, 3x])` by `x`
never ends, for each of the four orders. -/
theorem C171_endless (k : OrdKind) (K : Type) [Field K] [CharZero K] [DecidableEq K] :
    letI := exactField .debug K
    divide (k.order .debug) (Poly.new [⟨2, [1]⟩, ⟨3, [1]⟩]) [Poly.new [⟨(1 : K), [1]⟩]] =
      .diverge := by
  let _ := exactField .debug K
  let _ := exactLawful K
  have hO : (k.order .debug).cmp [1] [1] = .ok .eq := by cases k <;> rfl
  have hab : ∀ n : ℕ, (2 : K) ≠ n * 3 := by
    intro n h
    have : ((2 : ℕ) : K) = ((n * 3 : ℕ) : K) := by push_cast; exact h
    have := Nat.cast_injective this
    omega
  have h3 : (3 : K) ≠ 0 := by exact_mod_cast (by decide : (3 : ℕ) ≠ 0)
  have h1 : Poly.new [⟨2, [1]⟩, ⟨3, [1]⟩] = [(⟨2, [1]⟩ : Term K), ⟨3, [1]⟩] := by
    have e2 : (⟨2, [1]⟩ : Term K).isZero = false :=
      Term.isZero_false (K := K) trivial (by exact two_ne_zero)
    have e3 : (⟨3, [1]⟩ : Term K).isZero = false := Term.isZero_false (K := K) trivial h3
    simp [Poly.new, Poly.newUnchecked, e2, e3]
  have h2 : Poly.new [⟨1, [1]⟩] = [(⟨1, [1]⟩ : Term K)] := by
    have e1 : (⟨1, [1]⟩ : Term K).isZero = false :=
      Term.isZero_false (K := K) trivial (by exact one_ne_zero)
    simp [Poly.new, Poly.newUnchecked, e1]
  rw [h1, h2]
  refine loop_diverge (RepState (K := K) [1] (2 : K) 3) ?_
    ⟨2, [], [], 0, rfl, Poly.raw_nil, trivial, by simp⟩
  rintro s ⟨c, q, r, n, rfl, hq, hc, hv⟩
  obtain ⟨x, hx, c', q', rfl, hq', hc', hv', -⟩ := (rep_step (K := K) (e := (1 : K)) (r := r)
    (by decide) hO trivial trivial h3 (by exact one_ne_zero) hab hq hc hv).total
  exact ⟨_, hx, c', q', r, n + 1, rfl, hq', hc', hv'⟩

/-- C171. Over `Rational`, with overflow checks, the same division runs until the coefficient
overflows, for each of the four orders. -/
theorem C171_overflow (k : OrdKind) :
    letI := Rational.field .debug
    divide (F := Rational) (k.order .debug) (Poly.new [⟨⟨2, 1⟩, [1]⟩, ⟨⟨3, 1⟩, [1]⟩])
      [Poly.new [⟨⟨1, 1⟩, [1]⟩]] = .panic .overflowI64 := by
  let _ := Rational.field .debug
  let _ := Rational.lawful
  have hO : (k.order .debug).cmp [1] [1] = .ok .eq := by cases k <;> rfl
  have v2 : (val (⟨2, 1⟩ : Rational) : ℚ) = 2 := by
    change ((2 : Int) : ℚ) / ((1 : Int) : ℚ) = 2; norm_num
  have v3 : (val (⟨3, 1⟩ : Rational) : ℚ) = 3 := by
    change ((3 : Int) : ℚ) / ((1 : Int) : ℚ) = 3; norm_num
  have v1 : (val (⟨1, 1⟩ : Rational) : ℚ) = 1 := by
    change ((1 : Int) : ℚ) / ((1 : Int) : ℚ) = 1; norm_num
  have hab : ∀ n : ℕ, (val (⟨2, 1⟩ : Rational) : ℚ) ≠ n * val (⟨3, 1⟩ : Rational) := by
    intro n h
    rw [v2, v3] at h
    have : ((2 : ℕ) : ℚ) = ((n * 3 : ℕ) : ℚ) := by push_cast; exact h
    have := Nat.cast_injective this
    omega
  have h1 : Poly.new [⟨⟨2, 1⟩, [1]⟩, ⟨⟨3, 1⟩, [1]⟩] =
      [(⟨⟨2, 1⟩, [1]⟩ : Term Rational), ⟨⟨3, 1⟩, [1]⟩] := by decide
  have h2 : Poly.new [⟨⟨1, 1⟩, [1]⟩] = [(⟨⟨1, 1⟩, [1]⟩ : Term Rational)] := by decide
  rw [h1, h2]
  have w3 : wf (⟨3, 1⟩ : Rational) := ⟨by decide, by decide⟩
  have w1 : wf (⟨1, 1⟩ : Rational) := ⟨by decide, by decide⟩
  have key : Spec IsOverflow (loop (divideStep (F := Rational) (k.order .debug) [[⟨⟨1, 1⟩, [1]⟩]])
      ⟨[⟨⟨2, 1⟩, [1]⟩, ⟨⟨3, 1⟩, [1]⟩], [Poly.zero], Poly.zero⟩) (fun _ => False) := by
    refine loop_spec (· < ·) wellFounded_lt
      (fun s : DivState Rational => ∃ (c : Rational) (q r : Poly Rational) (n : ℕ),
        s = ⟨[⟨c, [1]⟩, ⟨⟨3, 1⟩, [1]⟩], [q], r⟩ ∧ Poly.Raw q ∧ wf c ∧ I64.InRange c.numer ∧
        val c = (val (⟨2, 1⟩ : Rational) - n * val (⟨3, 1⟩ : Rational) : ℚ))
      (fun s => (⌊(s.f.map fun t => (val t.coef : ℚ)).headD 0⌋ + 9223372036854775809).toNat)
      (fun _ => False) ?_ _ ⟨⟨2, 1⟩, [], [], 0, rfl, Poly.raw_nil, ⟨by decide, by decide⟩,
        by decide, by simp⟩
    rintro s ⟨c, q, r, n, rfl, hq, hc, hr, hv⟩
    refine (rep_step (K := ℚ) (e := (⟨1, 1⟩ : Rational)) (r := r) (by decide) hO
      w3 w1 (by rw [v3]; norm_num) (by rw [v1]; norm_num)
      hab hq hc hv).imp ?_
    rintro x ⟨c', q', rfl, hq', hc', hv', y, hy⟩
    have hr' : I64.InRange c'.numer := by
      have hy : Rational.add .debug c y = .ok c' := hy
      unfold Rational.add at hy
      obtain ⟨u, -, hy⟩ := bind_eq_ok.mp hy
      obtain ⟨v, -, hy⟩ := bind_eq_ok.mp hy
      obtain ⟨w, hw, hy⟩ := bind_eq_ok.mp hy
      have hw := Spec.of_ok (I64.norm_spec (u + v)) hw
      split at hy
      · cases hy; decide
      · obtain ⟨d, -, hy⟩ := bind_eq_ok.mp hy
        cases hy
        change I64.InRange w
        rw [hw.1]; exact hw.2
    have hi : ∀ (c : Rational) (n : ℕ), Rational.WF c → I64.InRange c.numer →
        val c = (val (⟨2, 1⟩ : Rational) - n * val (⟨3, 1⟩ : Rational) : ℚ) →
        ⌊(val c : ℚ)⌋ = 2 - 3 * n ∧ -9223372036854775808 ≤ 2 - 3 * (n : ℤ) := by
      intro c n hc hr hv
      rw [v2, v3] at hv
      have hv' : (val c : ℚ) = ((2 - 3 * n : ℤ) : ℚ) := by rw [hv]; push_cast; ring
      refine ⟨by rw [hv', Int.floor_intCast], ?_⟩
      have hd : (c.numer : ℚ) = ((2 - 3 * n : ℤ) : ℚ) * c.denom := by
        rw [← hv']
        change (c.numer : ℚ) = c.numer / c.denom * c.denom
        rw [div_mul_cancel₀ _ hc.denom_ne]
      have hd : c.numer = (2 - 3 * n : ℤ) * c.denom := by exact_mod_cast hd
      have h1 := hr.1
      have h2 := hc.denom_pos
      by_contra hlt
      have : (2 - 3 * (n : ℤ)) * c.denom ≤ (2 - 3 * (n : ℤ)) * 1 :=
        mul_le_mul_of_nonpos_left (by omega) (by omega)
      omega
    refine ⟨⟨c', q', r, n + 1, rfl, hq', hc', hr', hv'⟩, ?_⟩
    change (⌊(val c' : ℚ)⌋ + 9223372036854775809).toNat <
      (⌊(val c : ℚ)⌋ + 9223372036854775809).toNat
    obtain ⟨e1, e2⟩ := hi c n hc hr hv
    obtain ⟨e3, -⟩ := hi c' (n + 1) hc' hr' hv'
    rw [e1, e3]
    push_cast
    omega
  unfold divide
  rw [show List.replicate ([[⟨⟨1, 1⟩, [1]⟩]] : List (Poly Rational)).length Poly.zero =
    [(Poly.zero : Poly Rational)] from rfl]
  cases hx : loop (divideStep (k.order .debug) [[⟨⟨1, 1⟩, [1]⟩]])
      (⟨[⟨⟨2, 1⟩, [1]⟩, ⟨⟨3, 1⟩, [1]⟩], [Poly.zero], Poly.zero⟩ : DivState Rational) with
  | ok a => rw [hx] at key; exact key.elim
  | panic p => rw [hx] at key; rw [show p = _ from key]
  | diverge => rw [hx] at key; exact key.elim

/-! ### The hypotheses are met by concrete values -/

/-- `x + 0 y - x + x`, the first `x` with a trailing zero: not canonical in three ways. -/
def rawSample : Poly Rational :=
  [⟨⟨1, 1⟩, [1, 0]⟩, ⟨⟨0, 1⟩, [0, 1]⟩, ⟨⟨-1, 1⟩, [1]⟩, ⟨⟨1, 1⟩, [1]⟩]

theorem rawSample_raw : letI := Rational.field .debug; letI := Rational.lawful
    Poly.Raw rawSample := by
  let _ := Rational.field .debug
  let _ := Rational.lawful
  have : ∀ t ∈ rawSample, (0 < t.coef.denom ∧ (t.coef.numer = 0 → t.coef.denom = 1)) ∧
      ∀ d ∈ t.mdeg, d < 256 := by decide
  exact fun t ht => ⟨⟨(this t ht).1.1, (this t ht).1.2⟩, (this t ht).2⟩

-- the square, as the code computes it: products of the untrimmed multidegrees are trimmed, and one
-- term with coefficient zero stays; addition onto zero merges, but not `[1, 0]` with `[1]`
example : letI := Rational.field .debug
    Poly.mul rawSample rawSample = .ok [⟨⟨0, 1⟩, []⟩, ⟨⟨1, 1⟩, [2]⟩] ∧
    Poly.add Poly.zero rawSample = .ok [⟨⟨1, 1⟩, [1, 0]⟩] ∧
    Poly.eval rawSample [⟨5, 1⟩, ⟨7, 1⟩] = .ok ⟨5, 1⟩ := by decide +kernel

-- `Polynomial::constant_unchecked(0)` divided by `x`
example (k : OrdKind) : letI := Rational.field .debug
    divide (k.order .debug) (Poly.constantUnchecked (⟨0, 1⟩ : Rational)) [Poly.var 0 1] =
      .diverge := by
  let _ := Rational.field .debug
  exact C171_zero_lead (by decide) _ (lt := ⟨⟨0, 1⟩, []⟩) rfl (by decide) (ltG := ⟨⟨1, 1⟩, [1]⟩) rfl

-- a division that returns although the dividend is not canonical
example : letI := Rational.field .debug
    divide (OrdKind.lex.order .debug) (Poly.new [⟨⟨6, 1⟩, [1]⟩, ⟨⟨3, 1⟩, [1]⟩])
      [Poly.new [(⟨⟨1, 1⟩, [1]⟩ : Term Rational)]] = .ok ([], [[⟨⟨9, 1⟩, []⟩]]) := by
  let _ := Rational.field .debug
  exact loop_eq_of_iter (n := 10) (by decide +kernel) (by simp)

end Verif
