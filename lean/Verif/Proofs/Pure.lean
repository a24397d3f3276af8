import Verif.Proofs.IntDivide
import Verif.Proofs.Buchberger
import Verif.Proofs.Closed

/-!
# Division and Buchberger's algorithm on `± x^a` and `± (x^a - x^b)`

`Res.Safe`: what is true of the result if there is one, and which panics are possible.
-/

namespace Verif
open Res LawfulRField MvPolynomial

namespace Res

/-- If `x` returns, its value satisfies `P`; if `x` panics, `E` allows it. -/
def Safe {α : Type} (E : Panic → Prop) (x : Res α) (P : α → Prop) : Prop :=
  (∀ a, x = .ok a → P a) ∧ ∀ p, x = .panic p → E p

theorem Spec.safe {α : Type} {E : Panic → Prop} {x : Res α} {P : α → Prop} (h : Spec E x P) : Safe E x P := by
  cases x with
  | ok a => exact ⟨by rintro _ ⟨⟩; exact h, by rintro _ ⟨⟩⟩
  | panic p => exact ⟨(by rintro _ ⟨⟩), by rintro _ ⟨⟩; exact h⟩
  | diverge => exact h.elim

namespace Safe
variable {α β : Type} {E E' : Panic → Prop} {P : α → Prop} {Q : β → Prop}

theorem ok {a : α} (h : P a) : Safe E (.ok a) P := ⟨by rintro _ ⟨⟩; exact h, by rintro _ ⟨⟩⟩

theorem of_ok {x : Res α} (h : ∃ a, x = .ok a ∧ P a) : Safe E x P := by
  obtain ⟨a, rfl, h⟩ := h; exact Safe.ok h

theorem bind {x : Res α} {f : α → Res β} (hx : Safe E x P) (hf : ∀ a, P a → Safe E (f a) Q) :
    Safe E (x >>= f) Q := by
  cases x with
  | ok a => exact hf a (hx.1 a rfl)
  | panic p => exact ⟨(by rintro _ ⟨⟩), by rintro _ ⟨⟩; exact hx.2 _ rfl⟩
  | diverge => exact ⟨(by rintro _ ⟨⟩), by rintro _ ⟨⟩⟩

theorem imp {x : Res α} {P' : α → Prop} (hx : Safe E x P) (h : ∀ a, P a → P' a) : Safe E x P' :=
  ⟨fun a ha => h a (hx.1 a ha), hx.2⟩

/-- What a specification with other panics says of the value. -/
theorem and {x : Res α} {P' : α → Prop} (hx : Safe E x P) (h : Spec E' x P') :
    Safe E x fun a => P a ∧ P' a :=
  ⟨fun a ha => ⟨hx.1 a ha, h.of_ok ha⟩, hx.2⟩

theorem spec {x : Res α} {P' : α → Prop} (hx : Safe E x P) (h : Spec E' x P') :
    Spec E x fun a => P a ∧ P' a := by
  cases x with
  | ok a => exact ⟨hx.1 a rfl, h⟩
  | panic p => exact hx.2 p rfl
  | diverge => exact h.elim

theorem mapM {f : α → Res β} {l : List α} (hf : ∀ a ∈ l, Safe E (f a) Q) :
    Safe E (l.mapM f) fun bs => ∀ b ∈ bs, Q b := by
  induction l with
  | nil => rw [List.mapM_nil]; exact Safe.ok (by simp)
  | cons a l ih =>
    rw [List.mapM_cons]
    refine (hf a (by simp)).bind fun b hb => (ih fun a ha => hf a (by simp [ha])).bind
      fun bs hbs => Safe.ok ?_
    intro c hc
    rcases List.mem_cons.mp hc with rfl | hc
    · exact hb
    · exact hbs c hc

theorem loop {S R : Type} {step : S → Res (S ⊕ R)} (Inv : S → Prop) {Post : R → Prop}
    (h : ∀ s, Inv s → Safe E (step s) fun x => match x with | .inl s' => Inv s' | .inr r => Post r)
    {s : S} (hs : Inv s) : Safe E (Res.loop step s) Post := by
  have key : ∀ n s, Inv s → ∀ p, iter step n s = .panic p → E p := by
    intro n
    induction n with
    | zero => intro s _ p hp; simp [iter] at hp
    | succ n ih =>
      intro s hs p hp
      have hst := h s hs
      unfold iter at hp
      cases hx : step s with
      | ok x =>
        rw [hx] at hp hst
        rcases x with s' | r
        · exact ih s' (hst.1 _ rfl) p hp
        · cases hp
      | panic q => rw [hx] at hp hst; cases hp; exact hst.2 _ rfl
      | diverge => rw [hx] at hp; cases hp
  refine ⟨?_, ?_⟩
  · intro r hr
    exact loop_partial Inv Post (fun s s' hs h' => (h s hs).1 (.inl s') h')
      (fun s r hs h' => (h s hs).1 (.inr r) h') hs hr
  · intro p hp
    obtain ⟨n, hn⟩ := iter_of_loop_ne_diverge (step := step) (s := s) (by rw [hp]; exact fun h => by cases h)
    rw [hp] at hn
    exact key n s hs p hn

end Safe
end Res

/-! ### The shapes -/

section shape
variable {σ : Type}

/-- `1` or `-1`. -/
def Sgn (c : ℚ) : Prop := c = 1 ∨ c = -1

theorem Sgn.neg {c : ℚ} (h : Sgn c) : Sgn (-c) := by
  rcases h with rfl | rfl
  · exact Or.inr rfl
  · exact Or.inl (by norm_num)

theorem Sgn.ne {c : ℚ} (h : Sgn c) : c ≠ 0 := by rcases h with rfl | rfl <;> norm_num

theorem Sgn.inv {c : ℚ} (h : Sgn c) : c⁻¹ = c := by rcases h with rfl | rfl <;> norm_num

theorem Sgn.sq {c : ℚ} (h : Sgn c) : c * c = 1 := by rcases h with rfl | rfl <;> norm_num

theorem Sgn.mul {c d : ℚ} (h : Sgn c) (h' : Sgn d) : Sgn (c * d) := by
  rcases h with rfl | rfl
  · rwa [one_mul]
  · rw [neg_one_mul]; exact h'.neg

theorem Sgn.abs {c : ℚ} (h : Sgn c) : |c| = 1 := by rcases h with rfl | rfl <;> norm_num

/-- What may follow `c x^a`: nothing, or `-c x^b`. -/
def Tail (c : ℚ) (T : MvPolynomial σ ℚ) : Prop := T = 0 ∨ ∃ b, T = monomial b (-c)

/-- `± x^a`, `± (x^a - x^b)` or zero (`x^a - x^a`). -/
def PureBin (P : MvPolynomial σ ℚ) : Prop := ∃ d c T, Sgn c ∧ Tail c T ∧ P = monomial d c + T

theorem PureBin.zero : PureBin (0 : MvPolynomial σ ℚ) :=
  ⟨0, 1, monomial 0 (-1), Or.inl rfl, Or.inr ⟨0, rfl⟩, by rw [← map_add]; simp⟩

theorem PureBin.monomial {c : ℚ} (h : Sgn c) (d : σ →₀ ℕ) : PureBin (MvPolynomial.monomial d c) :=
  ⟨d, c, 0, h, Or.inl rfl, by simp⟩

theorem Tail.pureBin {c : ℚ} (h : Sgn c) {T : MvPolynomial σ ℚ} (hT : Tail c T) : PureBin T := by
  rcases hT with rfl | ⟨b, rfl⟩
  · exact PureBin.zero
  · exact PureBin.monomial h.neg b

theorem Tail.sub {c : ℚ} (h : Sgn c) {T T' : MvPolynomial σ ℚ} (hT : Tail c T) (hT' : Tail c T') :
    PureBin (T - T') := by
  rcases hT with rfl | ⟨b, rfl⟩
  · rcases hT' with rfl | ⟨b', rfl⟩
    · rw [sub_zero]; exact PureBin.zero
    · rw [zero_sub, ← map_neg, neg_neg]; exact PureBin.monomial h b'
  · refine ⟨b, -c, -T', h.neg, ?_, sub_eq_add_neg _ _⟩
    rcases hT' with rfl | ⟨b', rfl⟩
    · exact Or.inl neg_zero
    · exact Or.inr ⟨b', by rw [← map_neg]⟩

theorem Tail.mul {c e : ℚ} {T : MvPolynomial σ ℚ} (hT : Tail c T) (γ : σ →₀ ℕ) :
    Tail (c * e) (T * MvPolynomial.monomial γ e) := by
  rcases hT with rfl | ⟨b, rfl⟩
  · exact Or.inl (zero_mul _)
  · exact Or.inr ⟨b + γ, by rw [monomial_mul, neg_mul]⟩

theorem PureBin.mul {P : MvPolynomial σ ℚ} (h : PureBin P) {e : ℚ} (he : Sgn e) (γ : σ →₀ ℕ) :
    PureBin (P * MvPolynomial.monomial γ e) := by
  obtain ⟨d, c, T, hc, hT, rfl⟩ := h
  exact ⟨d + γ, c * e, _, hc.mul he, hT.mul γ, by rw [add_mul, monomial_mul]⟩

/-- A nonzero one begins with its leading term. -/
theorem PureBin.lead (m : MonomialOrder σ) {P : MvPolynomial σ ℚ} (h : PureBin P) (h0 : P ≠ 0) :
    Sgn (m.leadingCoeff P) ∧ ∃ T, Tail (m.leadingCoeff P) T ∧
      P = MvPolynomial.monomial (m.degree P) (m.leadingCoeff P) + T := by
  classical
  obtain ⟨d, c, T, hc, rfl | ⟨b, rfl⟩, rfl⟩ := h
  · rw [add_zero, m.leadingCoeff_monomial, m.degree_monomial, if_neg hc.ne]
    exact ⟨hc, 0, Or.inl rfl, by rw [add_zero]⟩
  · have hd1 : m.degree (MvPolynomial.monomial d c) = d := by rw [m.degree_monomial, if_neg hc.ne]
    have hd2 : m.degree (MvPolynomial.monomial b (-c)) = b := by rw [m.degree_monomial, if_neg hc.neg.ne]
    rcases lt_trichotomy (m.toSyn b) (m.toSyn d) with hlt | heq | hlt
    · have hlt' : m.toSyn (m.degree (MvPolynomial.monomial b (-c))) < m.toSyn (m.degree (MvPolynomial.monomial d c)) := by
        rwa [hd1, hd2]
      rw [m.leadingCoeff_add_of_lt hlt', m.degree_add_of_lt hlt', hd1, m.leadingCoeff_monomial]
      exact ⟨hc, _, Or.inr ⟨b, rfl⟩, rfl⟩
    · rw [m.toSyn.injective heq, ← map_add] at h0
      simp at h0
    · have hlt' : m.toSyn (m.degree (MvPolynomial.monomial d c)) < m.toSyn (m.degree (MvPolynomial.monomial b (-c))) := by
        rwa [hd1, hd2]
      rw [add_comm, m.leadingCoeff_add_of_lt hlt', m.degree_add_of_lt hlt', hd2, m.leadingCoeff_monomial]
      exact ⟨hc.neg, _, Or.inr ⟨d, by rw [neg_neg]⟩, rfl⟩

theorem PureBin.coeff {P : MvPolynomial σ ℚ} (h : PureBin P) {e : σ →₀ ℕ} (he : e ∈ P.support) :
    Sgn (MvPolynomial.coeff e P) := by
  classical
  rw [mem_support_iff] at he
  obtain ⟨d, c, T, hc, rfl | ⟨b, rfl⟩, rfl⟩ := h
  · rw [add_zero, coeff_monomial] at he ⊢
    split at he
    · rw [if_pos (by assumption)]; exact hc
    · exact absurd rfl he
  · rw [coeff_add, coeff_monomial, coeff_monomial] at he ⊢
    split at he <;> split at he
    · simp at he
    · rw [if_pos (by assumption), if_neg (by assumption), add_zero]; exact hc
    · rw [if_neg (by assumption), if_pos (by assumption), zero_add]; exact hc.neg
    · simp at he

theorem PureBin.card {P : MvPolynomial σ ℚ} (h : PureBin P) : P.support.card ≤ 2 := by
  classical
  obtain ⟨d, c, T, hc, hT, rfl⟩ := h
  have h1 : T.support.card ≤ 1 := by
    rcases hT with rfl | ⟨b, rfl⟩
    · simp
    · exact (Finset.card_le_card support_monomial_subset).trans (by simp)
  have h2 : (MvPolynomial.monomial d c).support.card ≤ 1 :=
    (Finset.card_le_card support_monomial_subset).trans (by simp)
  have := (Finset.card_le_card (support_add (p := MvPolynomial.monomial d c) (q := T))).trans
    (Finset.card_union_le _ _)
  omega

/-- Dividend and remainder in the division loop. -/
def PureState (f r : MvPolynomial σ ℚ) : Prop :=
  (r = 0 ∧ PureBin f) ∨ (f = 0 ∧ PureBin r) ∨
    ∃ c a b, Sgn c ∧ f = MvPolynomial.monomial a c ∧ r = MvPolynomial.monomial b (-c)

theorem PureState.f {f r : MvPolynomial σ ℚ} (h : PureState f r) : PureBin f := by
  rcases h with ⟨-, h⟩ | ⟨rfl, -⟩ | ⟨c, a, b, hc, rfl, -⟩
  · exact h
  · exact PureBin.zero
  · exact PureBin.monomial hc a

theorem PureState.r {f r : MvPolynomial σ ℚ} (h : PureState f r) : PureBin r := by
  rcases h with ⟨rfl, -⟩ | ⟨-, h⟩ | ⟨c, a, b, hc, -, rfl⟩
  · exact PureBin.zero
  · exact h
  · exact PureBin.monomial hc.neg b

/-- One step that cancels the leading term with a multiple of `g`. -/
theorem PureState.reduce (m : MonomialOrder σ) {f r g : MvPolynomial σ ℚ} (h : PureState f r) (hf0 : f ≠ 0)
    (hg : PureBin g) (hg0 : g ≠ 0) {γ : σ →₀ ℕ} {e : ℚ} (hd : m.degree f = m.degree g + γ)
    (hc : m.leadingCoeff f = m.leadingCoeff g * e) :
    PureState (f - g * MvPolynomial.monomial γ e) r := by
  obtain ⟨hcg, T', hT', hgeq⟩ := hg.lead m hg0
  obtain ⟨hcf, T, hT, hfeq⟩ := h.f.lead m hf0
  have h1 := hT'.mul (e := e) γ
  rw [← hc] at h1
  have hkey : f - g * MvPolynomial.monomial γ e = T - T' * MvPolynomial.monomial γ e := by
    conv_lhs => rw [hfeq, hgeq, add_mul, monomial_mul, ← hd, ← hc]
    abel
  rw [hkey]
  rcases h with ⟨rfl, -⟩ | ⟨h, -⟩ | ⟨c, a, b, hc', hfm, rfl⟩
  · exact Or.inl ⟨rfl, hT.sub hcf h1⟩
  · exact absurd h hf0
  · have hcc : m.leadingCoeff f = c := by rw [hfm, m.leadingCoeff_monomial]
    have hda : m.degree f = a := by classical rw [hfm, m.degree_monomial, if_neg hc'.ne]
    have hT0 : T = 0 := by
      rw [hcc, hda, hfm] at hfeq
      exact (left_eq_add.mp hfeq)
    rw [hcc] at h1
    rw [hT0, zero_sub]
    rcases h1 with h1 | ⟨b', h1⟩
    · rw [h1, neg_zero]; exact Or.inr (Or.inl ⟨rfl, PureBin.monomial hc'.neg b⟩)
    · rw [h1, ← map_neg, neg_neg]; exact Or.inr (Or.inr ⟨c, b', b, hc', rfl, rfl⟩)

/-- One step that moves the leading term to the remainder. -/
theorem PureState.move (m : MonomialOrder σ) {f r : MvPolynomial σ ℚ} (h : PureState f r) (hf0 : f ≠ 0) :
    PureState (f - MvPolynomial.monomial (m.degree f) (m.leadingCoeff f))
      (r + MvPolynomial.monomial (m.degree f) (m.leadingCoeff f)) := by
  obtain ⟨hcf, T, hT, hfeq⟩ := h.f.lead m hf0
  have hkey : f - MvPolynomial.monomial (m.degree f) (m.leadingCoeff f) = T :=
    sub_eq_iff_eq_add'.mpr hfeq
  rw [hkey]
  rcases h with ⟨rfl, -⟩ | ⟨h, -⟩ | ⟨c, a, b, hc', hfm, rfl⟩
  · rw [zero_add]
    rcases hT with rfl | ⟨b, rfl⟩
    · exact Or.inr (Or.inl ⟨rfl, PureBin.monomial hcf _⟩)
    · exact Or.inr (Or.inr ⟨_, b, m.degree f, hcf.neg, rfl, by rw [neg_neg]⟩)
  · exact absurd h hf0
  · have hcc : m.leadingCoeff f = c := by rw [hfm, m.leadingCoeff_monomial]
    have hda : m.degree f = a := by classical rw [hfm, m.degree_monomial, if_neg hc'.ne]
    have hT0 : T = 0 := by
      rw [hcc, hda, hfm] at hfeq
      exact (left_eq_add.mp hfeq)
    rw [hT0, hcc, hda, add_comm]
    exact Or.inr (Or.inl ⟨rfl, a, c, _, hc', Or.inr ⟨b, rfl⟩, rfl⟩)

/-- The S-polynomial. -/
theorem PureBin.spair (m : MonomialOrder σ) {f g : MvPolynomial σ ℚ} (hf : PureBin f) (hf0 : f ≠ 0) (hg : PureBin g)
    (hg0 : g ≠ 0) {L α β : σ →₀ ℕ} (hα : m.degree f + α = L) (hβ : m.degree g + β = L) :
    PureBin (MvPolynomial.monomial α (m.leadingCoeff f)⁻¹ * f - MvPolynomial.monomial β (m.leadingCoeff g)⁻¹ * g) := by
  obtain ⟨hcg, T', hT', hgeq⟩ := hg.lead m hg0
  obtain ⟨hcf, T, hT, hfeq⟩ := hf.lead m hf0
  have h1 := hT.mul (e := (m.leadingCoeff f)⁻¹) α
  have h2 := hT'.mul (e := (m.leadingCoeff g)⁻¹) β
  rw [mul_inv_cancel₀ hcf.ne] at h1
  rw [mul_inv_cancel₀ hcg.ne] at h2
  have e1 : MvPolynomial.monomial α (m.leadingCoeff f)⁻¹ * f =
      MvPolynomial.monomial L 1 + T * MvPolynomial.monomial α (m.leadingCoeff f)⁻¹ := by
    conv_lhs => rw [mul_comm, hfeq, add_mul, monomial_mul]
    rw [← hfeq, hα, mul_inv_cancel₀ hcf.ne]
  have e2 : MvPolynomial.monomial β (m.leadingCoeff g)⁻¹ * g =
      MvPolynomial.monomial L 1 + T' * MvPolynomial.monomial β (m.leadingCoeff g)⁻¹ := by
    conv_lhs => rw [mul_comm, hgeq, add_mul, monomial_mul]
    rw [← hgeq, hβ, mul_inv_cancel₀ hcg.ne]
  rw [e1, e2, add_sub_add_left_eq_sub]
  exact h1.sub (Or.inl rfl) h2

end shape

/-! ### The routines -/

namespace IntData
variable {F : Type} [RField F] [LawfulRField F ℚ] {D : IntData F}
variable {σ : Type} [VarIdx σ] {O : MOrder} {m : MonomialOrder σ} {E : Panic → Prop}

variable (D) in
/-- The coefficients `1` and `-1`. -/
def IsSgn (x : F) : Prop := D.isInt x 1 ∨ D.isInt x (-1)

variable (D) in
/-- What is needed of the type. -/
structure Units : Prop where
  four_le : 4 ≤ D.B
  one : D.isInt RField.one 1
  div : ∀ {x y : F}, D.IsSgn x → D.IsSgn y → ∃ z, (RField.div x y : Res F) = .ok z ∧ D.IsSgn z
  inv : ∀ {x : F}, D.IsSgn x → ∃ z, (RField.inv x : Res F) = .ok z ∧ D.IsSgn z
  mul : ∀ {x y : F}, D.IsSgn x → D.IsSgn y → ∃ z, (RField.mul x y : Res F) = .ok z ∧ D.IsSgn z

theorem IsSgn.val {x : F} (h : D.IsSgn x) : Sgn (val x) := by
  rcases h with h | h
  · exact Or.inl (by rw [D.val_eq h]; simp)
  · exact Or.inr (by rw [D.val_eq h]; simp)

theorem isSgn_of_val {x : F} {i : ℤ} (h : D.isInt x i) (hv : Sgn (LawfulRField.val x)) : D.IsSgn x := by
  rw [D.val_eq h] at hv
  rcases hv with hv | hv
  · have : i = 1 := by exact_mod_cast hv
    exact Or.inl (this ▸ h)
  · have : i = -1 := by exact_mod_cast hv
    exact Or.inr (this ▸ h)

variable (D σ) in
/-- Polynomials of the shapes above with integer coefficients. -/
structure PurePoly (p : Poly F) : Prop where
  clean : Poly.Clean σ p
  int : D.IntPoly p
  shape : PureBin (Poly.den σ p)

theorem PurePoly.coef {p : Poly F} (hp : D.PurePoly σ p) {t : Term F} (ht : t ∈ p) : D.IsSgn t.coef := by
  obtain ⟨i, hi⟩ := hp.int t ht
  refine isSgn_of_val hi ?_
  have := hp.shape.coeff ((Poly.mem_support_den hp.clean).mpr ⟨t, ht, rfl⟩)
  rwa [Poly.coeff_den hp.clean ht] at this

theorem length_card {p : Poly F} (hp : Poly.Clean σ p) :
    p.length = (Poly.den σ p : MvPolynomial σ ℚ).support.card := by
  classical
  have hnd : (p.map fun t => t.mdeg.toF σ).Nodup := by
    have h := List.pairwise_map.mp hp.nodup
    refine List.pairwise_map.mpr (h.imp_of_mem ?_)
    intro t u ht hu hne he
    have htc := hp.terms t ht
    have huc := hp.terms u hu
    exact hne (MDeg.toF_inj htc.mdeg huc.mdeg htc.vars huc.vars he)
  have : (Poly.den σ p : MvPolynomial σ ℚ).support = (p.map fun t => t.mdeg.toF σ).toFinset := by
    ext e
    rw [Poly.mem_support_den hp, List.mem_toFinset, List.mem_map]
  rw [this, List.toFinset_card_of_nodup hnd, List.length_map]

theorem l1_le_length {p : Poly F} (h : ∀ t ∈ p, D.IsSgn t.coef) : l1 p = p.length := by
  induction p with
  | nil => simp [l1]
  | cons t p ih =>
    rw [l1_cons, ih fun u hu => h u (by simp [hu]), (h t (by simp)).val.abs, List.length_cons]
    push_cast; ring

theorem PurePoly.l1_le {p : Poly F} (hp : D.PurePoly σ p) : l1 p ≤ 2 := by
  rw [l1_le_length fun t ht => hp.coef ht, length_card hp.clean]
  exact_mod_cast hp.shape.card

theorem PurePoly.nil : D.PurePoly σ [] := ⟨Poly.clean_nil, (by intro t ht; cases ht), by
  rw [Poly.den_nil]; exact PureBin.zero⟩

omit [LawfulRField F ℚ] in
theorem addNonzeroTerm_new {q : Poly F} {a : Term F} (h : ∀ u ∈ q, u.mdeg ≠ a.mdeg) :
    Poly.addNonzeroTerm q a = .ok (q ++ [a]) := by
  induction q with
  | nil => rfl
  | cons u q ih =>
    unfold Poly.addNonzeroTerm
    rw [if_neg (h u (by simp)), ih fun v hv => h v (by simp [hv])]
    rfl

omit [LawfulRField F ℚ] in
/-- A term with new exponents is appended. -/
theorem addTerm_new {q : Poly F} {a : Term F} (ha : a.isZero = false) (h : ∀ u ∈ q, u.mdeg ≠ a.mdeg) :
    Poly.addTerm q a = .ok (q ++ [a]) := by
  unfold Poly.addTerm
  split
  · rename_i h0
    have : q = [] := by cases q with
      | nil => rfl
      | cons u q => simp [Poly.isZero] at h0
    subst this
    unfold Poly.ofTerm
    rw [ha]; rfl
  · rw [ha]
    exact addNonzeroTerm_new h

theorem tryDiv_sgn (hu : D.Units) {s t : Term F} (hs : s.Clean σ) (ht : t.Clean σ)
    (hi : D.IsSgn s.coef) (hj : D.IsSgn t.coef) :
    ∃ o, s.tryDiv t = .ok o ∧ ∀ a, o = some a → D.IsSgn a.coef := by
  obtain ⟨z, hz, hzi⟩ := hu.div hi hj
  unfold Term.tryDiv
  rw [Term.isZero_false hs.wf hs.ne, Term.isZero_false ht.wf ht.ne]
  simp only [Bool.false_eq_true, if_false]
  rw [show (RField.div s.coef t.coef : Res F) = .ok z from hz, bind_ok]
  cases s.mdeg.checkedSub t.mdeg with
  | none => exact ⟨none, rfl, by simp⟩
  | some m =>
    refine ⟨_, rfl, ?_⟩
    rintro a h
    rw [← Option.some.inj h]
    exact hzi

theorem mulTerm_safe (hu : D.Units) (hE : E .overflowU8) {p : Poly F} {t : Term F} (hp : D.PurePoly σ p)
    (ht : t.Clean σ) (hti : D.IsSgn t.coef) :
    Safe E (Poly.mulTerm p t) fun r => D.PurePoly σ r ∧ Poly.den σ r = Poly.den σ p * t.den σ := by
  have h1 : Safe E (Poly.mulTerm p t) fun r => ∀ w ∈ r, D.IsSgn w.coef := by
    unfold Poly.mulTerm
    split
    · exact Safe.ok (by intro w hw; cases hw)
    · refine Safe.mapM fun u hup => ?_
      have huc := hp.clean.terms u hup
      unfold Term.mul
      rw [Term.isZero_false huc.wf huc.ne, Term.isZero_false ht.wf ht.ne]
      simp only [Bool.or_self, Bool.false_eq_true, if_false]
      obtain ⟨z, hz, hzi⟩ := hu.mul (hp.coef hup) hti
      rw [show (RField.mul u.coef t.coef : Res F) = .ok z from hz, bind_ok,
        show RField.build F = .debug from LawfulRField.build_debug (F := F) (K := ℚ)]
      refine ((MDeg.add_spec huc.mdeg ht.mdeg).mono (E' := E) ?_ fun _ h => h).safe.bind
        fun e _ => Safe.ok hzi
      rintro p ⟨rfl, -⟩
      exact hE
  have h2 := Poly.mulTerm_spec (E := fun p => allowed F p ∨ p = .overflowU8) hp.clean ht.toOk
    (fun _ h => Or.inl h) (Or.inl (Or.inr rfl))
  refine (h1.and h2).imp ?_
  rintro r ⟨h3, h4, h5⟩
  refine ⟨⟨h4, fun w hw => ?_, ?_⟩, h5⟩
  · rcases h3 w hw with h | h <;> exact ⟨_, h⟩
  · rw [h5]; exact hp.shape.mul hti.val _

theorem sub_safe (hu : D.Units) {p q : Poly F} (hp : D.PurePoly σ p) (hq : D.PurePoly σ q) :
    Safe E (Poly.sub p q) fun r => Poly.Clean σ r ∧ D.IntPoly r ∧
      Poly.den σ r = Poly.den σ p - Poly.den σ q := by
  have hB : (4 : ℚ) ≤ D.B := by exact_mod_cast hu.four_le
  obtain ⟨r, hr, h1, -⟩ := D.sub_int hp.int hq.int (by linarith [hp.l1_le, hq.l1_le])
  obtain ⟨h2, h3⟩ := (Poly.sub_spec hp.clean hq.clean).of_ok hr
  exact Safe.of_ok ⟨r, hr, h2, h1, h3⟩

/-- A pair of a divisor and its quotient: the coefficients of the quotient are `±1`, and its terms times
the leading monomial of the divisor are above `w`. -/
structure PairInv (D : IntData F) (m : MonomialOrder σ) (w : WithBot m.syn) (x : Poly F × Poly F) : Prop where
  pure : D.PurePoly σ x.1
  clean : Poly.Clean σ x.2
  sgn : ∀ t ∈ x.2, D.IsSgn t.coef
  above : x.1 ≠ [] → ∀ t ∈ x.2,
    w < ((m.toSyn (m.degree (Poly.den σ x.1) + t.mdeg.toF σ) : m.syn) : WithBot m.syn)

theorem PairInv.mono {w w' : WithBot m.syn} {x : Poly F × Poly F} (h : PairInv D m w x) (hw : w' ≤ w) :
    PairInv D m w' x := ⟨h.pure, h.clean, h.sgn, fun h0 t ht => lt_of_le_of_lt hw (h.above h0 t ht)⟩

theorem divideFor_safe (hO : LawfulOrder O m (fun _ => True) E) (hu : D.Units) (hE : E .overflowU8)
    {ltF : Term F} {f : Poly F} (hf : D.PurePoly σ f) (hm : ltF ∈ f)
    (hlt : ltF.mdeg.toF σ = m.degree (Poly.den σ f)) (hlc : val ltF.coef = m.leadingCoeff (Poly.den σ f))
    (L : List (Poly F × Poly F)) (hL : ∀ x ∈ L, PairInv D m (wdeg m (Poly.den σ f)) x) :
    Safe E (Computer.divideFor O ltF f L) fun o => ∀ qs f', o = some (qs, f') →
      Poly.Clean σ f' ∧ D.IntPoly f' ∧ (∃ g γ e, PureBin g ∧ g ≠ 0 ∧ m.degree (Poly.den σ f) = m.degree g + γ ∧
        m.leadingCoeff (Poly.den σ f) = m.leadingCoeff g * e ∧
        Poly.den σ f' = Poly.den σ f - g * monomial γ e) ∧
      ∃ L' : List (Poly F × Poly F), L'.map (·.1) = L.map (·.1) ∧ L'.map (·.2) = qs ∧
        ∀ w, w < wdeg m (Poly.den σ f) → ∀ x ∈ L', PairInv D m w x := by
  have hltc := hf.clean.terms _ hm
  have hf0 : Poly.den σ f ≠ 0 := by
    rw [Ne, Poly.den_eq_zero_iff hf.clean]; rintro rfl; cases hm
  have hw : wdeg m (Poly.den σ f) = ((m.toSyn (ltF.mdeg.toF σ) : m.syn) : WithBot m.syn) := by
    unfold wdeg; rw [if_neg hf0, hlt]
  induction L with
  | nil => exact Safe.ok (by simp)
  | cons x rest ih =>
    obtain ⟨g, q⟩ := x
    have hgq := hL (g, q) List.mem_cons_self
    have hg : D.PurePoly σ g := hgq.pure
    have hq : Poly.Clean σ q := hgq.clean
    have ih := ih fun x hx => hL x (List.mem_cons_of_mem _ hx)
    have next : Safe E (do
          match ← Computer.divideFor O ltF f rest with
          | none => pure none
          | some (qs, f') => pure (some (q :: qs, f')) : Res (Option (List (Poly F) × Poly F)))
        fun o => ∀ qs f', o = some (qs, f') →
      Poly.Clean σ f' ∧ D.IntPoly f' ∧ (∃ g γ e, PureBin g ∧ g ≠ 0 ∧ m.degree (Poly.den σ f) = m.degree g + γ ∧
        m.leadingCoeff (Poly.den σ f) = m.leadingCoeff g * e ∧
        Poly.den σ f' = Poly.den σ f - g * monomial γ e) ∧
      ∃ L' : List (Poly F × Poly F), L'.map (·.1) = ((g, q) :: rest).map (·.1) ∧ L'.map (·.2) = qs ∧
        ∀ w, w < wdeg m (Poly.den σ f) → ∀ x ∈ L', PairInv D m w x := by
      refine ih.bind fun o ho => ?_
      rcases o with _ | ⟨qs, f'⟩
      · exact Safe.ok (by simp)
      · obtain ⟨h1, h2, h3, L', h4, h5, h6⟩ := ho qs f' rfl
        refine Safe.ok ?_
        intro qs' f'' h
        obtain ⟨rfl, rfl⟩ := Prod.mk.inj (Option.some.inj h)
        refine ⟨h1, h2, h3, (g, q) :: L', by simp [h4], by simp [h5], fun w hw' x hx => ?_⟩
        rcases List.mem_cons.mp hx with rfl | hx
        · exact hgq.mono hw'.le
        · exact h6 w hw' x hx
    unfold Computer.divideFor
    refine (leadingTerm_spec hO hg.clean in_true).safe.bind ?_
    rintro (_ | ltG) hG
    · exact next
    obtain ⟨hmem, hltG, hdG, hcG⟩ := hG
    have hgne : g ≠ [] := by rintro rfl; simp at hmem
    have hgden : Poly.den σ g ≠ 0 := by rwa [Ne, Poly.den_eq_zero_iff hg.clean]
    obtain ⟨oa, hoa, hA⟩ := tryDiv_sgn (σ := σ) hu hltc hltG (hf.coef hm) (hg.coef hmem)
    dsimp only
    rw [hoa, bind_ok]
    rcases oa with _ | a
    · exact next
    have ha := hA a rfl
    obtain ⟨hac, hav, had⟩ := (Term.tryDiv_spec hltc hltG).of_ok hoa
    have hd : m.degree (Poly.den σ g) + a.mdeg.toF σ = ltF.mdeg.toF σ := by
      rw [had, ← hdG, add_comm]
    have hnew : ∀ u ∈ q, u.mdeg ≠ a.mdeg := by
      intro u hu' he
      have := hgq.above hgne u hu'
      rw [hw] at this
      simp only [he] at this
      rw [hd] at this
      exact lt_irrefl _ this
    dsimp only
    rw [addTerm_new (Term.isZero_false hac.wf hac.ne) hnew, bind_ok]
    have hqc : Poly.Clean σ (q ++ [a]) :=
      ((Poly.addTerm_spec hq hac.toOk).of_ok (addTerm_new (Term.isZero_false hac.wf hac.ne) hnew)).1
    refine (mulTerm_safe hu hE hg hac ha).bind fun ag hag => ?_
    refine (sub_safe hu hf hag.1).bind fun f' hf' => Safe.ok ?_
    intro qs f'' h
    obtain ⟨rfl, rfl⟩ := Prod.mk.inj (Option.some.inj h)
    refine ⟨hf'.1, hf'.2.1, ⟨Poly.den σ g, a.mdeg.toF σ, val a.coef, hg.shape, hgden, ?_, ?_, ?_⟩,
      (g, q ++ [a]) :: rest, rfl, rfl, ?_⟩
    · rw [← hlt, hd]
    · rw [← hlc, hav, ← hcG, mul_div_cancel₀]; exact hltG.ne
    · rw [hf'.2.2, hag.2]; rfl
    · intro w hw' x hx
      rcases List.mem_cons.mp hx with rfl | hx
      · refine ⟨hg, hqc, fun t ht => ?_, fun h0 t ht => ?_⟩
        · rcases List.mem_append.mp ht with ht | ht
          · exact hgq.sgn t ht
          · rw [List.mem_singleton.mp ht]; exact ha
        · rcases List.mem_append.mp ht with ht | ht
          · exact hw'.trans (hgq.above h0 t ht)
          · rw [List.mem_singleton.mp ht]
            dsimp only
            rw [hd, ← hw]; exact hw'
      · exact (hL x (List.mem_cons_of_mem _ hx)).mono hw'.le

/-- The state of the division loop. -/
structure PureInv (D : IntData F) (m : MonomialOrder σ) (divs : List (Poly F)) (s : Computer.DivState F) :
    Prop where
  cleanF : Poly.Clean σ s.f
  intF : D.IntPoly s.f
  cleanR : Poly.Clean σ s.remainder
  intR : D.IntPoly s.remainder
  state : PureState (Poly.den σ s.f) (Poly.den σ s.remainder)
  pairs : ∃ L : List (Poly F × Poly F), L.map (·.1) = divs ∧ L.map (·.2) = s.quotients ∧
    ∀ x ∈ L, PairInv D m (wdeg m (Poly.den σ s.f)) x

theorem divideStep_safe (hO : LawfulOrder O m (fun _ => True) E) (hu : D.Units) (hE : E .overflowU8)
    {divs : List (Poly F)} (s : Computer.DivState F) (hs : PureInv D m divs s) :
    Safe E (Computer.divideStep O divs s) fun x => match x with
      | .inl s' => PureInv D m divs s'
      | .inr (r, qs) => D.PurePoly σ r ∧ ∀ q ∈ qs, Poly.Clean σ q ∧ ∀ t ∈ q, D.IsSgn t.coef := by
  have hfp : D.PurePoly σ s.f := ⟨hs.cleanF, hs.intF, hs.state.f⟩
  have hrp : D.PurePoly σ s.remainder := ⟨hs.cleanR, hs.intR, hs.state.r⟩
  obtain ⟨L, hL1, hL2, hL3⟩ := hs.pairs
  unfold Computer.divideStep
  refine (leadingTerm_spec hO hs.cleanF in_true).safe.bind ?_
  rintro (_ | ltF) hF
  · refine Safe.ok ⟨hrp, fun q hq => ?_⟩
    rw [← hL2] at hq
    obtain ⟨x, hx, rfl⟩ := List.mem_map.mp hq
    exact ⟨(hL3 x hx).clean, (hL3 x hx).sgn⟩
  obtain ⟨hmem, hltc, hdF, hcF⟩ := hF
  have hfne : s.f ≠ [] := by intro h; rw [h] at hmem; simp at hmem
  have hf0 : Poly.den σ s.f ≠ 0 := by rwa [Ne, Poly.den_eq_zero_iff hs.cleanF]
  have hzip : divs.zip s.quotients = L := by rw [← hL1, ← hL2]; exact zip_of_maps L
  dsimp only
  rw [hzip]
  refine (divideFor_safe hO hu hE hfp hmem hdF hcF L hL3).bind fun o ho => ?_
  rcases o with _ | ⟨qs, f'⟩
  · dsimp only
    refine (sortTerms_spec hO hs.cleanF in_true).safe.bind fun sorted hsort => ?_
    rcases List.eq_nil_or_concat sorted with h | ⟨init, lt, rfl⟩
    · rw [h] at hsort; exact absurd (List.nil_perm.mp hsort.1) hfne
    rw [List.concat_eq_append] at *
    rw [List.getLast?_append_of_ne_nil _ (by simp), List.dropLast_concat]
    simp only [List.getLast?_singleton]
    have hcs : Poly.Clean σ (init ++ [lt]) := hs.cleanF.perm hsort.1.symm
    have hltmem : lt ∈ s.f := hsort.1.mem_iff.mp (by simp)
    have hlt := hs.cleanF.terms lt hltmem
    have hmax : ∀ u ∈ s.f, m.toSyn (u.mdeg.toF σ) ≤ m.toSyn (lt.mdeg.toF σ) := by
      intro u hu
      rcases List.mem_append.mp (hsort.1.mem_iff.mpr hu) with h | h
      · exact (List.pairwise_append.mp hsort.2).2.2 u h lt (by simp)
      · simp at h; rw [h]
    obtain ⟨hld, hlc⟩ := max_is_leading (m := m) hs.cleanF hltmem hmax
    have hden : Poly.den σ s.f = Poly.den σ init + lt.den σ := by
      rw [← Poly.den_perm hsort.1, Poly.den_append]; simp
    have hltden : lt.den σ = monomial (m.degree (Poly.den σ s.f)) (m.leadingCoeff (Poly.den σ s.f)) := by
      unfold Term.den; rw [hld, hlc]
    have hinit : Poly.den σ init = Poly.den σ s.f - lt.den σ := by rw [hden]; ring
    have hB : (4 : ℚ) ≤ D.B := by exact_mod_cast hu.four_le
    obtain ⟨r, hr, h1, -⟩ := D.addTerm_int hs.intR (hs.intF lt hltmem) (by
      linarith [hrp.l1_le, (hfp.coef hltmem).val.abs])
    obtain ⟨h2, h3⟩ := (Poly.addTerm_spec hs.cleanR hlt.toOk).of_ok hr
    rw [hr, bind_ok]
    have hlow : wdeg m (Poly.den σ init) < wdeg m (Poly.den σ s.f) := by
      refine wdeg_lt m hf0 ?_
      rw [hinit, hltden]
      refine degree_sub_lt m ?_ ?_
      · classical
        rw [m.degree_monomial, if_neg (m.leadingCoeff_ne_zero_iff.mpr hf0)]
      · rw [m.leadingCoeff_monomial]
    refine Safe.ok ⟨hcs.sublist (List.sublist_append_left _ _),
      fun t ht => hs.intF t (hsort.1.mem_iff.mp (by simp [ht])), h2, h1, ?_,
      L, hL1, hL2, fun x hx => (hL3 x hx).mono hlow.le⟩
    dsimp only
    rw [hinit, h3, hltden]
    exact hs.state.move m hf0
  · obtain ⟨h1, h2, ⟨g, γ, e, hg, hg0, hd, hc, hden⟩, L', h4, h5, h6⟩ := ho qs f' rfl
    have he : e ≠ 0 := by
      rintro rfl
      rw [mul_zero, m.leadingCoeff_eq_zero_iff] at hc
      exact hf0 hc
    obtain ⟨e1, e2⟩ := den_mul_monomial (m := m) hg0 (e := γ) he
    have hlow : wdeg m (Poly.den σ f') < wdeg m (Poly.den σ s.f) := by
      refine wdeg_lt m hf0 ?_
      rw [hden]
      exact degree_sub_lt m (hd.trans e1.symm) (hc.trans e2.symm)
    refine Safe.ok ⟨h1, h2, hs.cleanR, hs.intR, ?_, L', h4.trans hL1, h5, h6 _ hlow⟩
    dsimp only
    rw [hden]
    exact hs.state.reduce m hf0 hg hg0 hd hc

theorem divide_safe (hO : LawfulOrder O m (fun _ => True) E) (hu : D.Units) (hE : E .overflowU8)
    {f : Poly F} {divs : List (Poly F)} (hf : D.PurePoly σ f) (hd : ∀ g ∈ divs, D.PurePoly σ g) :
    Safe E (Computer.divide O f divs) fun x => D.PurePoly σ x.1 ∧
      ∀ q ∈ x.2, Poly.Clean σ q ∧ ∀ t ∈ q, D.IsSgn t.coef := by
  refine (Safe.loop (PureInv D m divs) (fun s hs =>
    (divideStep_safe hO hu hE s hs).imp (by rintro (s' | r) h <;> exact h)) ?_).imp fun _ h => h
  refine ⟨hf.clean, hf.int, Poly.clean_nil, (by intro t ht; cases ht), Or.inl ⟨Poly.den_nil, hf.shape⟩,
    divs.map fun g => (g, []), ?_, ?_, ?_⟩
  · rw [List.map_map]; exact List.map_id _
  · rw [List.map_map]
    exact List.map_const' ..
  · intro x hx
    obtain ⟨g, hg, rfl⟩ := List.mem_map.mp hx
    exact ⟨hd g hg, Poly.clean_nil, (by intro t ht; cases ht), by intro _ t ht; cases ht⟩

theorem tryReduce_safe (hO : LawfulOrder O m (fun _ => True) E) (hu : D.Units) (hE : E .overflowU8)
    {f g : Poly F} (hf : D.PurePoly σ f) (hf0 : f ≠ []) (hg : D.PurePoly σ g) (hg0 : g ≠ []) :
    Safe E (Computer.tryReduce O f g) fun o => ∃ s, o = some s ∧ D.PurePoly σ s := by
  have hsp := tryReduce_spec (E := fun p => E p ∨ allowed F p) (hO.mono fun _ h => Or.inl h)
    (fun _ h => Or.inr h) hf.clean in_true hg.clean in_true fun _ _ => trivial
  have hfden : Poly.den σ f ≠ 0 := by rwa [Ne, Poly.den_eq_zero_iff hf.clean]
  have hgden : Poly.den σ g ≠ 0 := by rwa [Ne, Poly.den_eq_zero_iff hg.clean]
  have h1 : Safe E (Computer.tryReduce O f g) fun o => ∀ s, o = some s → D.IntPoly s := by
    unfold Computer.tryReduce
    refine (leadingTerm_spec hO hf.clean in_true).safe.bind ?_
    rintro (_ | ltF) hF
    · exact Safe.ok (by simp)
    refine (leadingTerm_spec hO hg.clean in_true).safe.bind ?_
    rintro (_ | ltG) hG
    · exact Safe.ok (by simp)
    obtain ⟨hmF, hltF, -, -⟩ := hF
    obtain ⟨hmG, hltG, -, -⟩ := hG
    obtain ⟨hlc, -, -⟩ := monicLcm_spec (K := ℚ) hltF hltG
    have hl1 : D.IsSgn (Computer.monicLcm ltF ltG).coef := by
      unfold Computer.monicLcm
      rw [Term.isZero_false hltF.wf hltF.ne, Term.isZero_false hltG.wf hltG.ne]
      exact Or.inl hu.one
    dsimp only
    obtain ⟨oa, hoa, hA⟩ := tryDiv_sgn (σ := σ) hu hlc hltF hl1 (hf.coef hmF)
    rw [hoa, bind_ok]
    rcases oa with _ | a
    · exact Safe.ok (by simp)
    obtain ⟨hac, -, -⟩ := (Term.tryDiv_spec hlc hltF).of_ok hoa
    dsimp only
    refine (mulTerm_safe hu hE hf hac (hA a rfl)).bind fun af haf => ?_
    obtain ⟨ob, hob, hB⟩ := tryDiv_sgn (σ := σ) hu hlc hltG hl1 (hg.coef hmG)
    rw [hob, bind_ok]
    rcases ob with _ | b
    · exact Safe.ok (by simp)
    obtain ⟨hbc, -, -⟩ := (Term.tryDiv_spec hlc hltG).of_ok hob
    dsimp only
    refine (mulTerm_safe hu hE hg hbc (hB b rfl)).bind fun bg hbg => ?_
    refine (sub_safe hu haf.1 hbg.1).bind fun s hs => Safe.ok ?_
    rintro s' h
    rw [← Option.some.inj h]
    exact hs.2.1
  refine (h1.and hsp).imp ?_
  rintro (_ | s) ⟨h2, h3⟩
  · rcases h3 with h | h
    · exact absurd h hf0
    · exact absurd h hg0
  · refine ⟨s, rfl, h3.2.2.1, h2 s rfl, ?_⟩
    rw [h3.2.2.2.1]
    exact hf.shape.spair m hfden hg.shape hgden (add_tsub_cancel_of_le le_sup_left)
      (add_tsub_cancel_of_le le_sup_right)

theorem divCoef_safe (hu : D.Units) (hE : E .overflowU8) {p : Poly F} {c : F} (hp : D.PurePoly σ p)
    (hc : D.IsSgn c) (hw : wf c) :
    Safe E (Poly.divCoef p c) fun r => D.PurePoly σ r ∧ (p ≠ [] → r ≠ []) := by
  have hsp := Poly.divCoef_spec hp.clean hw hc.val.ne
  obtain ⟨z, hz, hzi⟩ := hu.inv hc
  obtain ⟨hzw, hzv⟩ := (LawfulRField.inv_spec _ hw hc.val.ne).of_ok hz
  have h1 : Safe E (Poly.divCoef p c) fun r => D.PurePoly σ r := by
    unfold Poly.divCoef Poly.mulCoef
    rw [show (RField.inv c : Res F) = .ok z from hz, bind_ok]
    have hok := Term.constantUnchecked_ok (σ := σ) hzw
    exact (mulTerm_safe hu hE hp ⟨hok, hzi.val.ne⟩ hzi).imp fun _ h => h.1
  refine (h1.and hsp).imp ?_
  rintro r ⟨h2, h3, h4⟩
  refine ⟨h2, fun h0 hr => ?_⟩
  rw [hr, Poly.den_nil] at h4
  have : Poly.den σ p ≠ (0 : MvPolynomial σ ℚ) := by rwa [Ne, Poly.den_eq_zero_iff hp.clean]
  rcases mul_eq_zero.mp h4.symm with h | h
  · rw [C_eq_zero] at h
    exact inv_ne_zero hc.val.ne h
  · exact this h


/-- Generators: nonzero polynomials of these shapes. -/
def PureGens (D : IntData F) (σ : Type) [VarIdx σ] (gens : List (Poly F)) : Prop :=
  ∀ g ∈ gens, D.PurePoly σ g ∧ g ≠ []

theorem PureGens.ok {gens : List (Poly F)} (h : PureGens D σ gens) : GenOk σ gens :=
  fun g hg => ⟨(h g hg).1.clean, (h g hg).2⟩

theorem criterionFor_safe (hO : LawfulOrder O m (fun _ => True) E) (hu : D.Units) (hE : E .overflowU8)
    {gens : List (Poly F)} (hg : PureGens D σ gens) (L : List (ℕ × ℕ))
    (hL : ∀ x ∈ L, x.1 < gens.length ∧ x.2 < gens.length) :
    Safe E (Computer.criterionFor O gens L) fun _ => True := by
  induction L with
  | nil => exact Safe.ok trivial
  | cons x rest ih =>
    obtain ⟨i, j⟩ := x
    obtain ⟨hi, hj⟩ := hL (i, j) (by simp)
    unfold Computer.criterionFor
    refine (index_spec hi).safe.bind ?_
    rintro gi rfl
    refine (index_spec hj).safe.bind ?_
    rintro gj rfl
    have mi := hg _ (List.getElem_mem hi)
    have mj := hg _ (List.getElem_mem hj)
    refine (tryReduce_safe hO hu hE mi.1 mi.2 mj.1 mj.2).bind ?_
    rintro _ ⟨s, rfl, hs⟩
    refine (divide_safe hO hu hE hs fun g h => (hg g h).1).bind ?_
    rintro ⟨r, qs⟩ -
    dsimp only
    split
    · exact Safe.ok trivial
    · exact ih fun x hx => hL x (by simp [hx])

theorem extendFor_safe (hO : LawfulOrder O m (fun _ => True) E) (hu : D.Units) (hE : E .overflowU8)
    {gens : List (Poly F)} (hg : PureGens D σ gens) {i : ℕ} (hi : i < gens.length) (L : List ℕ)
    (hL : ∀ j ∈ L, j < gens.length) :
    Safe E (Computer.extendFor O gens i L) fun o => ∀ r, o = some r → D.PurePoly σ r ∧ r ≠ [] := by
  induction L with
  | nil => exact Safe.ok (by simp)
  | cons j rest ih =>
    have hj := hL j (by simp)
    unfold Computer.extendFor
    refine (index_spec hi).safe.bind ?_
    rintro gi rfl
    refine (index_spec hj).safe.bind ?_
    rintro gj rfl
    have mi := hg _ (List.getElem_mem hi)
    have mj := hg _ (List.getElem_mem hj)
    refine (tryReduce_safe hO hu hE mi.1 mi.2 mj.1 mj.2).bind ?_
    rintro _ ⟨s, rfl, hs⟩
    refine (divide_safe hO hu hE hs fun g h => (hg g h).1).bind ?_
    rintro ⟨r, qs⟩ ⟨hr, -⟩
    dsimp only at hr ⊢
    have hlcs : Safe E (Computer.leadingCoef O r) fun o => ∀ c, o = some c →
        r ≠ [] ∧ wf c ∧ D.IsSgn c := by
      unfold Computer.leadingCoef
      refine (leadingTerm_spec hO hr.clean in_true).safe.bind ?_
      rintro (_ | t) h
      · exact Safe.ok (by simp)
      · refine Safe.ok ?_
        intro c hc
        rw [← Option.some.inj hc]
        exact ⟨(by rintro rfl; cases h.1), h.2.1.wf, hr.coef h.1⟩
    refine hlcs.bind ?_
    rintro (_ | lc) hlc
    · exact ih fun x hx => hL x (by simp [hx])
    · obtain ⟨h1, h2, h3⟩ := hlc lc rfl
      refine (divCoef_safe hu hE hr h3 h2).bind fun r' hr' => Safe.ok ?_
      intro r'' h
      rw [← Option.some.inj h]
      exact ⟨hr'.1, hr'.2 h1⟩

theorem buchbergerExtend_safe (hO : LawfulOrder O m (fun _ => True) E) (hu : D.Units) (hE : E .overflowU8)
    {gens : List (Poly F)} (hg : PureGens D σ gens) :
    Safe E (Computer.buchbergerExtend O gens) (PureGens D σ) := by
  unfold Computer.buchbergerExtend
  refine Safe.loop (fun s : List (Poly F) × ℕ => PureGens D σ s.1) (fun s hs => ?_) hg
  unfold Computer.extendStep
  split
  · rename_i hi
    refine (extendFor_safe hO hu hE hs hi _ fun j hj => ?_).bind fun o ho => ?_
    · have := List.mem_range.mp hj; omega
    rcases o with _ | r
    · exact Safe.ok hs
    · refine Safe.ok ?_
      intro g hg
      rcases List.mem_append.mp hg with hg | hg
      · exact hs g hg
      · rw [List.mem_singleton.mp hg]; exact ho r rfl
  · exact Safe.ok hs

theorem buchbergerMinimize_safe (hO : LawfulOrder O m (fun _ => True) E)
    {gens : List (Poly F)} (hg : PureGens D σ gens) :
    Safe E (Computer.buchbergerMinimize O gens) fun G => PureGens D σ G ∧ LeadsIncomparable m G := by
  unfold Computer.buchbergerMinimize
  refine Safe.loop (fun s : List (Poly F) => PureGens D σ s) (fun s hs => ?_) hg
  unfold Computer.minimizeStep
  refine (minimizeFor_spec hO hs.ok _ fun x hx => hx).safe.bind ?_
  rintro (_ | i) h
  · refine Safe.ok ⟨hs, ?_⟩
    unfold LeadsIncomparable
    rw [List.pairwise_iff_getElem]
    intro i j hi hj hij
    exact ⟨h (j, i) (mem_pairsIter.mpr ⟨hj, hi, by omega⟩) hj hi,
      h (i, j) (mem_pairsIter.mpr ⟨hi, hj, by omega⟩) hi hj⟩
  · exact Safe.ok fun g hg => hs g (List.mem_of_mem_eraseIdx hg)

theorem buchbergerReduce_safe (hO : LawfulOrder O m (fun _ => True) E) (hu : D.Units) (hE : E .overflowU8)
    {gens : List (Poly F)} (hg : PureGens D σ gens) (hinc : LeadsIncomparable m gens) :
    Safe E (Computer.buchbergerReduce O gens) (PureGens D σ) := by
  unfold Computer.buchbergerReduce
  refine Safe.loop (fun s : List (Poly F) => PureGens D σ s ∧ LeadsIncomparable m s) ?_ ⟨hg, hinc⟩
  rintro G ⟨hG, hinc⟩
  unfold Computer.reduceStep
  refine (reduceFor_spec hO hG.ok _ fun x hx => hx).safe.bind ?_
  rintro (_ | i) h
  · exact Safe.ok hG
  · obtain ⟨hi, j, hj, hji, e, he, hle⟩ := h
    dsimp only
    refine (index_spec hi).safe.bind ?_
    rintro g rfl
    have mi := List.getElem_mem hi
    have hsub : ∀ g ∈ G.eraseIdx i, g ∈ G := fun g hg => List.mem_of_mem_eraseIdx hg
    have hperm : (G[i] :: G.eraseIdx i).Perm G := List.getElem_cons_eraseIdx_perm hi
    have hinc' : LeadsIncomparable m (G[i] :: G.eraseIdx i) := hinc.perm hperm.symm
    have hothers := (List.pairwise_cons.mp hinc').1
    refine ((divide_safe hO hu hE (hG _ mi).1 fun g h => (hG g (hsub g h)).1).and
      (divide_gens_in (E := fun p => E p ∨ allowed F p) (hO.mono fun _ h => Or.inl h) (fun _ h => Or.inr h)
        trivial (fun g h => (hG g (hsub g h)).1.clean) (fun _ _ => in_true) (hG _ mi).1.clean in_true)).bind ?_
    rintro ⟨r, qs⟩ ⟨⟨hr, -⟩, -, hred, hspan, hbelow, -⟩
    dsimp only at hr hred hspan hbelow ⊢
    have hlt : m.degree (Poly.den σ r) = m.degree (Poly.den σ G[i]) ∧
        m.leadingCoeff (Poly.den σ r) = m.leadingCoeff (Poly.den σ G[i]) := by
      refine rem_leading (hG.ok.den_ne mi) ?_ (fun e he => (hred e he).1) hbelow
      rintro _ ⟨g, hg, rfl⟩ _
      exact (hothers g hg).2
    have hr0 : Poly.den σ r ≠ (0 : MvPolynomial σ ℚ) := by
      rw [← m.leadingCoeff_ne_zero_iff, hlt.2, m.leadingCoeff_ne_zero_iff]
      exact hG.ok.den_ne mi
    have hrne : r ≠ [] := by rintro rfl; exact hr0 rfl
    refine Safe.ok ⟨?_, ?_⟩
    · intro g hg
      rcases List.mem_append.mp hg with h | h
      · exact hG g (hsub g h)
      · rw [List.mem_singleton.mp h]; exact ⟨hr, hrne⟩
    · refine LeadsIncomparable.perm (List.perm_append_singleton r _).symm ?_
      refine List.pairwise_cons.mpr ⟨?_, (List.pairwise_cons.mp hinc').2⟩
      rw [hlt.1]
      exact hothers

theorem buchbergerAlgorithm_safe (hO : LawfulOrder O m (fun _ => True) E) (hu : D.Units) (hE : E .overflowU8)
    {gens : List (Poly F)} (hg : PureGens D σ gens) :
    Safe E (Computer.buchbergerAlgorithm O gens) (PureGens D σ) := by
  unfold Computer.buchbergerAlgorithm
  refine (buchbergerExtend_safe hO hu hE hg).bind fun g₁ h1 => ?_
  refine (buchbergerMinimize_safe hO h1).bind fun g₂ h2 => ?_
  exact buchbergerReduce_safe hO hu hE h2.1 h2.2

end IntData
end Verif
