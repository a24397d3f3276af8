import Verif.Proofs.IntData
import Verif.Proofs.Divide
import Verif.Proofs.Elts
import Mathlib.Tactic.Linarith
import Mathlib.Tactic.Ring

/-!
# Division of polynomials with integer coefficients by polynomials with leading coefficients `±1`

Every pass multiplies the sum of the absolute values of all coefficients by at most `N + 2`, where `N`
bounds the sums of the absolute values of the coefficients of the divisors, and there are at most as
many passes as there are monomials below the leading monomial of the dividend.
-/

namespace Verif
open Res LawfulRField MvPolynomial

theorem LawfulOrder.mono {σ : Type} [VarIdx σ] {O : MOrder} {m : MonomialOrder σ}
    {B : (σ →₀ ℕ) → Prop} {E E' : Panic → Prop} (h : LawfulOrder O m B E) (hE : ∀ p, E p → E' p) :
    LawfulOrder O m B E' where
  down := h.down
  ovf := h.ovf.imp (hE _) id
  cmp a b h1 h2 h3 h4 h5 h6 := (h.cmp a b h1 h2 h3 h4 h5 h6).mono hE fun _ h => h

namespace IntData
variable {F : Type} [RField F] [LawfulRField F ℚ] (D : IntData F)

theorem abs_le_l1 {p : Poly F} {t : Term F} (ht : t ∈ p) : |(val t.coef : ℚ)| ≤ l1 p := by
  induction p with
  | nil => cases ht
  | cons u p ih =>
    rw [l1_cons]
    rcases List.mem_cons.mp ht with rfl | ht
    · linarith [l1_nonneg p]
    · linarith [ih ht, abs_nonneg (val u.coef : ℚ)]

theorem l1_perm {p q : Poly F} (h : p.Perm q) : l1 p = l1 q := (h.map _).sum_eq

theorem l1_append (p q : Poly F) : l1 (p ++ q) = l1 p + l1 q := by simp [l1]

/-- The sum over a list of polynomials. -/
def l1s (qs : List (Poly F)) : ℚ := (qs.map l1).sum

theorem l1s_nonneg (qs : List (Poly F)) : 0 ≤ l1s qs :=
  List.sum_nonneg (by simp only [List.mem_map]; rintro _ ⟨t, _, rfl⟩; exact l1_nonneg _)

theorem l1s_cons (q : Poly F) (qs : List (Poly F)) : l1s (q :: qs) = l1 q + l1s qs := by simp [l1s]

/-- Division by `1` and `-1`. -/
def DivUnit : Prop := ∀ {x y : F} {i j : ℤ}, D.isInt x i → D.isInt y j → |i| ≤ D.B → j = 1 ∨ j = -1 →
  ∃ z, (RField.div x y : Res F) = .ok z ∧ D.isInt z (i * j)

variable {σ : Type} [VarIdx σ] {O : MOrder} {m : MonomialOrder σ} {B : (σ →₀ ℕ) → Prop} {D}

/-- A divisor: integer coefficients, leading coefficient `±1`. -/
structure UnitDivisor (D : IntData F) (m : MonomialOrder σ) (B : (σ →₀ ℕ) → Prop) (N : ℚ) (g : Poly F) : Prop where
  clean : Poly.Clean σ g
  inB : Poly.In B g
  int : D.IntPoly g
  bound : l1 g ≤ N
  unit : g ≠ [] → m.leadingCoeff (Poly.den σ g) = 1 ∨ m.leadingCoeff (Poly.den σ g) = -1

theorem tryDiv_int (hu : D.DivUnit) {s t : Term F} {i : ℤ} (hs : s.Clean σ) (ht : t.Clean σ)
    (hi : D.isInt s.coef i) (hb : |i| ≤ D.B) {j : ℤ} (hj : D.isInt t.coef j) (hj1 : j = 1 ∨ j = -1) :
    ∃ o, s.tryDiv t = .ok o ∧ ∀ a, o = some a → ∃ k : ℤ, D.isInt a.coef k ∧
      |(val a.coef : ℚ)| = |(val s.coef : ℚ)| := by
  obtain ⟨z, hz, hzi⟩ := hu hi hj hb hj1
  unfold Term.tryDiv
  rw [Term.isZero_false hs.wf hs.ne, Term.isZero_false ht.wf ht.ne]
  simp only [Bool.false_eq_true, if_false]
  rw [show (RField.div s.coef t.coef : Res F) = .ok z from hz, bind_ok]
  cases s.mdeg.checkedSub t.mdeg with
  | none => exact ⟨none, rfl, by simp⟩
  | some m =>
    refine ⟨_, rfl, ?_⟩
    rintro a h
    rw [← Option.some.inj h]
    refine ⟨_, hzi, ?_⟩
    change |(val z : ℚ)| = _
    rw [D.val_eq hzi, D.val_eq hi]
    rcases hj1 with rfl | rfl <;> simp

theorem divideFor_int (hO : LawfulOrder O m B fun _ => False) (hu : D.DivUnit) {N : ℚ}
    {ltF : Term F} {f : Poly F} (hlt : ltF.Clean σ) (hBf : B (ltF.mdeg.toF σ))
    (hfi : D.IntPoly f) (hm : ltF ∈ f) (L : List (Poly F × Poly F))
    (hL : ∀ x ∈ L, UnitDivisor D m B N x.1 ∧ D.IntPoly x.2)
    (hb : l1 f + l1s (L.map (·.2)) + |(val ltF.coef : ℚ)| * (N + 1) ≤ D.B) (hN : 0 ≤ N) :
    ∃ o, Computer.divideFor O ltF f L = .ok o ∧ ∀ qs f', o = some (qs, f') →
      D.IntPoly f' ∧ (∀ q ∈ qs, D.IntPoly q) ∧
      l1 f' + l1s qs ≤ l1 f + l1s (L.map (·.2)) + |(val ltF.coef : ℚ)| * (N + 1) := by
  have hc0 := abs_nonneg (val ltF.coef : ℚ)
  have hcN := mul_nonneg hc0 hN
  induction L with
  | nil => exact ⟨none, rfl, by simp⟩
  | cons x rest ih =>
    obtain ⟨g, q⟩ := x
    obtain ⟨hg, hq⟩ := hL (g, q) List.mem_cons_self
    rw [List.map_cons, l1s_cons] at hb ⊢
    have hq0 := l1_nonneg q
    have hs0 := l1s_nonneg (rest.map (·.2))
    have hf0 := l1_nonneg f
    simp only at hg hq hb hq0 ⊢
    obtain ⟨o', ho', hP'⟩ := ih (fun x hx => hL x (List.mem_cons_of_mem _ hx)) (by linarith)
    have next : ∃ o, (do
          match ← Computer.divideFor O ltF f rest with
          | none => pure none
          | some (qs, f') => pure (some (q :: qs, f')) : Res (Option (List (Poly F) × Poly F))) = .ok o ∧
        ∀ qs f', o = some (qs, f') → D.IntPoly f' ∧ (∀ q ∈ qs, D.IntPoly q) ∧
          l1 f' + l1s qs ≤ l1 f + (l1 q + l1s (rest.map (·.2))) + |(val ltF.coef : ℚ)| * (N + 1) := by
      rw [ho', bind_ok]
      rcases o' with _ | ⟨qs, f'⟩
      · exact ⟨none, rfl, by simp⟩
      · obtain ⟨h1, h2, h3⟩ := hP' qs f' rfl
        refine ⟨_, rfl, ?_⟩
        intro qs' f'' h
        obtain ⟨rfl, rfl⟩ := Prod.mk.inj (Option.some.inj h)
        refine ⟨h1, ?_, by rw [l1s_cons]; linarith⟩
        intro p hp
        rcases List.mem_cons.mp hp with rfl | hp
        · exact hq
        · exact h2 p hp
    unfold Computer.divideFor
    obtain ⟨oG, hoG, hG⟩ := (leadingTerm_spec hO hg.clean hg.inB).total
    rw [hoG, bind_ok]
    rcases oG with _ | ltG
    · exact next
    obtain ⟨hmem, hltG, hdG, hcG⟩ := hG
    have hgne : g ≠ [] := by rintro rfl; simp at hmem
    obtain ⟨i, hi⟩ := hfi ltF hm
    obtain ⟨j, hj⟩ := hg.int ltG hmem
    have hj1 : j = 1 ∨ j = -1 := by
      have := hg.unit hgne
      rw [← hcG, D.val_eq hj] at this
      rcases this with h | h
      · left; exact_mod_cast h
      · right; exact_mod_cast h
    have hib : |i| ≤ D.B := by
      refine D.abs_le_of_rat (b := |(val ltF.coef : ℚ)|) (by rw [D.val_eq hi]) ?_
      linarith
    obtain ⟨oa, hoa, hA⟩ := tryDiv_int (σ := σ) hu hlt hltG hi hib hj hj1
    dsimp only
    rw [hoa, bind_ok]
    rcases oa with _ | a
    · exact next
    obtain ⟨k, hk, hka⟩ := hA a rfl
    obtain ⟨hac, -, had⟩ := (Term.tryDiv_spec hlt hltG).of_ok hoa
    have hd : m.degree (Poly.den σ g) + a.mdeg.toF σ = ltF.mdeg.toF σ := by
      rw [had, ← hdG, add_comm]
    have hno : ∀ u ∈ g, ∀ i, u.mdeg.deg i + a.mdeg.deg i < 256 :=
      (mul_no_overflow hO hg.clean hac hd hBf).resolve_left id
    obtain ⟨q', hq', h1, h2⟩ := D.addTerm_int hq ⟨k, hk⟩ (by rw [hka]; linarith)
    have hgN : l1 g * |(val a.coef : ℚ)| ≤ |(val ltF.coef : ℚ)| * N := by
      rw [hka, mul_comm]; exact mul_le_mul_of_nonneg_left hg.bound hc0
    obtain ⟨ag, hag, h3, h4⟩ := D.mulTerm_int hg.int ⟨k, hk⟩ (by linarith) fun u hu => by
      rw [show RField.build F = .debug from LawfulRField.build_debug (F := F) (K := ℚ),
        MDeg.add_eq (hg.clean.terms u hu).mdeg.lt hac.mdeg.lt, if_pos (hno u hu)]
      exact ⟨_, rfl⟩
    obtain ⟨f', hf', h5, h6⟩ := D.sub_int hfi h3 (by linarith)
    dsimp only
    rw [hq', bind_ok, hag, bind_ok, hf', bind_ok]
    refine ⟨_, rfl, ?_⟩
    intro qs f'' h
    obtain ⟨rfl, rfl⟩ := Prod.mk.inj (Option.some.inj h)
    refine ⟨h5, ?_, ?_⟩
    · intro p hp
      rcases List.mem_cons.mp hp with rfl | hp
      · exact h1
      · obtain ⟨x, hx, rfl⟩ := List.mem_map.mp hp
        exact (hL x (List.mem_cons_of_mem _ hx)).2
    · rw [l1s_cons]; rw [hka] at h2; linarith

/-- All coefficients in the state are integers. -/
structure IntState (D : IntData F) (s : Computer.DivState F) : Prop where
  f : D.IntPoly s.f
  quotients : ∀ q ∈ s.quotients, D.IntPoly q
  remainder : D.IntPoly s.remainder

/-- The sum of the absolute values of all coefficients in the state. -/
def stateL1 (s : Computer.DivState F) : ℚ := l1 s.f + l1s s.quotients + l1 s.remainder

theorem stateL1_nonneg (s : Computer.DivState F) : 0 ≤ stateL1 s :=
  add_nonneg (add_nonneg (l1_nonneg _) (l1s_nonneg _)) (l1_nonneg _)

theorem divideStep_int (hO : LawfulOrder O m B fun _ => False) (hu : D.DivUnit) {N : ℚ} (hN : 0 ≤ N)
    {f₀ : Poly F} {divs : List (Poly F)} (hdivs : ∀ g ∈ divs, UnitDivisor D m B N g)
    (s : Computer.DivState F) (hs : DivInv m B f₀ divs s) (hi : IntState D s)
    (hb : s.f ≠ [] → stateL1 s * (N + 2) ≤ D.B) :
    ∃ x, Computer.divideStep O divs s = .ok x ∧ ∀ s', x = .inl s' →
      IntState D s' ∧ stateL1 s' ≤ stateL1 s * (N + 2) := by
  unfold Computer.divideStep
  obtain ⟨oF, hoF, hF⟩ := (leadingTerm_spec hO hs.clean hs.inB).total
  rw [hoF, bind_ok]
  rcases oF with _ | ltF
  · exact ⟨_, rfl, by intro _ h; cases h⟩
  obtain ⟨hmem, hlt, hdF, hcF⟩ := hF
  have hfne : s.f ≠ [] := by intro h; rw [h] at hmem; simp at hmem
  replace hb := hb hfne
  obtain ⟨L, hL1, hL2, hL3, -⟩ := hs.pairs
  have hzip : divs.zip s.quotients = L := by rw [← hL1, ← hL2]; exact zip_of_maps L
  have hc := abs_le_l1 hmem
  have hc0 := abs_nonneg (val ltF.coef : ℚ)
  have hr0 := l1_nonneg s.remainder
  have hq0 := l1s_nonneg s.quotients
  have hf0 := l1_nonneg s.f
  have hkey : stateL1 s + |(val ltF.coef : ℚ)| * (N + 1) ≤ stateL1 s * (N + 2) := by
    have h1 : |(val ltF.coef : ℚ)| ≤ stateL1 s := by unfold stateL1; linarith
    have := mul_le_mul_of_nonneg_right h1 (by linarith : (0 : ℚ) ≤ N + 1)
    linarith
  obtain ⟨o, ho, hP⟩ := divideFor_int hO hu (N := N) hlt (hs.inB _ hmem) hi.f hmem L
    (fun x hx => ⟨hdivs _ (by rw [← hL1]; exact List.mem_map.mpr ⟨x, hx, rfl⟩),
      hi.quotients _ (by rw [← hL2]; exact List.mem_map.mpr ⟨x, hx, rfl⟩)⟩)
    (by rw [hL2]; unfold stateL1 at hkey hb; linarith) hN
  dsimp only
  rw [hzip, ho, bind_ok]
  rcases o with _ | ⟨qs, f'⟩
  · obtain ⟨sorted, hso, hsort⟩ := (sortTerms_spec hO hs.clean hs.inB).total
    unfold Computer.sortTerms at hso
    dsimp only
    rw [hso, bind_ok]
    have hsum := l1_perm hsort.1
    rcases List.eq_nil_or_concat sorted with h | ⟨init, lt, rfl⟩
    · rw [h] at hsort; exact absurd (List.nil_perm.mp hsort.1) hfne
    rw [List.concat_eq_append] at *
    rw [List.getLast?_append_of_ne_nil _ (by simp), List.dropLast_concat]
    simp only [List.getLast?_singleton]
    rw [l1_append, l1_cons, l1_nil] at hsum
    have hltm : lt ∈ s.f := hsort.1.mem_iff.mp (by simp)
    have hi0 := l1_nonneg init
    have hle : stateL1 s ≤ stateL1 s * (N + 2) := by
      have := mul_nonneg (stateL1_nonneg s) (by linarith : (0 : ℚ) ≤ N + 1); linarith
    obtain ⟨r, hr, h1, h2⟩ := D.addTerm_int hi.remainder (hi.f lt hltm) (by
      unfold stateL1 at hle hb; linarith)
    rw [hr, bind_ok]
    refine ⟨_, rfl, ?_⟩
    intro s' h
    rw [← Sum.inl.inj h]
    refine ⟨⟨fun t ht => hi.f t (hsort.1.mem_iff.mp (by simp [ht])), hi.quotients, h1⟩, ?_⟩
    refine le_trans ?_ hle
    unfold stateL1
    dsimp only
    linarith
  · obtain ⟨h1, h2, h3⟩ := hP qs f' rfl
    refine ⟨_, rfl, ?_⟩
    intro s' h
    rw [← Sum.inl.inj h]
    refine ⟨⟨h1, h2, hi.remainder⟩, le_trans ?_ hkey⟩
    rw [hL2] at h3
    unfold stateL1
    dsimp only
    linarith

/-- The monomials of `S` that are at most the leading monomial. -/
noncomputable def below (m : MonomialOrder σ) (S : Finset (σ →₀ ℕ)) (f : MvPolynomial σ ℚ) : ℕ := by
  classical exact (S.filter fun e => ((m.toSyn e : m.syn) : WithBot m.syn) ≤ wdeg m f).card

omit [VarIdx σ] in
theorem below_lt {S : Finset (σ →₀ ℕ)} {f g : MvPolynomial σ ℚ} (h : wdeg m g < wdeg m f)
    (hf : m.degree f ∈ S) : below m S g < below m S f := by
  classical
  unfold below
  refine Finset.card_lt_card ⟨fun e he => ?_, fun hsub => ?_⟩
  · rw [Finset.mem_filter] at he ⊢
    exact ⟨he.1, he.2.trans h.le⟩
  · have hf0 : f ≠ 0 := by
      rintro rfl
      unfold wdeg at h
      rw [if_pos rfl] at h
      exact not_lt_bot h
    have hw : wdeg m f = ((m.toSyn (m.degree f) : m.syn) : WithBot m.syn) := by
      unfold wdeg; rw [if_neg hf0]
    have := hsub (Finset.mem_filter.mpr ⟨hf, hw.ge⟩)
    rw [Finset.mem_filter, ← hw] at this
    exact absurd this.2 (not_le.mpr h)

omit [VarIdx σ] in
theorem below_le (S : Finset (σ →₀ ℕ)) (f : MvPolynomial σ ℚ) : below m S f ≤ S.card := by
  classical
  exact Finset.card_filter_le _ _

/-- Division of small integer data by divisors with leading coefficients `±1` returns. -/
theorem divide_int (hO : LawfulOrder O m B fun _ => False) (hu : D.DivUnit) {N : ℚ} (hN : 0 ≤ N)
    {f : Poly F} {divs : List (Poly F)} (hf : Poly.Clean σ f) (hfB : Poly.In B f) (hfi : D.IntPoly f)
    (hdivs : ∀ g ∈ divs, UnitDivisor D m B N g) (S : Finset (σ →₀ ℕ))
    (hS : ∀ e, m.toSyn e ≤ m.toSyn (m.degree (Poly.den σ f)) → e ∈ S)
    (hb : l1 f * (N + 2) ^ S.card ≤ D.B) :
    ∃ x, Computer.divide O f divs = .ok x ∧ D.IntPoly x.1 ∧ (∀ q ∈ x.2, D.IntPoly q) ∧
      l1 x.1 + l1s x.2 ≤ l1 f * (N + 2) ^ S.card := by
  have hO' : LawfulOrder O m B (allowed F) := hO.mono fun _ h => h.elim
  have h1 : (1 : ℚ) ≤ N + 2 := by linarith
  refine Spec.total (loop_spec (· < ·) wellFounded_lt
    (fun s => DivInv m B f divs s ∧ IntState D s ∧
      stateL1 s * (N + 2) ^ below m S (Poly.den σ s.f) ≤ l1 f * (N + 2) ^ S.card)
    (fun s => below m S (Poly.den σ s.f)) _ ?_ _ ⟨divInv_init hf hfB, ⟨hfi, ?_, ?_⟩, ?_⟩)
  · rintro s ⟨hinv, hint, hbd⟩
    have hin : m.degree (Poly.den σ s.f) ∈ S := hS _ hinv.degF
    obtain ⟨x, hx, hP⟩ := divideStep_int hO hu hN hdivs s hinv hint fun hne => by
      have hpos : 1 ≤ below m S (Poly.den σ s.f) := by
        refine Nat.one_le_iff_ne_zero.mpr fun h0 => ?_
        have hw : wdeg m (0 : MvPolynomial σ ℚ) < wdeg m (Poly.den σ s.f) :=
          wdeg_lt m (by rwa [Ne, Poly.den_eq_zero_iff hinv.clean]) fun h => absurd rfl h
        have := below_lt hw hin
        omega
      refine le_trans ?_ (hbd.trans hb)
      refine mul_le_mul_of_nonneg_left ?_ (stateL1_nonneg s)
      exact le_self_pow₀ h1 (by omega)
    have hsp := (divideStep_spec hO' (fun _ h => h) (fun g hg => ⟨(hdivs g hg).clean, (hdivs g hg).inB⟩)
      s hinv).of_ok hx
    rw [hx]
    rcases x with s' | ⟨r, qs⟩
    · obtain ⟨hinv', hlt⟩ := hsp
      obtain ⟨hint', hle⟩ := hP s' rfl
      have hlt' := below_lt hlt hin
      refine ⟨⟨hinv', hint', le_trans ?_ hbd⟩, hlt'⟩
      calc stateL1 s' * (N + 2) ^ below m S (Poly.den σ s'.f)
          ≤ stateL1 s * (N + 2) * (N + 2) ^ below m S (Poly.den σ s'.f) :=
            mul_le_mul_of_nonneg_right hle (by positivity)
        _ = stateL1 s * (N + 2) ^ (below m S (Poly.den σ s'.f) + 1) := by rw [pow_succ]; ring
        _ ≤ _ := mul_le_mul_of_nonneg_left (pow_le_pow_right₀ h1 hlt') (stateL1_nonneg s)
    · obtain ⟨rfl, rfl, hnil⟩ := hsp
      refine ⟨hint.remainder, hint.quotients, le_trans ?_ hbd⟩
      have h2 : stateL1 s ≤ stateL1 s * (N + 2) ^ below m S (Poly.den σ s.f) :=
        le_mul_of_one_le_right (stateL1_nonneg s) (one_le_pow₀ h1)
      refine le_trans ?_ h2
      unfold stateL1
      linarith [l1_nonneg s.f]
  · intro q hq
    rw [List.eq_of_mem_replicate hq]
    intro t ht; cases ht
  · intro t ht; cases ht
  · have hz : l1s (List.replicate divs.length (Poly.zero : Poly F)) = 0 := by
      unfold l1s
      rw [List.map_replicate, show l1 (Poly.zero : Poly F) = 0 from rfl]
      simp
    have : stateL1 (⟨f, List.replicate divs.length Poly.zero, Poly.zero⟩ : Computer.DivState F) = l1 f := by
      unfold stateL1
      dsimp only
      rw [hz, show l1 (Poly.zero : Poly F) = 0 from rfl]; ring
    rw [this]
    exact mul_le_mul_of_nonneg_left (pow_le_pow_right₀ h1 (below_le _ _)) (l1_nonneg f)

end IntData
end Verif
