import Verif.LinAlg.Algorithm
import Verif.Props.Elim

/-!
# Property C87: `lu` and `row_echelon` agree bit for bit, whatever the coefficient type

No law of arithmetic is used, so this covers `f64` (and any other type that implements the traits)
and both build profiles, and no assumption is made on the matrix.
-/

namespace Verif
open Res LinAlg

variable {F : Type} [RField F]

/-- Two folds over the same list that both return keep a relation that every step keeps. -/
theorem foldlM_rel {α β γ : Type} (R : α → β → Prop) {f : α → γ → Res α} {g : β → γ → Res β}
    (h : ∀ a b c a' b', R a b → f a c = .ok a' → g b c = .ok b' → R a' b') :
    ∀ (l : List γ) (a : α) (b : β) (a' : α) (b' : β), R a b → l.foldlM f a = .ok a' →
      l.foldlM g b = .ok b' → R a' b'
  | [], a, b, a', b', hR, ha, hb => by
    rw [List.foldlM_nil] at ha hb
    cases ha; cases hb; exact hR
  | c :: l, a, b, a', b', hR, ha, hb => by
    rw [List.foldlM_cons, bind_eq_ok] at ha hb
    obtain ⟨a₁, ha₁, ha⟩ := ha
    obtain ⟨b₁, hb₁, hb⟩ := hb
    exact foldlM_rel R h l a₁ b₁ a' b' (h a b c a₁ b₁ hR ha₁ hb₁) ha hb

theorem lu_rowEchelon_for [EpsilonEquality F] [StabilityCmp F] (n : ℕ) :
    ∀ (cs : List ℕ) (r : ℕ) (lu lu' : LUInternal F) (f f' : Form F), lu.u = f.b →
      Mat.luFor n cs r lu = .ok lu' → Mat.rowEchelonFor n cs r f = .ok f' → lu'.u = f'.b
  | [], r, lu, lu', f, f', h, h1, h2 => by cases h1; cases h2; exact h
  | c :: cs, r, lu, lu', f, f', h, h1, h2 => by
    rw [Mat.luFor] at h1
    rw [Mat.rowEchelonFor] at h2
    split at h1
    · rename_i hr
      rw [if_pos hr] at h2
      cases h1; cases h2; exact h
    · rename_i hr
      rw [if_neg hr] at h2
      rw [bind_eq_ok] at h1 h2
      obtain ⟨o, ho, h1⟩ := h1
      obtain ⟨o', ho', h2⟩ := h2
      rw [h, ho'] at ho
      cases ho
      rcases o with _ | ⟨s, v⟩
      · exact lu_rowEchelon_for n cs r lu lu' f f' h h1 h2
      · simp only [bind_eq_ok] at h1 h2
        obtain ⟨a, ha, b, hb, d, hd, h1⟩ := h1
        obtain ⟨a', ha', q, hq, b', hb', d', hd', h2⟩ := h2
        refine lu_rowEchelon_for n cs (r + 1) d lu' d' f' ?_ h1 h2
        have e1 : a.u = a'.b := by
          simp only [LUInternal.permute, Form.permuteRows, bind_eq_ok] at ha ha'
          obtain ⟨_, _, u, hu, _, _, ha⟩ := ha
          obtain ⟨_, _, u', hu', ha'⟩ := ha'
          cases ha; cases ha'
          rw [h, hu'] at hu
          exact (Res.ok.inj hu).symm
        have e2 : b.u = b'.b := by
          simp only [LUInternal.scaleRow, Form.scaleRow, bind_eq_ok] at hb hb'
          obtain ⟨_, _, q', hq', u, hu, hb⟩ := hb
          obtain ⟨_, _, u', hu', hb'⟩ := hb'
          cases hb; cases hb'
          rw [hq] at hq'; cases hq'
          rw [e1, hu'] at hu
          exact (Res.ok.inj hu).symm
        unfold LUInternal.replaceColUnderRow at hd
        unfold Form.replaceColUnderRow at hd'
        rw [e2] at hd
        refine foldlM_rel (fun (x : LUInternal F) (y : Form F) => x.u = y.b) ?_ _ b b' d d' e2 hd hd'
        intro x y i x' y' hxy hx hy
        simp only [Form.replaceStep, bind_eq_ok] at hx hy
        obtain ⟨z, hz, s₁, hs₁, u, hu, _, _, hx⟩ := hx
        obtain ⟨z', hz', _, _, _, _, s₂, hs₂, u', hu', hy⟩ := hy
        cases hx; cases hy
        rw [hxy, hz'] at hz; cases hz
        rw [hs₂] at hs₁; cases hs₁
        rw [hxy, hu'] at hu
        exact (Res.ok.inj hu).symm

/-- C87. If `lu` and `row_echelon` both return on a matrix, then the `u` of the first is identical
to the `b` of the second, for every coefficient type (no field law is assumed). -/
theorem C87_lu_row_echelon [EpsilonEquality F] [StabilityCmp F] (M : Mat F) (d : LU F) (f : Form F)
    (hd : M.lu = .ok d) (hf : M.rowEchelon = .ok f) : d.u = f.b := by
  unfold Mat.lu at hd
  rw [bind_eq_ok] at hd
  obtain ⟨lu, hlu, hd⟩ := hd
  cases hd
  exact lu_rowEchelon_for M.rows (List.range M.cols) 0 _ lu _ f rfl hlu hf

/-- C87. The record `original` of a row-equivalent form is the matrix it was computed from. -/
theorem C87_original [EpsilonEquality F] [StabilityCmp F] (M : Mat F) (f g : Form F)
    (hf : M.rowEchelon = .ok f) (hg : f.toRref = .ok g) : f.original = M ∧ g.original = M := by
  have hstep : ∀ (r c : ℕ) (l : List ℕ) (x x' : Form F),
      l.foldlM (Form.replaceStep r c) x = .ok x' → x'.original = x.original := by
    intro r c l
    induction l with
    | nil => intro x x' h; rw [List.foldlM_nil] at h; cases h; rfl
    | cons i l ih =>
      intro x x' h
      rw [List.foldlM_cons, bind_eq_ok] at h
      obtain ⟨y, hy, h⟩ := h
      rw [ih y x' h]
      simp only [Form.replaceStep, bind_eq_ok] at hy
      obtain ⟨_, _, _, _, _, _, _, _, _, _, hy⟩ := hy
      cases hy; rfl
  have hfor : ∀ (cs : List ℕ) (r : ℕ) (x x' : Form F),
      Mat.rowEchelonFor M.rows cs r x = .ok x' → x'.original = x.original := by
    intro cs
    induction cs with
    | nil => intro r x x' h; cases h; rfl
    | cons c cs ih =>
      intro r x x' h
      rw [Mat.rowEchelonFor] at h
      split at h
      · cases h; rfl
      · rw [bind_eq_ok] at h
        obtain ⟨o, _, h⟩ := h
        rcases o with _ | ⟨s, v⟩
        · exact ih r x x' h
        · simp only [bind_eq_ok] at h
          obtain ⟨a, ha, q, hq, b, hb, d, hd, h⟩ := h
          rw [ih _ _ _ h, hstep _ _ _ _ _ hd]
          simp only [Form.scaleRow, Form.permuteRows, bind_eq_ok] at ha hb
          obtain ⟨_, _, _, _, ha⟩ := ha
          obtain ⟨_, _, _, _, hb⟩ := hb
          cases ha; cases hb; rfl
  have h1 : f.original = M := hfor _ _ _ _ hf
  refine ⟨h1, ?_⟩
  rw [← h1]
  unfold Form.toRref at hg
  generalize (List.range' 1 (f.b.rows - 1)).reverse = l at hg
  clear h1 hf
  induction l generalizing f with
  | nil => rw [List.foldlM_nil] at hg; cases hg; rfl
  | cons r l ih =>
    rw [List.foldlM_cons, bind_eq_ok] at hg
    obtain ⟨x, hx, hg⟩ := hg
    rw [ih x hg]
    rw [bind_eq_ok] at hx
    obtain ⟨o, _, hx⟩ := hx
    rcases o with _ | c
    · cases hx; rfl
    · exact hstep _ _ _ _ _ hx

end Verif
