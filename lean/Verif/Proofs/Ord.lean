import Verif.Proofs.MDeg
import Verif.Poly.Ord
import Mathlib.Data.Finsupp.MonomialOrder
import Mathlib.Data.Finsupp.PWO
import Mathlib.Algebra.BigOperators.Group.Finset.Basic
import Mathlib.Algebra.BigOperators.Fin

/-! # The four monomial orders are the textbook orders -/

namespace Verif
open Res

/-! ## Textbook definitions, on exponent sequences -/

/-- Lexicographic: the first differing exponent decides. -/
def LexLt (f g : ℕ → ℕ) : Prop := ∃ k, (∀ i, i < k → f i = g i) ∧ f k < g k

/-- Lexicographic with the variables reversed: the last differing exponent decides. -/
def RevLexLt (f g : ℕ → ℕ) : Prop := ∃ k, (∀ i, k < i → f i = g i) ∧ f k < g k

/-- Total degree in the variables below `n`. -/
def tot (n : ℕ) (f : ℕ → ℕ) : ℕ := ∑ i ∈ Finset.range n, f i

/-- The four orders of ord.rs. -/
inductive OrdKind where
  | lex | revLex | grLex | gRevLex
  deriving DecidableEq, Repr

namespace OrdKind

/-- The model of the Rust type implementing the order. -/
def order (b : Build) : OrdKind → MOrder
  | lex => MOrder.lex
  | revLex => MOrder.revLex
  | grLex => MOrder.grLex b
  | gRevLex => MOrder.gRevLex b

/-- Whether total degrees are compared first. -/
def graded : OrdKind → Bool
  | lex | revLex => false
  | grLex | gRevLex => true

/-- The textbook strict order on exponent sequences in `n` variables. -/
def Lt (n : ℕ) : OrdKind → (ℕ → ℕ) → (ℕ → ℕ) → Prop
  | lex, f, g => LexLt f g
  | revLex, f, g => RevLexLt f g
  | grLex, f, g => tot n f < tot n g ∨ tot n f = tot n g ∧ LexLt f g
  | gRevLex, f, g => tot n f < tot n g ∨ tot n f = tot n g ∧ RevLexLt g f

end OrdKind

/-! ## Facts about the textbook orders -/

theorem LexLt.irrefl (f : ℕ → ℕ) : ¬ LexLt f f := fun ⟨_, _, h⟩ => lt_irrefl _ h

theorem RevLexLt.irrefl (f : ℕ → ℕ) : ¬ RevLexLt f f := fun ⟨_, _, h⟩ => lt_irrefl _ h

theorem LexLt.trans {f g h : ℕ → ℕ} : LexLt f g → LexLt g h → LexLt f h := by
  rintro ⟨k, hk, hk'⟩ ⟨l, hl, hl'⟩
  rcases lt_trichotomy k l with hkl | rfl | hkl
  · exact ⟨k, fun i hi => (hk i hi).trans (hl i (by omega)), by rw [← hl k hkl]; exact hk'⟩
  · exact ⟨k, fun i hi => (hk i hi).trans (hl i hi), hk'.trans hl'⟩
  · exact ⟨l, fun i hi => (hk i (by omega)).trans (hl i hi), by rw [hk l hkl]; exact hl'⟩

theorem RevLexLt.trans {f g h : ℕ → ℕ} : RevLexLt f g → RevLexLt g h → RevLexLt f h := by
  rintro ⟨k, hk, hk'⟩ ⟨l, hl, hl'⟩
  rcases lt_trichotomy k l with hkl | rfl | hkl
  · exact ⟨l, fun i hi => (hk i (by omega)).trans (hl i hi), by rw [hk l hkl]; exact hl'⟩
  · exact ⟨k, fun i hi => (hk i hi).trans (hl i hi), hk'.trans hl'⟩
  · exact ⟨k, fun i hi => (hk i hi).trans (hl i (by omega)), by rw [← hl k hkl]; exact hk'⟩

theorem lexLt_tri (f g : ℕ → ℕ) : LexLt f g ∨ f = g ∨ LexLt g f := by
  classical
  by_cases h : f = g
  · exact Or.inr (Or.inl h)
  · have hex : ∃ i, f i ≠ g i := by
      by_contra hc; push Not at hc; exact h (funext hc)
    have hmin : ∀ i < Nat.find hex, f i = g i := fun i hi => by
      by_contra hc; exact Nat.find_min hex hi hc
    rcases lt_or_gt_of_ne (Nat.find_spec hex) with hlt | hgt
    · exact Or.inl ⟨_, hmin, hlt⟩
    · exact Or.inr (Or.inr ⟨_, fun i hi => (hmin i hi).symm, hgt⟩)

theorem revLexLt_tri {n : ℕ} {f g : ℕ → ℕ} (hf : ∀ i, n ≤ i → f i = 0) (hg : ∀ i, n ≤ i → g i = 0) :
    RevLexLt f g ∨ f = g ∨ RevLexLt g f := by
  by_cases h : f = g
  · exact Or.inr (Or.inl h)
  · have key : ∀ m, (∀ i, m ≤ i → f i = g i) → ∃ k, (∀ i, k < i → f i = g i) ∧ f k ≠ g k := by
      intro m
      induction m with
      | zero => intro hm; exact absurd (funext fun i => hm i (by omega)) h
      | succ m ih =>
        intro hm
        by_cases hc : f m = g m
        · refine ih fun i hi => ?_
          rcases Nat.eq_or_lt_of_le hi with rfl | hlt
          · exact hc
          · exact hm i hlt
        · exact ⟨m, fun i hi => hm i hi, hc⟩
    obtain ⟨k, hk, hne⟩ := key n fun i hi => by rw [hf i hi, hg i hi]
    rcases lt_or_gt_of_ne hne with hlt | hgt
    · exact Or.inl ⟨k, hk, hlt⟩
    · exact Or.inr (Or.inr ⟨k, fun i hi => (hk i hi).symm, hgt⟩)

theorem tot_add (n : ℕ) (f g : ℕ → ℕ) : tot n (f + g) = tot n f + tot n g := by
  simp [tot, Finset.sum_add_distrib]

namespace OrdKind

theorem Lt.irrefl {n : ℕ} (k : OrdKind) (f : ℕ → ℕ) : ¬ k.Lt n f f := by
  cases k
  · exact LexLt.irrefl f
  · exact RevLexLt.irrefl f
  · rintro (h | h)
    · exact lt_irrefl _ h
    · exact LexLt.irrefl f h.2
  · rintro (h | h)
    · exact lt_irrefl _ h
    · exact RevLexLt.irrefl f h.2

theorem Lt.trans {n : ℕ} {k : OrdKind} {f g h : ℕ → ℕ} (h₁ : k.Lt n f g) (h₂ : k.Lt n g h) :
    k.Lt n f h := by
  cases k
  · exact LexLt.trans h₁ h₂
  · exact RevLexLt.trans h₁ h₂
  · rcases h₁ with h₁ | h₁ <;> rcases h₂ with h₂ | h₂
    · exact Or.inl (by omega)
    · exact Or.inl (by omega)
    · exact Or.inl (by omega)
    · exact Or.inr ⟨by omega, h₁.2.trans h₂.2⟩
  · rcases h₁ with h₁ | h₁ <;> rcases h₂ with h₂ | h₂
    · exact Or.inl (by omega)
    · exact Or.inl (by omega)
    · exact Or.inl (by omega)
    · exact Or.inr ⟨by omega, h₂.2.trans h₁.2⟩

theorem Lt.asymm {n : ℕ} {k : OrdKind} {f g : ℕ → ℕ} (h₁ : k.Lt n f g) : ¬ k.Lt n g f :=
  fun h₂ => Lt.irrefl k f (h₁.trans h₂)

theorem Lt.tri {n : ℕ} (k : OrdKind) {f g : ℕ → ℕ} (hf : ∀ i, n ≤ i → f i = 0)
    (hg : ∀ i, n ≤ i → g i = 0) : k.Lt n f g ∨ f = g ∨ k.Lt n g f := by
  cases k
  · exact lexLt_tri f g
  · exact revLexLt_tri hf hg
  · rcases lt_trichotomy (tot n f) (tot n g) with h | h | h
    · exact Or.inl (Or.inl h)
    · rcases lexLt_tri f g with h' | h' | h'
      · exact Or.inl (Or.inr ⟨h, h'⟩)
      · exact Or.inr (Or.inl h')
      · exact Or.inr (Or.inr (Or.inr ⟨h.symm, h'⟩))
    · exact Or.inr (Or.inr (Or.inl h))
  · rcases lt_trichotomy (tot n f) (tot n g) with h | h | h
    · exact Or.inl (Or.inl h)
    · rcases revLexLt_tri hf hg with h' | h' | h'
      · exact Or.inr (Or.inr (Or.inr ⟨h.symm, h'⟩))
      · exact Or.inr (Or.inl h')
      · exact Or.inl (Or.inr ⟨h, h'⟩)
    · exact Or.inr (Or.inr (Or.inl h))

theorem LexLt.add {f g : ℕ → ℕ} (h : ℕ → ℕ) : LexLt f g → LexLt (f + h) (g + h) := by
  rintro ⟨k, hk, hlt⟩
  exact ⟨k, fun i hi => by simp [hk i hi], by simpa using hlt⟩

theorem RevLexLt.add {f g : ℕ → ℕ} (h : ℕ → ℕ) : RevLexLt f g → RevLexLt (f + h) (g + h) := by
  rintro ⟨k, hk, hlt⟩
  exact ⟨k, fun i hi => by simp [hk i hi], by simpa using hlt⟩

theorem Lt.add {n : ℕ} {k : OrdKind} {f g : ℕ → ℕ} (h : ℕ → ℕ) (hlt : k.Lt n f g) :
    k.Lt n (f + h) (g + h) := by
  cases k
  · exact LexLt.add h hlt
  · exact RevLexLt.add h hlt
  · rcases hlt with h' | h'
    · exact Or.inl (by rw [tot_add, tot_add]; omega)
    · exact Or.inr ⟨by rw [tot_add, tot_add]; omega, LexLt.add h h'.2⟩
  · rcases hlt with h' | h'
    · exact Or.inl (by rw [tot_add, tot_add]; omega)
    · exact Or.inr ⟨by rw [tot_add, tot_add]; omega, RevLexLt.add h h'.2⟩

theorem not_lt_zero {n : ℕ} (k : OrdKind) {f : ℕ → ℕ} (hf : ∀ i, n ≤ i → f i = 0) :
    ¬ k.Lt n f 0 := by
  have htot : tot n f = tot n 0 → f = 0 := by
    intro h
    funext i
    by_cases hi : i < n
    · simp only [tot, Pi.zero_apply, Finset.sum_const_zero, Finset.sum_eq_zero_iff] at h
      exact h i (Finset.mem_range.mpr hi)
    · exact hf i (by omega)
  cases k
  · rintro ⟨_, _, h⟩; exact absurd h (by simp)
  · rintro ⟨_, _, h⟩; exact absurd h (by simp)
  · rintro (h | h)
    · simp [tot] at h
    · rw [htot h.1] at h; exact LexLt.irrefl _ h.2
  · rintro (h | h)
    · simp [tot] at h
    · rw [htot h.1] at h; exact RevLexLt.irrefl _ h.2

end OrdKind

/-! ## The code computes them -/

theorem lexCmp_spec (a b : MDeg) (ha : a = [] ∨ a.getLast? ≠ some 0)
    (hb : b = [] ∨ b.getLast? ≠ some 0) :
    match MOrder.lexCmp a b with
    | .lt => LexLt a.deg b.deg
    | .eq => a = b
    | .gt => LexLt b.deg a.deg := by
  have nil_lt : ∀ b : MDeg, b ≠ [] → (b = [] ∨ b.getLast? ≠ some 0) → LexLt (MDeg.deg []) b.deg := by
    intro b hne hb
    have hl := MDeg.deg_last (hb.resolve_left hne) hne
    rcases lexLt_tri (MDeg.deg []) b.deg with h | h | h
    · exact h
    · rw [← congrFun h] at hl; simp at hl
    · obtain ⟨_, _, h⟩ := h; simp at h
  induction a generalizing b with
  | nil =>
    cases b with
    | nil => simp [MOrder.lexCmp]
    | cons y ys => exact nil_lt _ (by simp) hb
  | cons x xs ih =>
    cases b with
    | nil => exact nil_lt _ (by simp) ha
    | cons y ys =>
      have hxs : xs = [] ∨ xs.getLast? ≠ some 0 := by
        cases xs with
        | nil => left; rfl
        | cons c cs => right; simpa [List.getLast?_cons_cons] using ha
      have hys : ys = [] ∨ ys.getLast? ≠ some 0 := by
        cases ys with
        | nil => left; rfl
        | cons c cs => right; simpa [List.getLast?_cons_cons] using hb
      rw [MOrder.lexCmp]
      have lift : ∀ {f g : MDeg} (c : ℕ), LexLt f.deg g.deg →
          LexLt (MDeg.deg (c :: f)) (MDeg.deg (c :: g)) := by
        rintro f g c ⟨k, hk, hlt⟩
        refine ⟨k + 1, fun i hi => ?_, by simpa using hlt⟩
        cases i with
        | zero => simp
        | succ i => simpa using hk i (by omega)
      rcases lt_trichotomy x y with hlt | heq | hgt
      · rw [compare_lt_iff_lt.mpr hlt]
        exact ⟨0, by omega, by simpa using hlt⟩
      · subst heq
        rw [compare_eq_iff_eq.mpr rfl]
        have := ih ys hxs hys
        cases h : MOrder.lexCmp xs ys <;> rw [h] at this
        · exact lift x this
        · simp only at this ⊢; rw [this]
        · exact lift x this
      · rw [compare_gt_iff_gt.mpr hgt]
        exact ⟨0, by omega, by simpa using hgt⟩

theorem revLexCmp_spec (a b : MDeg) (ha : a.getLast? ≠ some 0) (hb : b.getLast? ≠ some 0) :
    match MOrder.revLexCmp a b with
    | .lt => RevLexLt a.deg b.deg
    | .eq => a = b
    | .gt => RevLexLt b.deg a.deg := by
  have len_lt : ∀ a b : MDeg, b.getLast? ≠ some 0 → a.length < b.length →
      RevLexLt a.deg b.deg := by
    intro a b hb hlt
    have hne : b ≠ [] := by rintro rfl; simp at hlt
    refine ⟨b.length - 1, fun i hi => ?_, ?_⟩
    · rw [MDeg.deg_of_length_le (by omega), MDeg.deg_of_length_le (by omega)]
    · rw [MDeg.deg_of_length_le (by omega : a.length ≤ b.length - 1)]
      exact Nat.pos_of_ne_zero (MDeg.deg_last hb hne)
  have same_len : ∀ a b : MDeg, a.length = b.length →
      match MOrder.firstDiff (a.zip b).reverse with
      | .lt => RevLexLt a.deg b.deg
      | .eq => a = b
      | .gt => RevLexLt b.deg a.deg := by
    intro a
    induction a using List.reverseRecOn with
    | nil => intro b hl; simp at hl; have := List.length_eq_zero_iff.mp hl.symm; subst this; rfl
    | append_singleton as x ih =>
      intro b hl
      rcases List.eq_nil_or_concat b with rfl | ⟨bs, y, rfl⟩
      · simp at hl
      · rw [List.concat_eq_append] at *
        have hl' : as.length = bs.length := by simpa using hl
        rw [List.zip_append hl', List.reverse_append]
        simp only [List.zip_cons_cons, List.zip_nil_right, List.reverse_cons, List.reverse_nil,
          List.nil_append, List.cons_append, MOrder.firstDiff]
        have diff : ∀ (as bs : MDeg) (x y : ℕ), as.length = bs.length → x < y →
            RevLexLt (MDeg.deg (as ++ [x])) (MDeg.deg (bs ++ [y])) := by
          intro as bs x y hl hlt
          refine ⟨as.length, fun i hi => ?_, ?_⟩
          · rw [MDeg.deg_of_length_le (by simp; omega), MDeg.deg_of_length_le (by simp; omega)]
          · rw [MDeg.deg_append, MDeg.deg_append]; simpa [hl] using hlt
        have lift : ∀ (as bs : MDeg) (x : ℕ), as.length = bs.length → RevLexLt as.deg bs.deg →
            RevLexLt (MDeg.deg (as ++ [x])) (MDeg.deg (bs ++ [x])) := by
          rintro as bs x hl ⟨k, hk, hlt⟩
          have hkl : k < bs.length := by
            by_contra hc
            rw [MDeg.deg_of_length_le (by omega : bs.length ≤ k)] at hlt; omega
          refine ⟨k, fun i hi => ?_, ?_⟩
          · rw [MDeg.deg_append, MDeg.deg_append, hl]
            split
            · exact hk i hi
            · rfl
          · rw [MDeg.deg_append, MDeg.deg_append, hl, if_pos hkl, if_pos hkl]; exact hlt
        rcases lt_trichotomy x y with hlt | heq | hgt
        · rw [compare_lt_iff_lt.mpr hlt]; exact diff _ _ _ _ hl' hlt
        · subst heq
          rw [compare_eq_iff_eq.mpr rfl]
          have := ih bs hl'
          simp only
          cases h : MOrder.firstDiff (as.zip bs).reverse <;> rw [h] at this
          · exact lift _ _ _ hl' this
          · simp only at this ⊢; rw [this]
          · exact lift _ _ _ hl'.symm this
        · rw [compare_gt_iff_gt.mpr hgt]; exact diff _ _ _ _ hl'.symm hgt
  unfold MOrder.revLexCmp MDeg.len
  rcases lt_trichotomy a.length b.length with hlt | heq | hgt
  · rw [compare_lt_iff_lt.mpr hlt]; exact len_lt a b hb hlt
  · rw [compare_eq_iff_eq.mpr heq]; exact same_len a b heq
  · rw [compare_gt_iff_gt.mpr hgt]; exact len_lt b a ha hgt

theorem sum_eq_tot {m : MDeg} {n : ℕ} (h : m.length ≤ n) : m.sum = tot n m.deg := by
  rw [MDeg.sum_eq_sum_deg m n h, tot, ← List.sum_range_eq_finset_sum]
where
  List.sum_range_eq_finset_sum {f : ℕ → ℕ} {n : ℕ} :
      ((List.range n).map f).sum = ∑ i ∈ Finset.range n, f i := by
    induction n with
    | zero => simp
    | succ n ih => rw [List.range_succ, Finset.sum_range_succ, List.map_append, List.sum_append, ih]; simp

/-- What a comparison result must mean. -/
def CmpMeans (n : ℕ) (k : OrdKind) (a b : MDeg) : Ordering → Prop
  | .lt => k.Lt n a.deg b.deg
  | .eq => a = b
  | .gt => k.Lt n b.deg a.deg

/-- All four orders, with overflow checks: the comparison means what the textbook says; it panics
only for the graded orders, when a total degree exceeds 255. -/
theorem cmp_spec (k : OrdKind) {n : ℕ} {a b : MDeg} (ha : a.Clean) (hb : b.Clean)
    (hal : a.length ≤ n) (hbl : b.length ≤ n) :
    Spec (fun p => p = .overflowU8 ∧ k.graded ∧ (256 ≤ a.sum ∨ 256 ≤ b.sum))
      ((k.order .debug).cmp a b) (CmpMeans n k a b) := by
  have grad_spec : Spec (fun p => p = Panic.overflowU8 ∧ (256 ≤ a.sum ∨ 256 ≤ b.sum))
      (MOrder.grad .debug a b) (fun o => o = compare a.sum b.sum) := by
    unfold MOrder.grad
    rw [MDeg.totalDeg_eq, MDeg.totalDeg_eq]
    split
    · split
      · exact rfl
      · exact ⟨rfl, Or.inr (by omega)⟩
    · exact ⟨rfl, Or.inl (by omega)⟩
  have hl := lexCmp_spec a b (Or.inr ha.last) (Or.inr hb.last)
  have hr := revLexCmp_spec a b ha.last hb.last
  have ta := sum_eq_tot hal
  have tb := sum_eq_tot hbl
  cases k with
  | lex =>
    change CmpMeans n .lex a b (MOrder.lexCmp a b)
    cases h : MOrder.lexCmp a b <;> rw [h] at hl <;> exact hl
  | revLex =>
    change CmpMeans n .revLex a b (MOrder.revLexCmp a b)
    cases h : MOrder.revLexCmp a b <;> rw [h] at hr <;> exact hr
  | grLex =>
    refine (grad_spec.mono (fun p hp => ⟨hp.1, rfl, hp.2⟩) fun _ h => h).bind ?_
    rintro o rfl
    rcases lt_trichotomy a.sum b.sum with hlt | heq | hgt
    · rw [compare_lt_iff_lt.mpr hlt]; exact Or.inl (by omega)
    · rw [compare_eq_iff_eq.mpr heq]
      change CmpMeans n .grLex a b (MOrder.lexCmp a b)
      cases h : MOrder.lexCmp a b <;> rw [h] at hl
      · exact Or.inr ⟨by omega, hl⟩
      · exact hl
      · exact Or.inr ⟨by omega, hl⟩
    · rw [compare_gt_iff_gt.mpr hgt]; exact Or.inl (by omega)
  | gRevLex =>
    refine (grad_spec.mono (fun p hp => ⟨hp.1, rfl, hp.2⟩) fun _ h => h).bind ?_
    rintro o rfl
    rcases lt_trichotomy a.sum b.sum with hlt | heq | hgt
    · rw [compare_lt_iff_lt.mpr hlt]; exact Or.inl (by omega)
    · rw [compare_eq_iff_eq.mpr heq]
      change CmpMeans n .gRevLex a b (MOrder.revLexCmp a b).swap
      cases h : MOrder.revLexCmp a b <;> rw [h] at hr
      · exact Or.inr ⟨by omega, hr⟩
      · exact hr
      · exact Or.inr ⟨by omega, hr⟩
    · rw [compare_gt_iff_gt.mpr hgt]; exact Or.inl (by omega)

theorem CmpMeans.unique {n : ℕ} {k : OrdKind} {a b : MDeg} {o o' : Ordering}
    (h : CmpMeans n k a b o) (h' : CmpMeans n k a b o') : o = o' := by
  cases o <;> cases o' <;> first | rfl | skip
  all_goals
    simp only [CmpMeans] at h h'
    first
    | exact absurd h' (OrdKind.Lt.asymm h)
    | (subst h; exact absurd h' (OrdKind.Lt.irrefl _ _))
    | (subst h'; exact absurd h (OrdKind.Lt.irrefl _ _))

/-! ## As Mathlib monomial orders in `n` variables -/

/-- Extend an exponent vector by zeros. -/
def extend {n : ℕ} (f : Fin n →₀ ℕ) : ℕ → ℕ := fun i => if h : i < n then f ⟨i, h⟩ else 0

theorem extend_vanish {n : ℕ} (f : Fin n →₀ ℕ) : ∀ i, n ≤ i → extend f i = 0 := by
  intro i hi; simp [extend, Nat.not_lt.mpr hi]

theorem extend_add {n : ℕ} (f g : Fin n →₀ ℕ) : extend (f + g) = extend f + extend g := by
  funext i; simp only [extend, Pi.add_apply]; split <;> simp

theorem extend_zero {n : ℕ} : extend (0 : Fin n →₀ ℕ) = 0 := by
  funext i; simp [extend]

theorem extend_inj {n : ℕ} {f g : Fin n →₀ ℕ} (h : extend f = extend g) : f = g := by
  ext i
  have := congrFun h i.1
  simpa [extend] using this

/-- Type synonym carrying the order. -/
def Syn (_k : OrdKind) (n : ℕ) : Type := Fin n →₀ ℕ

namespace Syn
variable {k : OrdKind} {n : ℕ}

noncomputable instance : AddCommMonoid (Syn k n) := inferInstanceAs (AddCommMonoid (Fin n →₀ ℕ))

theorem tri (a b : Syn k n) :
    k.Lt n (extend a) (extend b) ∨ a = b ∨ k.Lt n (extend b) (extend a) := by
  rcases OrdKind.Lt.tri k (extend_vanish a) (extend_vanish b) with h | h | h
  · exact Or.inl h
  · exact Or.inr (Or.inl (extend_inj h))
  · exact Or.inr (Or.inr h)

noncomputable instance : LinearOrder (Syn k n) where
  le a b := a = b ∨ k.Lt n (extend a) (extend b)
  lt a b := k.Lt n (extend a) (extend b)
  le_refl a := Or.inl rfl
  le_trans a b c := by
    rintro (rfl | h₁) (rfl | h₂)
    · exact Or.inl rfl
    · exact Or.inr h₂
    · exact Or.inr h₁
    · exact Or.inr (h₁.trans h₂)
  lt_iff_le_not_ge a b := by
    constructor
    · intro h
      refine ⟨Or.inr h, ?_⟩
      rintro (rfl | h')
      · exact OrdKind.Lt.irrefl _ _ h
      · exact h.asymm h'
    · rintro ⟨rfl | h, h'⟩
      · exact absurd (Or.inl rfl) h'
      · exact h
  le_antisymm a b := by
    rintro (rfl | h₁) (h | h₂)
    · rfl
    · rfl
    · exact h.symm
    · exact absurd h₂ h₁.asymm
  le_total a b := by
    rcases tri a b with h | h | h
    · exact Or.inl (Or.inr h)
    · exact Or.inl (Or.inl h)
    · exact Or.inr (Or.inr h)
  toDecidableLE := Classical.decRel _

theorem lt_def (a b : Syn k n) : a < b ↔ k.Lt n (extend a) (extend b) := Iff.rfl

instance : IsOrderedAddMonoid (Syn k n) where
  add_le_add_left a b h c := by
    rcases h with rfl | h
    · exact Or.inl rfl
    · refine Or.inr ?_
      have e : ∀ x y : Syn k n, extend (x + y) = extend x + extend y := extend_add
      rw [e, e]
      exact h.add _

end Syn

/-- Reading an exponent vector as an element of the synonym. -/
noncomputable def Syn.equiv (k : OrdKind) (n : ℕ) : (Fin n →₀ ℕ) ≃+ Syn k n where
  toFun a := a
  invFun a := a
  left_inv _ := rfl
  right_inv _ := rfl
  map_add' _ _ := rfl

theorem Syn.equiv_mono (k : OrdKind) (n : ℕ) : Monotone (Syn.equiv k n) := by
  intro a b hab
  change (Syn.equiv k n a) = Syn.equiv k n b ∨ k.Lt n (extend a) (extend b)
  obtain ⟨c, rfl⟩ := exists_add_of_le hab
  rcases OrdKind.Lt.tri k (extend_vanish c) (extend_vanish (0 : Fin n →₀ ℕ)) with h | h | h
  · rw [extend_zero] at h; exact absurd h (OrdKind.not_lt_zero k (extend_vanish c))
  · rw [extend_inj h, add_zero]; exact Or.inl rfl
  · right
    have := h.add (extend a)
    rw [← extend_add, ← extend_add, zero_add, add_comm] at this
    exact this

/-- The monomial order of Mathlib in `n` variables corresponding to each order. -/
noncomputable def OrdKind.mathlib (k : OrdKind) (n : ℕ) : MonomialOrder (Fin n) where
  syn := Syn k n
  toSyn := Syn.equiv k n
  toSyn_monotone := Syn.equiv_mono k n
  wellFoundedLT_syn := by
    rw [WellFoundedLT, isWellFounded_iff, RelEmbedding.wellFounded_iff_isEmpty]
    refine ⟨fun f => ?_⟩
    obtain ⟨i, j, hij, hle⟩ := (wellQuasiOrdered_le (α := Fin n →₀ ℕ))
      (fun i => (Syn.equiv k n).symm (f i))
    have h1 := Syn.equiv_mono k n hle
    rw [AddEquiv.apply_symm_apply, AddEquiv.apply_symm_apply] at h1
    have h2 : f j < f i := f.map_rel_iff.mpr hij
    exact absurd h1 (not_le_of_gt h2)

theorem OrdKind.mathlib_lt (k : OrdKind) {n : ℕ} (a b : Fin n →₀ ℕ) :
    (k.mathlib n).toSyn a < (k.mathlib n).toSyn b ↔ k.Lt n (extend a) (extend b) := Iff.rfl

end Verif
