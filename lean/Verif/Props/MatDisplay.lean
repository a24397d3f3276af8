import Verif.LinAlg.Display
import Verif.Poly.Main
import Verif.Props.Display
import Verif.Proofs.Mat

/-!
# Property C85: displayed matrices; C86: the output of `main`
-/

namespace Verif
open Res

namespace Display

/-! ### The text of a list of items is self-delimiting -/

/-- Distinct items have texts of which none is a prefix of another. -/
def SelfDelimiting {F : Type} (dbg : F → List Char) : Prop :=
  ∀ x y r s, dbg x ++ r = dbg y ++ s → x = y ∧ r = s

theorem int_split {x y : ℤ} {r s : List Char} (hr : ∀ c ∈ r.head?, c = ')') (hs : ∀ c ∈ s.head?, c = ')')
    (h : int x ++ r = int y ++ s) : x = y ∧ r = s := by
  have hc : ∀ x : ℤ, ∀ c ∈ int x, (isDigit c || c == '-') = true := fun x c hx => by
    rcases int_chars x c hx with h | h <;> simp [h]
  have hn : ∀ r : List Char, (∀ c ∈ r.head?, c = ')') → ∀ c ∈ r.head?, (isDigit c || c == '-') = false :=
    fun r hr c hcr => by rw [hr c hcr]; decide
  obtain ⟨h1, h2⟩ := split_class (fun c => isDigit c || c == '-') (hc x) (hc y) (hn r hr) (hn s hs) h
  exact ⟨int_inj h1, h2⟩

theorem debugInteger_sd : SelfDelimiting debugInteger := by
  intro x y r s h
  simp only [debugInteger, List.append_assoc] at h
  have h := List.append_cancel_left h
  obtain ⟨h1, h2⟩ := int_split (by simp) (by simp) h
  exact ⟨h1, List.append_cancel_left h2⟩

theorem debugRational_sd : SelfDelimiting debugRational := by
  intro x y r s h
  simp only [debugRational, List.append_assoc] at h
  obtain ⟨h1, h⟩ := debugInteger_sd _ _ _ _ (List.append_cancel_left (List.append_cancel_left h))
  obtain ⟨h2, h⟩ := debugInteger_sd _ _ _ _ (List.append_cancel_left h)
  refine ⟨?_, List.append_cancel_left h⟩
  cases x; cases y; simp_all

variable {F : Type} {dbg : F → List Char}

theorem debugTail_sd (hd : SelfDelimiting dbg) {xs ys : List F} {r s : List Char}
    (h : (xs.flatMap fun y => ',' :: ' ' :: dbg y) ++ ']' :: r =
      (ys.flatMap fun y => ',' :: ' ' :: dbg y) ++ ']' :: s) : xs = ys ∧ r = s := by
  induction xs generalizing ys with
  | nil =>
    cases ys with
    | nil => simpa using h
    | cons y ys => simp at h
  | cons x xs ih =>
    cases ys with
    | nil => simp at h
    | cons y ys =>
      simp only [List.flatMap_cons, List.cons_append, List.append_assoc, List.cons.injEq,
        true_and] at h
      obtain ⟨rfl, h'⟩ := hd _ _ _ _ h
      obtain ⟨rfl, rfl⟩ := ih h'
      exact ⟨rfl, rfl⟩

theorem debugList_sd (hd : SelfDelimiting dbg) (hb : ∀ x, (dbg x).head? ≠ some ']')
    (hn : ∀ x, dbg x ≠ []) : SelfDelimiting (debugList dbg) := by
  have hh : ∀ x r s, dbg x ++ r ≠ ']' :: s := by
    intro x r s h
    cases hx : dbg x with
    | nil => exact hn x hx
    | cons c cs =>
      rw [hx, List.cons_append, List.cons.injEq] at h
      exact hb x (by rw [hx, h.1]; rfl)
  intro xs ys r s h
  cases xs with
  | nil =>
    cases ys with
    | nil => simpa [debugList] using h
    | cons y ys =>
      simp only [debugList, List.cons_append, List.append_assoc, List.cons.injEq, true_and,
        List.nil_append] at h
      exact absurd h.symm (hh _ _ _)
  | cons x xs =>
    cases ys with
    | nil =>
      simp only [debugList, List.cons_append, List.append_assoc, List.cons.injEq, true_and,
        List.nil_append] at h
      exact absurd h (hh _ _ _)
    | cons y ys =>
      simp only [debugList, List.cons_append, List.append_assoc, List.cons.injEq, true_and,
        List.nil_append] at h
      obtain ⟨rfl, h'⟩ := hd _ _ _ _ h
      obtain ⟨rfl, rfl⟩ := debugTail_sd hd h'
      exact ⟨rfl, rfl⟩

/-! ### The rows -/

/-- The texts of the rows, separated by line breaks. -/
def rowsText (dbg : F → List Char) : List (List F) → List Char
  | [] => []
  | [l] => debugList dbg l
  | l :: ls => debugList dbg l ++ '\n' :: rowsText dbg ls

theorem rowsText_inj (hd : SelfDelimiting (debugList dbg)) {ls ms : List (List F)}
    (h : rowsText dbg ls = rowsText dbg ms) : ls = ms := by
  have hne : ∀ l, debugList dbg l ≠ [] := by intro l; cases l <;> simp [debugList]
  induction ls generalizing ms with
  | nil =>
    match ms with
    | [] => rfl
    | [m] => exact absurd h.symm (hne m)
    | m :: m' :: ms => simp [rowsText] at h
  | cons l ls ih =>
    match ls, ms with
    | [], [] => exact absurd h (hne l)
    | [], [m] =>
      have := hd l m [] [] (by simpa [rowsText] using h)
      rw [this.1]
    | [], m :: m' :: ms =>
      have := hd l m [] _ (by simpa [rowsText] using h)
      exact absurd this.2 (by simp)
    | l' :: ls, [] => simp [rowsText] at h
    | l' :: ls, [m] =>
      have := hd l m _ [] (by simpa [rowsText] using h)
      exact absurd this.2 (by simp)
    | l' :: ls, m :: m' :: ms =>
      obtain ⟨rfl, h'⟩ := hd l m _ _ h
      rw [ih (List.cons.inj h').2]

/-- The text of `k` rows, each followed by a line break. -/
def rowsPrefix (dbg : F → List Char) (ls : List (List F)) : List Char :=
  ls.flatMap fun l => debugList dbg l ++ ['\n']

theorem rowsText_snoc (ls : List (List F)) (l : List F) :
    rowsText dbg (ls ++ [l]) = rowsPrefix dbg ls ++ debugList dbg l := by
  induction ls with
  | nil => simp [rowsText, rowsPrefix]
  | cons m ls ih =>
    cases ls with
    | nil => simp [rowsText, rowsPrefix]
    | cons m' ls =>
      rw [List.cons_append, List.cons_append, rowsText]
      · rw [← List.cons_append, ih]; simp [rowsPrefix]
      · simp

end Display

/-- Row `r` of a matrix, as a list. -/
def Mat.rowList {F : Type} (M : Mat F) (r : ℕ) : List F := (M.entries.drop (r * M.cols)).take M.cols

theorem Mat.entries_eq_rows {F : Type} (M : Mat F) (h : M.entries.length = M.rows * M.cols) :
    M.entries = ((List.range M.rows).map M.rowList).flatten := by
  have key : ∀ k, k ≤ M.rows → ((List.range k).map M.rowList).flatten = M.entries.take (k * M.cols) := by
    intro k
    induction k with
    | zero => simp
    | succ k ih =>
      intro hk
      rw [List.range_succ, List.map_append, List.flatten_append, ih (by omega), List.map_singleton,
        List.flatten_singleton, Mat.rowList, Nat.succ_mul, List.take_add]
  rw [key M.rows le_rfl, List.take_of_length_le (by omega)]

/-- C85. Displaying a matrix with enough entries never panics, in either build and for any item text: it
writes a line break and the rows, each as `[a, b, c]`, separated by line breaks. -/
theorem C85_text {F : Type} [RField F] (dbg : F → List Char) (M : Mat F)
    (hl : M.rows * M.cols ≤ M.entries.length) (hlt : M.rows * M.cols < 18446744073709551616)
    (hc : M.cols < 18446744073709551616) :
    Display.mat dbg M =
      .ok ('\n' :: Display.rowsText dbg ((List.range M.rows).map M.rowList)) := by
  have key : Spec (fun _ => False) (Display.mat dbg M) (fun s =>
      s = '\n' :: Display.rowsText dbg ((List.range M.rows).map M.rowList)) := by
    unfold Display.mat
    refine (foldlM_range_spec (fun k s => if k < M.rows ∨ k = 0 then
        s = '\n' :: Display.rowsPrefix dbg ((List.range k).map M.rowList)
      else s = '\n' :: Display.rowsText dbg ((List.range k).map M.rowList)) ?_ ?_).imp fun s hs => ?_
    · simp [Display.rowsPrefix]
    · intro k s hk hs
      rw [if_pos (Or.inl hk)] at hs
      have h1 : (k + 1) * M.cols ≤ M.rows * M.cols := Nat.mul_le_mul_right _ hk
      rw [Nat.succ_mul] at h1
      unfold Usize.mul Usize.add
      rw [Usize.norm_eq (by omega), bind_ok, bind_ok, Usize.norm_eq (by omega), bind_ok,
        if_pos ⟨by omega, by omega⟩]
      have e : k * M.cols + M.cols - k * M.cols = M.cols := by omega
      show (if k + 1 < M.rows ∨ k + 1 = 0 then _ else _)
      rw [e, hs]
      by_cases hlast : k = M.rows - 1
      · rw [if_neg (by omega), if_neg (by simpa using hlast), List.range_succ, List.map_append,
          List.map_singleton, Display.rowsText_snoc]
        rfl
      · rw [if_pos (by omega), if_pos hlast, List.range_succ, List.map_append, List.map_singleton]
        simp [Display.rowsPrefix, Mat.rowList]
    · by_cases h0 : M.rows = 0
      · rw [if_pos (Or.inr h0)] at hs
        rw [hs, h0]; rfl
      · rwa [if_neg (by omega)] at hs
  cases hm : Display.mat dbg M with
  | ok s => rw [hm] at key; exact congrArg _ key
  | panic p => rw [hm] at key; exact key.elim
  | diverge => rw [hm] at key; exact key.elim

/-- C85. Displaying a matrix with too few entries panics. -/
theorem C85_short {F : Type} [RField F] (dbg : F → List Char) (M : Mat F)
    (hl : M.entries.length < M.rows * M.cols) (hlt : M.rows * M.cols < 18446744073709551616)
    : Display.mat dbg M = .panic .indexOutOfBounds := by
  have key : Spec (fun p => p = Panic.indexOutOfBounds) (Display.mat dbg M) (fun _ => False) := by
    unfold Display.mat
    refine (foldlM_range_spec (fun k _ => k * M.cols ≤ M.entries.length) ?_ ?_).imp fun s hs => ?_
    · simp
    · intro k s hk hs
      have h1 : (k + 1) * M.cols ≤ M.rows * M.cols := Nat.mul_le_mul_right _ hk
      rw [Nat.succ_mul] at h1
      unfold Usize.mul Usize.add
      rw [Usize.norm_eq (by omega), bind_ok, bind_ok, Usize.norm_eq (by omega), bind_ok]
      split
      · rename_i h
        show (k + 1) * M.cols ≤ _
        rw [Nat.succ_mul]
        exact h.2
      · rfl
    · omega
  cases hm : Display.mat dbg M with
  | ok s => rw [hm] at key; exact key.elim
  | panic p => rw [hm] at key; exact congrArg _ key
  | diverge => rw [hm] at key; exact key.elim

/-- Both: `Mat::new` accepts any number of entries. -/
example (b : Build) :
    @Display.mat _ (Rational.field b) Display.debugRational (Mat.new 1 1 [⟨1, 2⟩, ⟨3, 4⟩]) =
      @Display.mat _ (Rational.field b) Display.debugRational (Mat.new 1 1 [⟨1, 2⟩]) ∧
    @Display.mat _ (Rational.field b) Display.debugRational (Mat.new 2 1 [⟨1, 2⟩]) =
      .panic .indexOutOfBounds := by
  let _ := Rational.field b
  refine ⟨?_, C85_short _ _ (by decide) (by decide)⟩
  rw [C85_text _ _ (by decide) (by decide) (by decide), C85_text _ _ (by decide) (by decide) (by decide)]
  rfl

/-- C85. Distinct well-formed rational matrices with at least one row never display as the same
text.  (All matrices without rows display as a single line break.) -/
theorem C85_injective (b b' : Build) (M N : Mat Rational)
    (hM : M.entries.length = M.rows * M.cols) (hMl : M.rows * M.cols < 18446744073709551616)
    (hMc : M.cols < 18446744073709551616) (hM0 : 0 < M.rows)
    (hN : N.entries.length = N.rows * N.cols) (hNl : N.rows * N.cols < 18446744073709551616)
    (hNc : N.cols < 18446744073709551616)
    (h : @Display.mat Rational (Rational.field b) Display.debugRational M =
      @Display.mat Rational (Rational.field b') Display.debugRational N) : M = N := by
  rw [@C85_text _ (Rational.field b) _ M hM.ge hMl hMc, @C85_text _ (Rational.field b') _ N hN.ge hNl hNc] at h
  have hsd : Display.SelfDelimiting (Display.debugList Display.debugRational) :=
    Display.debugList_sd Display.debugRational_sd
      (fun x => by simp [Display.debugRational]) (fun x => by simp [Display.debugRational])
  have hrows := Display.rowsText_inj hsd (List.cons.inj (Res.ok.inj h)).2
  have hr : M.rows = N.rows := by simpa using congrArg List.length hrows
  have he : M.entries = N.entries := by rw [M.entries_eq_rows hM, N.entries_eq_rows hN, hrows]
  have hcol : M.cols = N.cols := by
    have := congrArg List.length he
    rw [hM, hN, hr] at this
    exact Nat.eq_of_mul_eq_mul_left (by omega) this
  cases M; cases N; simp_all

example : @Display.mat Rational (Rational.field .debug) Display.debugRational ⟨[⟨1, 2⟩, ⟨-3, 1⟩], 2, 1⟩ =
    .ok "\n[Rational { numer: Integer(1), denom: Integer(2) }]\n[Rational { numer: Integer(-3), denom: Integer(1) }]".toList := by
  decide +kernel

/-- C86. In both builds `main` returns without panicking and prints the identity
`(x + y)(x - y) = x² - y²`. -/
theorem C86_main (b : Build) : mainOutput b = .ok
    ['\n', '(', 'x', ' ', '+', ' ', 'y', ')', '(', 'x', ' ', '-', ' ', 'y', ')', ' ', '=', ' ',
      'x', '²', ' ', '-', ' ', 'y', '²', '\n'] := by
  cases b <;> decide +kernel

end Verif
