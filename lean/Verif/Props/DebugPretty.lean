import Verif.LinAlg.DebugPretty
import Verif.Props.DebugText
import Verif.Props.MatDisplay

/-!
# Property C234: the derived `Debug`, and `Display` of matrices, with the flag `#`
-/

namespace Verif
open Res

namespace Display

variable {F : Type} {dbg : F → List Char} {V : F → Prop}

/-! ### Indented text -/

/-- The text ends with a newline; a text that begins a line may be empty. -/
def Lines : Bool → List Char → Prop
  | nl, [] => nl = true
  | _, c :: cs => Lines (c == '\n') cs

theorem Lines.append {nl : Bool} {u v : List Char} (hu : Lines nl u) (hv : Lines true v) : Lines nl (u ++ v) := by
  induction u generalizing nl with
  | nil => cases hu; exact hv
  | cons c cs ih => exact ih hu

theorem lines_item {nl : Bool} (u : List Char) : Lines nl (u ++ [',', '\n']) := by
  induction u generalizing nl with
  | nil => rfl
  | cons c cs ih => exact ih

theorem padFrom_append {nl : Bool} {u v : List Char} (hu : Lines nl u) :
    padFrom nl (u ++ v) = padFrom nl u ++ padFrom true v := by
  induction u generalizing nl with
  | nil => cases hu; rfl
  | cons c cs ih => rw [List.cons_append, padFrom, padFrom, ih hu]; simp

/-- Where the indented part ends can be seen. -/
theorem padFrom_ends {nl : Bool} {u v r s : List Char} {c d : Char} (hu : Lines nl u) (hv : Lines nl v) (hc : c ≠ ' ')
    (hd : d ≠ ' ') (h : padFrom nl u ++ c :: r = padFrom nl v ++ d :: s) : u = v ∧ c :: r = d :: s := by
  induction u generalizing nl v with
  | nil =>
    cases hu
    cases v with
    | nil => exact ⟨rfl, h⟩
    | cons y ys =>
      simp only [padFrom, List.nil_append, if_true, List.cons_append, List.cons.injEq] at h
      exact absurd h.1 hc
  | cons x xs ih =>
    cases v with
    | nil =>
      cases hv
      simp only [padFrom, List.nil_append, if_true, List.cons_append, List.cons.injEq] at h
      exact absurd h.1.symm hd
    | cons y ys =>
      simp only [padFrom, List.append_assoc, List.append_cancel_left_eq, List.cons_append, List.cons.injEq] at h
      obtain ⟨rfl, h⟩ := h
      obtain ⟨rfl, h'⟩ := ih hu hv h
      exact ⟨rfl, h'⟩

/-- The lines of the fields before they are indented. -/
def fieldLines (fields : List (String × List Char)) : List Char :=
  fields.flatMap fun (f, text) => f.toList ++ ": ".toList ++ text ++ [',', '\n']

theorem flatMap_padded {α : Type} (g : α → List Char) (l : List α) :
    (l.flatMap fun x => padded (g x)) = padFrom true (l.flatMap fun x => g x ++ [',', '\n']) ∧
      Lines true (l.flatMap fun x => g x ++ [',', '\n']) := by
  induction l with
  | nil => exact ⟨rfl, rfl⟩
  | cons x xs ih =>
    rw [List.flatMap_cons, List.flatMap_cons, ih.1, padFrom_append (lines_item _)]
    exact ⟨rfl, (lines_item _).append ih.2⟩

theorem prettyStruct_ends {name : String} {fs gs : List (String × List Char)} {r s : List Char}
    (h : prettyStruct name fs ++ r = prettyStruct name gs ++ s) : fieldLines fs = fieldLines gs ∧ r = s := by
  unfold prettyStruct at h
  generalize " {\n".toList = a at h
  simp only [List.append_assoc, List.append_cancel_left_eq] at h
  obtain ⟨e1, l1⟩ := flatMap_padded (fun x : String × List Char => x.1.toList ++ (": ".toList ++ x.2)) fs
  obtain ⟨e2, l2⟩ := flatMap_padded (fun x : String × List Char => x.1.toList ++ (": ".toList ++ x.2)) gs
  rw [e1, e2] at h
  obtain ⟨h1, h2⟩ := padFrom_ends l1 l2 (by decide) (by decide) h
  refine ⟨?_, (List.cons.inj h2).2⟩
  unfold fieldLines
  simpa only [List.append_assoc] using h1

theorem prettyTuple_ends {name : String} {u v : List Char} {r s : List Char}
    (h : prettyTuple name u ++ r = prettyTuple name v ++ s) : u = v ∧ r = s := by
  unfold prettyTuple padded at h
  generalize "(\n".toList = a at h
  simp only [List.append_assoc, List.append_cancel_left_eq] at h
  obtain ⟨h1, h2⟩ := padFrom_ends (lines_item _) (lines_item _) (by decide) (by decide) h
  exact ⟨List.append_cancel_right h1, (List.cons.inj h2).2⟩

/-- Where the text of a field or item ends can be seen if a comma follows. -/
def CommaEnds (V : F → Prop) (dbg : F → List Char) : Prop :=
  ∀ x y, V x → V y → ∀ r s : List Char, dbg x ++ ',' :: r = dbg y ++ ',' :: s → x = y ∧ r = s

theorem Item.comma (h : Item V dbg) : CommaEnds V dbg := fun x y hx hy r s he => by
  obtain ⟨h1, h2⟩ := h.ends x y hx hy _ _ (by simp) (by simp) he
  exact ⟨h1, (List.cons.inj h2).2⟩

theorem EndsItself.comma (h : EndsItself V dbg) : CommaEnds V dbg := fun x y hx hy r s he => by
  obtain ⟨h1, h2⟩ := h x y hx hy _ _ he
  exact ⟨h1, (List.cons.inj h2).2⟩

theorem CommaEnds.items (h : CommaEnds V dbg) : ∀ {xs ys : List F}, (∀ x ∈ xs, V x) → (∀ y ∈ ys, V y) →
    (xs.flatMap fun x => dbg x ++ [',', '\n']) = (ys.flatMap fun x => dbg x ++ [',', '\n']) → xs = ys := by
  intro xs
  induction xs with
  | nil =>
    intro ys _ _ he
    cases ys with
    | nil => rfl
    | cons y ys => simp at he
  | cons x xs ih =>
    intro ys hx hy he
    cases ys with
    | nil => simp at he
    | cons y ys =>
      simp only [List.flatMap_cons, List.append_assoc, List.cons_append, List.nil_append] at he
      obtain ⟨rfl, h'⟩ := h _ _ (hx _ (by simp)) (hy _ (by simp)) _ _ he
      rw [ih (fun z hz => hx z (by simp [hz])) (fun z hz => hy z (by simp [hz])) (List.cons.inj h').2]

theorem CommaEnds.list (h : CommaEnds V dbg) : EndsItself (fun l => ∀ x ∈ l, V x) (prettyList dbg) := by
  intro xs ys hx hy r s he
  cases xs with
  | nil =>
    cases ys with
    | nil => exact ⟨rfl, by simpa [prettyList] using he⟩
    | cons y ys => simp [prettyList] at he
  | cons x xs =>
    cases ys with
    | nil => simp [prettyList] at he
    | cons y ys =>
      rw [prettyList, prettyList] at he
      obtain ⟨e1, l1⟩ := flatMap_padded dbg (x :: xs)
      obtain ⟨e2, l2⟩ := flatMap_padded dbg (y :: ys)
      rw [e1, e2] at he
      simp only [List.append_assoc, List.cons_append, List.cons.injEq, true_and, List.nil_append] at he
      obtain ⟨h1, h2⟩ := padFrom_ends l1 l2 (by decide) (by decide) he
      exact ⟨h.items hx hy h1, (List.cons.inj h2).2⟩

/-! ### The types -/

theorem prettyInteger_ends : EndsItself (fun _ => True) prettyInteger := by
  intro x y _ _ r s h
  obtain ⟨h1, h2⟩ := prettyTuple_ends h
  exact ⟨int_inj h1, h2⟩

theorem prettyRational_ends : EndsItself (fun _ => True) prettyRational := by
  intro x y _ _ r s h
  obtain ⟨h1, h2⟩ := prettyStruct_ends h
  refine ⟨?_, h2⟩
  simp only [fieldLines, List.flatMap_cons, List.flatMap_nil, List.append_nil, List.append_assoc,
    List.append_cancel_left_eq, List.cons_append, List.nil_append] at h1
  obtain ⟨h3, h4⟩ := prettyInteger_ends.comma _ _ trivial trivial _ _ h1
  rw [List.cons.injEq] at h4
  simp only [List.append_cancel_left_eq, true_and] at h4
  obtain ⟨h5, -⟩ := prettyInteger_ends.comma _ _ trivial trivial _ _ h4
  cases x; cases y; simp_all

theorem prettyMDeg_ends : EndsItself (fun _ => True) prettyMDeg := by
  intro x y _ _ r s h
  obtain ⟨h1, h2⟩ := prettyTuple_ends h
  exact ⟨(item_nat.comma.list x y (by simp) (by simp) [] [] (by simpa using h1)).1, h2⟩

theorem CommaEnds.term (h : CommaEnds V dbg) : EndsItself (fun t => V t.coef) (prettyTerm dbg) := by
  intro x y hx hy r s he
  obtain ⟨h1, h2⟩ := prettyStruct_ends he
  refine ⟨?_, h2⟩
  simp only [fieldLines, List.flatMap_cons, List.flatMap_nil, List.append_nil, List.append_assoc,
    List.append_cancel_left_eq, List.cons_append, List.nil_append] at h1
  obtain ⟨h3, h4⟩ := h _ _ hx hy _ _ h1
  rw [List.cons.injEq] at h4
  simp only [List.append_cancel_left_eq, true_and] at h4
  obtain ⟨h5, -⟩ := prettyMDeg_ends.comma _ _ trivial trivial _ _ h4
  cases x; cases y; simp_all

theorem CommaEnds.poly (h : CommaEnds V dbg) : EndsItself (fun p => ∀ t ∈ p, V t.coef) (prettyPoly dbg) := by
  intro x y hx hy r s he
  obtain ⟨h1, h2⟩ := prettyStruct_ends he
  refine ⟨?_, h2⟩
  simp only [fieldLines, List.flatMap_cons, List.flatMap_nil, List.append_nil, List.append_assoc,
    List.append_cancel_left_eq] at h1
  exact (h.term.comma.list x y hx hy _ _ h1).1

theorem CommaEnds.mat (h : CommaEnds V dbg) : EndsItself (fun M => ∀ x ∈ M.entries, V x) (prettyMat dbg) := by
  intro x y hx hy r s he
  obtain ⟨h1, h2⟩ := prettyStruct_ends he
  refine ⟨?_, h2⟩
  simp only [fieldLines, List.flatMap_cons, List.flatMap_nil, List.append_nil, List.append_assoc,
    List.append_cancel_left_eq, List.cons_append, List.nil_append] at h1
  obtain ⟨h3, h4⟩ := h.list.comma _ _ hx hy _ _ h1
  rw [List.cons.injEq] at h4
  simp only [List.append_cancel_left_eq, true_and] at h4
  obtain ⟨h5, h6⟩ := item_nat.comma _ _ trivial trivial _ _ h4
  rw [List.cons.injEq] at h6
  simp only [List.append_cancel_left_eq, true_and] at h6
  obtain ⟨h7, -⟩ := item_nat.comma _ _ trivial trivial _ _ h6
  cases x; cases y; simp_all

theorem EndsItself.inj (h : EndsItself V dbg) {x y : F} (hx : V x) (hy : V y) (he : dbg x = dbg y) : x = y :=
  (h x y hx hy [] [] (by rw [he])).1

/-! ### `Display` of matrices -/

/-- Texts separated by line breaks. -/
def broken : List (List Char) → List Char
  | [] => []
  | [t] => t
  | t :: ts => t ++ '\n' :: broken ts

theorem broken_snoc (ts : List (List Char)) (t : List Char) :
    broken (ts ++ [t]) = (ts.flatMap fun t => t ++ ['\n']) ++ t := by
  induction ts with
  | nil => rfl
  | cons u ts ih =>
    cases ts with
    | nil => simp [broken]
    | cons u' ts =>
      rw [List.cons_append, List.cons_append, broken]
      · rw [← List.cons_append, ih]; simp
      · simp

theorem EndsItself.broken_inj {G : Type} {V : G → Prop} {dbg : G → List Char} (h : EndsItself V dbg)
    (hne : ∀ x, dbg x ≠ []) {xs ys : List G} (hx : ∀ x ∈ xs, V x) (hy : ∀ y ∈ ys, V y)
    (he : broken (xs.map dbg) = broken (ys.map dbg)) : xs = ys := by
  induction xs generalizing ys with
  | nil =>
    match ys with
    | [] => rfl
    | [y] => exact absurd he.symm (hne y)
    | y :: y' :: ys => simp [broken] at he
  | cons x xs ih =>
    match xs, ys with
    | [], [] => exact absurd he (hne x)
    | [], [y] =>
      have := h x y (hx _ (by simp)) (hy _ (by simp)) [] [] (by simpa [broken] using he)
      rw [this.1]
    | [], y :: y' :: ys =>
      have := h x y (hx _ (by simp)) (hy _ (by simp)) [] _ (by simpa [broken] using he)
      exact absurd this.2 (by simp)
    | x' :: xs, [] => simp [broken] at he
    | x' :: xs, [y] =>
      have := h x y (hx _ (by simp)) (hy _ (by simp)) _ [] (by simpa [broken] using he)
      exact absurd this.2 (by simp)
    | x' :: xs, y :: y' :: ys =>
      obtain ⟨rfl, h'⟩ := h x y (hx _ (by simp)) (hy _ (by simp)) _ _ he
      rw [ih (fun z hz => hx z (by simp at hz ⊢; tauto)) (fun z hz => hy z (by simp at hz ⊢; tauto))
        (List.cons.inj h').2]

theorem matAlternate_inj (h : CommaEnds V dbg) (M N : Mat F)
    (hMv : ∀ x ∈ M.entries, V x) (hNv : ∀ x ∈ N.entries, V x)
    (hM : M.entries.length = M.rows * M.cols) (hN : N.entries.length = N.rows * N.cols) (hM0 : 0 < M.rows)
    (he : broken ((List.range M.rows).map fun r => prettyList dbg (M.rowList r)) =
      broken ((List.range N.rows).map fun r => prettyList dbg (N.rowList r))) : M = N := by
  have hv : ∀ M : Mat F, (∀ x ∈ M.entries, V x) → ∀ l ∈ (List.range M.rows).map M.rowList, ∀ x ∈ l, V x := by
    intro M hM l hl x hx
    rw [List.mem_map] at hl
    obtain ⟨r, -, rfl⟩ := hl
    exact hM x (List.mem_of_mem_drop (List.mem_of_mem_take hx))
  have hrows := h.list.broken_inj (fun l => by cases l <;> simp [prettyList]) (hv M hMv) (hv N hNv)
    (by rw [List.map_map, List.map_map]; exact he)
  have hr : M.rows = N.rows := by simpa using congrArg List.length hrows
  have he : M.entries = N.entries := by rw [M.entries_eq_rows hM, N.entries_eq_rows hN, hrows]
  have hcol : M.cols = N.cols := by
    have := congrArg List.length he
    rw [hM, hN, hr] at this
    exact Nat.eq_of_mul_eq_mul_left (by omega) this
  cases M; cases N; simp_all

end Display

open Display

/-- **C234** `{:#}` of a matrix with enough entries writes a line break and the rows as `{:#?}` writes lists, separated
by line breaks. -/
theorem C234_display {F : Type} [RField F] (dbg : F → List Char) (M : Mat F)
    (hl : M.rows * M.cols ≤ M.entries.length) (hlt : M.rows * M.cols < 18446744073709551616)
    (hc : M.cols < 18446744073709551616) :
    matAlternate dbg M = .ok ('\n' :: broken ((List.range M.rows).map fun r => prettyList dbg (M.rowList r))) := by
  have key : Spec (fun _ => False) (matAlternate dbg M) (fun s =>
      s = '\n' :: broken ((List.range M.rows).map fun r => prettyList dbg (M.rowList r))) := by
    unfold matAlternate
    refine (foldlM_range_spec (fun k s => if k < M.rows ∨ k = 0 then
        s = '\n' :: ((List.range k).map fun r => prettyList dbg (M.rowList r)).flatMap fun t => t ++ ['\n']
      else s = '\n' :: broken ((List.range k).map fun r => prettyList dbg (M.rowList r))) ?_ ?_).imp fun s hs => ?_
    · simp
    · intro k s hk hs
      rw [if_pos (Or.inl hk)] at hs
      have h1 : (k + 1) * M.cols ≤ M.rows * M.cols := Nat.mul_le_mul_right _ hk
      rw [Nat.succ_mul] at h1
      unfold Usize.mul Usize.add
      rw [Usize.norm_eq (by omega), bind_ok, bind_ok, Usize.norm_eq (by omega), bind_ok,
        if_pos ⟨by omega, by omega⟩]
      have e : k * M.cols + M.cols - k * M.cols = M.cols := by omega
      show (if k + 1 < M.rows ∨ k + 1 = 0 then _ else _)
      rw [e, hs]
      by_cases hlast : k = M.rows - 1
      · rw [if_neg (by omega), if_neg (by simpa using hlast), List.range_succ, List.map_append,
          List.map_singleton, broken_snoc]
        rfl
      · rw [if_pos (by omega), if_pos hlast, List.range_succ, List.map_append, List.map_singleton]
        simp [Mat.rowList]
    · by_cases h0 : M.rows = 0
      · rw [if_pos (Or.inr h0)] at hs
        rw [hs, h0]; rfl
      · rwa [if_neg (by omega)] at hs
  cases hm : matAlternate dbg M with
  | ok s => rw [hm] at key; exact congrArg _ key
  | panic p => rw [hm] at key; exact key.elim
  | diverge => rw [hm] at key; exact key.elim

/-- **C234** Distinct well-formed matrices with at least one row have distinct `{:#}` texts, for entries whose text shows
where it ends when a comma follows (`prettyRational` and, for valid floats, `debugFloat`). -/
theorem C234_display_injective {F : Type} {dbg : F → List Char} {V : F → Prop} (hd : CommaEnds V dbg) (R R' : RField F)
    (M N : Mat F) (hMv : ∀ x ∈ M.entries, V x) (hNv : ∀ x ∈ N.entries, V x)
    (hM : M.entries.length = M.rows * M.cols) (hMl : M.rows * M.cols < 18446744073709551616)
    (hMc : M.cols < 18446744073709551616) (hM0 : 0 < M.rows)
    (hN : N.entries.length = N.rows * N.cols) (hNl : N.rows * N.cols < 18446744073709551616)
    (hNc : N.cols < 18446744073709551616)
    (h : @matAlternate _ R dbg M = @matAlternate _ R' dbg N) : M = N := by
  rw [@C234_display _ R _ M hM.ge hMl hMc, @C234_display _ R' _ N hN.ge hNl hNc] at h
  exact matAlternate_inj hd M N hMv hNv hM hN hM0 (List.cons.inj (Res.ok.inj h)).2

/-- The entries of the crate's types are such. -/
theorem C234_entries : CommaEnds (fun _ => True) prettyRational ∧
    ∀ f : Fmt, letI := f; CommaEnds Flt.Valid debugFloat :=
  ⟨prettyRational_ends.comma, fun _ => item_float.comma⟩

/-- **C234** Distinct numbers, multidegrees, terms, polynomials and matrices over `Rational` have distinct `{:#?}`
texts. -/
theorem C234_rational :
    (∀ x y, prettyInteger x = prettyInteger y → x = y) ∧ (∀ x y, prettyRational x = prettyRational y → x = y) ∧
    (∀ m m', prettyMDeg m = prettyMDeg m' → m = m') ∧
    (∀ t t' : Term Rational, prettyTerm prettyRational t = prettyTerm prettyRational t' → t = t') ∧
    (∀ p q : Poly Rational, prettyPoly prettyRational p = prettyPoly prettyRational q → p = q) ∧
    ∀ M N : Mat Rational, prettyMat prettyRational M = prettyMat prettyRational N → M = N :=
  have h := prettyRational_ends.comma
  ⟨fun _ _ => prettyInteger_ends.inj trivial trivial, fun _ _ => prettyRational_ends.inj trivial trivial,
    fun _ _ => prettyMDeg_ends.inj trivial trivial, fun _ _ => h.term.inj trivial trivial,
    fun _ _ => h.poly.inj (by simp) (by simp), fun _ _ => h.mat.inj (by simp) (by simp)⟩

/-- **C234** The same over floats (where all NaN are the same in the model). -/
theorem C234_float [Fmt] :
    (∀ t t' : Term Flt, t.coef.Valid → t'.coef.Valid → prettyTerm debugFloat t = prettyTerm debugFloat t' → t = t') ∧
    (∀ p q : Poly Flt, (∀ t ∈ p, t.coef.Valid) → (∀ t ∈ q, t.coef.Valid) →
      prettyPoly debugFloat p = prettyPoly debugFloat q → p = q) ∧
    ∀ M N : Mat Flt, (∀ x ∈ M.entries, x.Valid) → (∀ x ∈ N.entries, x.Valid) →
      prettyMat debugFloat M = prettyMat debugFloat N → M = N :=
  have h := item_float.comma
  ⟨fun _ _ => h.term.inj, fun _ _ => h.poly.inj, fun _ _ => h.mat.inj⟩

/-- Texts: an item of an item is indented twice, and an empty list is not broken. -/
theorem C234_run :
    prettyPoly prettyInteger [⟨3, [1, 2]⟩, ⟨-1, []⟩] =
      ("Polynomial {\n    terms: [\n        Term {\n            coef: Integer(\n                3,\n            ),\n" ++
      "            mdeg: MultiDegree(\n                [\n                    1,\n                    2,\n" ++
      "                ],\n            ),\n        },\n        Term {\n            coef: Integer(\n" ++
      "                -1,\n            ),\n            mdeg: MultiDegree(\n                [],\n" ++
      "            ),\n        },\n    ],\n}").toList ∧
    @matAlternate _ (Rational.field .debug) prettyRational ⟨[⟨1, 2⟩, ⟨-3, 1⟩], 2, 1⟩ =
      .ok ("\n[\n    Rational {\n        numer: Integer(\n            1,\n        ),\n        denom: Integer(\n" ++
        "            2,\n        ),\n    },\n]\n[\n    Rational {\n        numer: Integer(\n            -3,\n" ++
        "        ),\n        denom: Integer(\n            1,\n        ),\n    },\n]").toList ∧
    prettyMat nat ⟨[5], 1, 1⟩ = "Mat {\n    entries: [\n        5,\n    ],\n    rows: 1,\n    cols: 1,\n}".toList := by
  decide +kernel

/-! ### The lines of the texts -/

namespace Display

/-- The lines, each followed by a newline. -/
def unlines (ls : List (List Char)) : List Char := ls.flatMap fun l => l ++ ['\n']

/-- Four spaces and the line. -/
def indent (l : List Char) : List Char := "    ".toList ++ l

theorem unlines_cons (l : List Char) (ls : List (List Char)) : unlines (l :: ls) = l ++ '\n' :: unlines ls := by
  simp [unlines]

theorem unlines_append (ks ls : List (List Char)) : unlines (ks ++ ls) = unlines ks ++ unlines ls :=
  List.flatMap_append

theorem padFrom_line {u v : List Char} (h : '\n' ∉ u) : padFrom false (u ++ '\n' :: v) = u ++ '\n' :: padFrom true v := by
  induction u with
  | nil => rfl
  | cons c cs ih =>
    rw [List.mem_cons, not_or] at h
    have hc : (c == '\n') = false := by simpa using fun e => h.1 e.symm
    rw [List.cons_append, padFrom, hc, ih h.2]
    rfl

theorem padFrom_unlines {ls : List (List Char)} (h : ∀ l ∈ ls, l ≠ [] ∧ '\n' ∉ l) :
    padFrom true (unlines ls) = unlines (ls.map indent) := by
  induction ls with
  | nil => rfl
  | cons l ls ih =>
    obtain ⟨h1, h2⟩ := h l (by simp)
    obtain ⟨c, cs, rfl⟩ := List.exists_cons_of_ne_nil h1
    rw [List.mem_cons, not_or] at h2
    have hc : (c == '\n') = false := by simpa using fun e => h2.1 e.symm
    rw [unlines_cons, List.map_cons, unlines_cons, ← ih fun l hl => h l (by simp [hl]), List.cons_append, padFrom, hc,
      padFrom_line h2.2]
    rfl

/-- A text of several lines, the last not ended, as a field. -/
theorem padded_unlines {ls : List (List Char)} {l : List Char} (h : ∀ l ∈ ls, l ≠ [] ∧ '\n' ∉ l) (hl : '\n' ∉ l) :
    padded (unlines ls ++ l) = unlines (ls.map indent) ++ unlines [indent (l ++ [','])] := by
  have : unlines ls ++ l ++ [',', '\n'] = unlines (ls ++ [l ++ [',']]) := by
    rw [unlines_append]; simp [unlines]
  rw [padded, this, padFrom_unlines, List.map_append, unlines_append]
  · rfl
  · intro k hk
    rw [List.mem_append, List.mem_singleton] at hk
    rcases hk with hk | rfl
    · exact h k hk
    · exact ⟨by simp, by simp [hl]⟩

theorem padded_line {l : List Char} (hl : '\n' ∉ l) : padded l = unlines [indent (l ++ [','])] :=
  padded_unlines (ls := []) (by simp) hl

theorem newline_nat (n : ℕ) : '\n' ∉ nat n := fun h => absurd (nat_isDigit n _ h) (by decide)

theorem newline_int (x : ℤ) : '\n' ∉ int x := fun h => (int_chars x _ h).elim (fun h => absurd h (by decide)) (by decide)

theorem prettyList_lines {F : Type} {dbg : F → List Char} {l : List F} (h : ∀ x ∈ l, '\n' ∉ dbg x) (hne : l ≠ []) :
    prettyList dbg l = unlines (['['] :: l.map fun x => indent (dbg x ++ [','])) ++ [']'] := by
  obtain ⟨x, xs, rfl⟩ := List.exists_cons_of_ne_nil hne
  have : ∀ l : List F, (∀ x ∈ l, '\n' ∉ dbg x) →
      (l.flatMap fun y => padded (dbg y)) = unlines (l.map fun x => indent (dbg x ++ [','])) := by
    intro l
    induction l with
    | nil => intro _; rfl
    | cons x xs ih =>
      intro h
      rw [List.flatMap_cons, padded_line (h x (by simp)), ih fun y hy => h y (by simp [hy]), List.map_cons,
        unlines_cons, unlines_cons]
      simp [unlines]
  rw [prettyList, this _ h, unlines_cons]
  simp

end Display

/-- **C234** The lines of `{:#?}` of an `Integer` and of a `Rational`. -/
theorem C234_number_lines (x : ℤ) (q : Rational) :
    prettyInteger x = unlines ["Integer(".toList, "    ".toList ++ int x ++ [',']] ++ [')'] ∧
    prettyRational q = unlines ["Rational {".toList, "    numer: Integer(".toList,
      "        ".toList ++ int q.numer ++ [','], "    ),".toList, "    denom: Integer(".toList,
      "        ".toList ++ int q.denom ++ [','], "    ),".toList] ++ ['}'] := by
  have hi : ∀ x, prettyInteger x = unlines ["Integer(".toList, "    ".toList ++ int x ++ [',']] ++ [')'] := by
    intro x
    rw [prettyInteger, prettyTuple, padded_line (newline_int x)]
    simp [unlines, indent]
  refine ⟨hi x, ?_⟩
  have hf : ∀ (name : List Char) (x : ℤ), '\n' ∉ name → padded (name ++ ": ".toList ++ prettyInteger x) =
      unlines [indent (name ++ ": Integer(".toList), "        ".toList ++ int x ++ [','], "    ),".toList] := by
    intro name x hn
    have : name ++ ": ".toList ++ prettyInteger x =
        unlines [name ++ ": Integer(".toList, "    ".toList ++ int x ++ [',']] ++ [')'] := by
      rw [hi]; simp [unlines]
    rw [this, padded_unlines ?_ (by decide)]
    · simp [unlines, indent]
    · intro l hl
      have := newline_int x
      simp only [List.mem_cons, List.not_mem_nil, or_false] at hl
      rcases hl with rfl | rfl
      · exact ⟨by simp, by simp [hn]⟩
      · exact ⟨by simp, by simp [this]⟩
  simp only [prettyRational, prettyStruct, List.flatMap_cons, List.flatMap_nil]
  rw [hf _ _ (by decide), hf _ _ (by decide)]
  simp [unlines, indent]

/-- **C234** The lines of `{:#?}` of a `MultiDegree`. -/
theorem C234_mdeg_lines (m : MDeg) :
    prettyMDeg m = if m = [] then unlines ["MultiDegree(".toList, "    [],".toList] ++ [')'] else
      unlines (["MultiDegree(".toList, "    [".toList] ++ (m.map fun d => "        ".toList ++ nat d ++ [',']) ++
        ["    ],".toList]) ++ [')'] := by
  by_cases hm : m = []
  · subst hm; decide
  · rw [if_neg hm, prettyMDeg, prettyTuple, prettyList_lines (fun x _ => newline_nat x) hm, padded_unlines ?_ (by decide)]
    · simp [unlines, indent, List.flatMap_map]
    · intro l hl
      rw [List.mem_cons, List.mem_map] at hl
      rcases hl with rfl | ⟨d, _, rfl⟩
      · decide
      · have := newline_nat d
        exact ⟨by simp [indent], by simp [indent, this]⟩

/-- **C234** The lines of `{:#?}` of a matrix with entries whose text is one line, as with `f32` and `f64`. -/
theorem C234_mat_lines {F : Type} (dbg : F → List Char) (M : Mat F) (h : ∀ x ∈ M.entries, '\n' ∉ dbg x)
    (hne : M.entries ≠ []) :
    prettyMat dbg M = unlines (["Mat {".toList, "    entries: [".toList] ++
      (M.entries.map fun x => "        ".toList ++ dbg x ++ [',']) ++ ["    ],".toList,
        "    rows: ".toList ++ nat M.rows ++ [','], "    cols: ".toList ++ nat M.cols ++ [',']]) ++ ['}'] := by
  have hl : "entries".toList ++ ": ".toList ++ prettyList dbg M.entries =
      unlines ("entries: [".toList :: M.entries.map fun x => indent (dbg x ++ [','])) ++ [']'] := by
    rw [prettyList_lines h hne, unlines_cons, unlines_cons]; simp
  simp only [prettyMat, prettyStruct, List.flatMap_cons, List.flatMap_nil]
  rw [hl, padded_unlines ?_ (by decide), padded_line, padded_line]
  · simp [unlines, indent, List.flatMap_map]
  · have := newline_nat M.cols
    simp [this]
  · have := newline_nat M.rows
    simp [this]
  · intro l hl
    rw [List.mem_cons, List.mem_map] at hl
    rcases hl with rfl | ⟨x, hx, rfl⟩
    · decide
    · have := h x hx
      exact ⟨by simp [indent], by simp [indent, this]⟩

/-- **C234** The texts of floats are one line. -/
theorem C234_float_line [Fmt] {x : Flt} (hx : x.Valid) : '\n' ∉ debugFloat x := fun h => by
  have := debugFloat_chars hx _ h
  revert this
  decide

end Verif
