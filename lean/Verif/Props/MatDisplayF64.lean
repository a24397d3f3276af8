import Verif.LinAlg.DisplayF64
import Verif.Props.MatDisplay
import Verif.Props.ReadBackFloat

/-!
# Property C207: displayed matrices of floats
-/

namespace Verif
open Res Display Flt

variable [Fmt]

namespace Read

/-- A number in scientific notation without sign (digits, possibly a point and digits, possibly `e` and an
exponent), rounded to nearest, `inf` or `NaN`, for the given sign. -/
def sciAbs (neg : Bool) (s : List Char) : Flt :=
  if s = "inf".toList then .inf neg
  else if s = "NaN".toList then .nan
  else
    let m := s.takeWhile (· != 'e')
    let e := int (s.dropWhile (· != 'e')).tail
    let a := m.takeWhile (· != '.')
    let b := (m.dropWhile (· != '.')).tail
    Flt.round neg (number digitVal (a ++ b) * 10 ^ e.toNat * Flt.unit) (10 ^ b.length * 10 ^ (-e).toNat)

/-- A float in scientific notation, possibly after a minus sign. -/
def sci (s : List Char) : Flt := if s.head? = some '-' then sciAbs true s.tail else sciAbs false s

/-- A list `[a, b, c]` of floats. -/
def row (s : List Char) : List Flt :=
  if s = "[]".toList then []
  else ((s.filter fun c => c != ' ' && c != '[' && c != ']').splitOn ',').map sci

/-- Lines with a list of floats on each of them, after a line break. -/
def rows (s : List Char) : List (List Flt) := (s.tail.splitOn '\n').map row

end Read

namespace Display

/-- The exponent, if there is one. -/
def expText : Option ℤ → List Char
  | none => []
  | some e => 'e' :: int e

/-- Digits, possibly a point and digits, possibly an exponent. -/
def sciText (a b : List Char) (e : Option ℤ) : List Char :=
  a ++ (if b = [] then [] else '.' :: b) ++ expText e

theorem sciAbs_text (neg : Bool) {a b : List Char} (e : Option ℤ) (ha : ∀ c ∈ a, isDigit c = true)
    (hb : ∀ c ∈ b, isDigit c = true) (hne : a ≠ []) :
    Read.sciAbs neg (sciText a b e) =
      Flt.round neg (readNat (a ++ b) * 10 ^ (e.getD 0).toNat * Flt.unit)
        (10 ^ b.length * 10 ^ (-(e.getD 0)).toNat) := by
  have hd : ∀ c, isDigit c = true → c ≠ '.' ∧ c ≠ 'e' ∧ c ≠ 'i' ∧ c ≠ 'N' := by
    intro c hc
    refine ⟨?_, ?_, ?_, ?_⟩ <;> (rintro rfl; revert hc; decide)
  obtain ⟨d, a', rfl⟩ := List.exists_cons_of_ne_nil hne
  have hd1 := hd d (ha d (by simp))
  set m := (d :: a') ++ (if b = [] then [] else '.' :: b) with hm
  have hmc : ∀ c ∈ m, (c != 'e') = true := by
    intro c hc
    rw [hm] at hc
    rcases List.mem_append.mp hc with h | h
    · simpa using (hd c (ha c h)).2.1
    · split at h
      · simp at h
      · rcases List.mem_cons.mp h with rfl | h
        · decide
        · simpa using (hd c (hb c h)).2.1
  have hsp := span_class (· != 'e') (b := expText e) hmc
    (by cases e <;> simp [expText])
  have hsp' := span_class (· != '.') (a := d :: a') (b := if b = [] then [] else '.' :: b)
    (fun c hc => by simpa using (hd c (ha c hc)).1) (by split <;> simp)
  have htl : (if b = [] then [] else '.' :: b).tail = b := by
    split
    · rename_i h; rw [h]; rfl
    · rfl
  have he : Read.int (expText e).tail = e.getD 0 := by
    cases e with
    | none => rfl
    | some e => exact C174_numbers.1 e
  have hs : sciText (d :: a') b e = m ++ expText e := rfl
  unfold Read.sciAbs
  rw [hs, if_neg, if_neg]
  · simp only [hsp, he]
    rw [hm]
    simp only [hsp', htl]
    rw [number_eq_readNat]
  · intro h
    exact hd1.2.2.2 (by simpa [hm] using congrArg List.head? h)
  · intro h
    exact hd1.2.2.1 (by simpa [hm] using congrArg List.head? h)

/-- The parts of the text. -/
theorem debugAbs_parts {n : ℕ} (hn : n < Flt.limit) (hr : ReprP n) : ∃ a b e,
    debugAbs n = sciText a b e ∧ (∀ c ∈ a, isDigit c = true) ∧ (∀ c ∈ b, isDigit c = true) ∧ a ≠ [] ∧
    Flt.roundNat (readNat (a ++ b) * 10 ^ (e.getD 0).toNat * Flt.unit)
      (10 ^ b.length * 10 ^ (-(e.getD 0)).toNat) = n := by
  have hz : isDigit '0' = true := by decide
  rcases Nat.eq_zero_or_pos n with rfl | h0
  · refine ⟨['0'], ['0'], none, rfl, by decide, by decide, by simp, ?_⟩
    rw [roundNat_congr (a' := 0) (b' := 1) (by positivity) one_pos (by simp [readNat])]
    exact roundNat_of_repr hr
  have h5 := shortest_rounds h0 hn hr
  have hmod := shortest_mod h0 hn hr
  have hu := unit_pos
  unfold debugAbs
  rw [if_neg (by omega)]
  generalize (shortest n).1 = d at *
  generalize (shortest n).2 = j at *
  have hdig : ∀ c ∈ nat d, isDigit c = true := nat_isDigit d
  have hne : nat d ≠ [] := nat_ne_nil d
  split
  · have hl : 0 < (nat d).length := List.length_pos_iff.mpr hne
    refine ⟨(nat d).take 1, (nat d).drop 1, some ((j : ℤ) - shift + (nat d).length - 1), ?_,
      fun c hc => hdig c (List.mem_of_mem_take hc), fun c hc => hdig c (List.mem_of_mem_drop hc),
      fun h => ?_, ?_⟩
    · unfold exponential sciText
      congr 2
      by_cases h1 : 1 < (nat d).length
      · rw [if_pos h1, if_neg]
        intro h
        have := congrArg List.length h
        simp at this
        omega
      · rw [if_neg h1, if_pos]
        exact List.drop_eq_nil_of_le (by omega)
    · rw [List.take_eq_nil_iff] at h
      rcases h with h | h
      · exact absurd h one_ne_zero
      · exact hne h
    · rw [List.take_append_drop, readNat_nat, ← h5]
      refine roundNat_congr (by positivity) (by positivity) ?_
      rw [List.length_drop, Option.getD_some]
      set E := (j : ℤ) - shift + (nat d).length - 1 with hE
      have hexp : E.toNat + shift = j + ((nat d).length - 1 + (-E).toNat) := by omega
      have : (10 : ℕ) ^ E.toNat * 10 ^ shift = 10 ^ j * (10 ^ ((nat d).length - 1) * 10 ^ (-E).toNat) := by
        rw [← pow_add, ← pow_add, ← pow_add, hexp]
      calc d * 10 ^ E.toNat * Flt.unit * 10 ^ shift = d * Flt.unit * (10 ^ E.toNat * 10 ^ shift) := by ring
        _ = _ := by rw [this]; ring
  · by_cases hs : shift ≤ j
    · refine ⟨nat d ++ List.replicate (j - shift) '0', ['0'], none, ?_, ?_, by decide, by simp [hne], ?_⟩
      · unfold decimalPoint
        rw [if_pos hs]
        simp [sciText, expText]
      · intro c hc
        rcases List.mem_append.mp hc with h | h
        · exact hdig c h
        · rw [List.eq_of_mem_replicate h]; exact hz
      · rw [List.append_assoc, ← List.replicate_succ', readNat_zeros_right, readNat_nat, ← h5]
        refine roundNat_congr (by positivity) (by positivity) ?_
        have : (10 : ℕ) ^ j = 10 ^ (j - shift) * 10 ^ shift := by rw [← pow_add]; congr 1; omega
        rw [this]
        simp only [Option.getD_none, Int.toNat_zero, neg_zero, pow_zero, List.length_singleton]
        ring
    · obtain ⟨a, b, h1, h2⟩ := decimal_parts (j := j) hmod
      refine ⟨a, b, none, ?_, h1.left, h1.right, h1.left_ne, ?_⟩
      · unfold decimalPoint
        rw [if_neg hs, h2]
        simp [sciText, expText]
      · simp only [Option.getD_none, Int.toNat_zero, neg_zero, pow_zero, mul_one]
        exact h1.rounds h5

/-- Characters of the text of a float. -/
theorem debugFloat_chars {x : Flt} (hx : x.Valid) : ∀ c ∈ debugFloat x, c ∉ [',', ' ', '[', ']', '\n'] := by
  have hd : ∀ c, isDigit c = true → c ∉ [',', ' ', '[', ']', '\n'] := by
    intro c hc h
    revert hc
    exact (by decide : ∀ c ∈ [',', ' ', '[', ']', '\n'], ¬ isDigit c = true) c h
  have hi : ∀ e, ∀ c ∈ int e, c ∉ [',', ' ', '[', ']', '\n'] := by
    intro e c hc
    rcases int_chars e c hc with h | h
    · exact hd c h
    · rw [h]; decide
  cases x with
  | nan => exact (by decide : ∀ c ∈ ['N', 'a', 'N'], c ∉ [',', ' ', '[', ']', '\n'])
  | inf s =>
    cases s
    · exact (by decide : ∀ c ∈ ['i', 'n', 'f'], c ∉ [',', ' ', '[', ']', '\n'])
    · exact (by decide : ∀ c ∈ ['-', 'i', 'n', 'f'], c ∉ [',', ' ', '[', ']', '\n'])
  | fin neg n =>
    obtain ⟨a, b, e, h, ha, hb, -, -⟩ := debugAbs_parts hx.2 (Flt.repr53_iff.2 hx.1)
    intro c hc
    change c ∈ (if neg then ['-'] else []) ++ debugAbs n at hc
    rw [h] at hc
    unfold sciText at hc
    rcases List.mem_append.mp hc with hc | hc
    · split at hc
      · rw [List.mem_singleton.mp hc]; decide
      · simp at hc
    rcases List.mem_append.mp hc with hc | hc
    · rcases List.mem_append.mp hc with hc | hc
      · exact hd c (ha c hc)
      · split at hc
        · simp at hc
        · rcases List.mem_cons.mp hc with rfl | hc
          · decide
          · exact hd c (hb c hc)
    · cases e with
      | none => exact absurd hc (by simp [expText])
      | some e =>
        rcases List.mem_cons.mp hc with rfl | hc
        · decide
        · exact hi e c hc

end Display

/-- **C207** What `{:?}` writes for a float reads back as the float, `inf`, `NaN` and the sign of a zero included. -/
theorem C207_float (x : Flt) (hx : x.Valid) : Read.sci (debugFloat x) = x := by
  cases x with
  | nan => rfl
  | inf s => cases s <;> rfl
  | fin neg n =>
    obtain ⟨a, b, e, h, ha, hb, hne, hv⟩ := debugAbs_parts hx.2 (Flt.repr53_iff.2 hx.1)
    have key : Read.sciAbs neg (debugAbs n) = .fin neg n := by
      rw [h, sciAbs_text neg e ha hb hne]
      unfold Flt.round
      rw [hv]
      exact if_pos hx.2
    cases neg with
    | true => exact key
    | false =>
      change (if _ then _ else _) = _
      rw [if_neg]
      · exact key
      · change (debugAbs n).head? ≠ _
        rw [h]
        obtain ⟨d, a', rfl⟩ := List.exists_cons_of_ne_nil hne
        have := ha d (by simp)
        intro h
        have : d = '-' := by simpa [sciText] using h
        subst this
        revert ha
        simp [show isDigit '-' = false by decide]

theorem C207_float_injective (x y : Flt) (hx : x.Valid) (hy : y.Valid) (h : debugFloat x = debugFloat y) :
    x = y := by
  rw [← C207_float x hx, ← C207_float y hy, h]

/-- **C207** From `10^-4` to `10^16` (excluded), and for zero, it is the text of `{}` with `.0` after it if there is
no point in it. -/
theorem C207_decimal (neg : Bool) (n : ℕ) (hx : (Flt.fin neg n).Valid)
    (h : n = 0 ∨ Flt.roundNat Flt.unit (10 ^ 4) ≤ n ∧ n < Flt.roundNat (10 ^ 16 * Flt.unit) 1) :
    debugFloat (.fin neg n) = Display.float (.fin neg n) ++
      if '.' ∈ Display.float (.fin neg n) then [] else ['.', '0'] := by
  have hpoint : ∀ {l : List Char}, (∀ c ∈ l, isDigit c = true) → '.' ∉ l := fun h hm =>
    absurd (h _ hm) (by decide)
  have hs : '.' ∉ (if neg then ['-'] else [] : List Char) := by cases neg <;> decide
  have key : debugAbs n = floatAbs n ++ if '.' ∈ floatAbs n then [] else ['.', '0'] := by
    rcases h with rfl | ⟨h1, h2⟩
    · rfl
    rcases Nat.eq_zero_or_pos n with rfl | h0
    · rfl
    have hmod := shortest_mod h0 hx.2 (Flt.repr53_iff.2 hx.1)
    unfold debugAbs floatAbs
    have hu : ¬ useExponential n = true := by
      rw [useExponential, Bool.or_eq_true, decide_eq_true_eq, decide_eq_true_eq]
      omega
    rw [if_neg (by omega), if_neg hu, if_neg (by omega)]
    generalize (shortest n).1 = d at *
    generalize (shortest n).2 = j at *
    have hdig : ∀ c ∈ nat d, isDigit c = true := nat_isDigit d
    unfold decimalPoint decimal
    by_cases hj : shift ≤ j
    · rw [if_pos hj, if_pos hj, if_neg (hpoint _)]
      intro c hc
      rcases List.mem_append.mp hc with h | h
      · exact hdig c h
      · rw [List.eq_of_mem_replicate h]; decide
    · rw [if_neg hj, if_neg hj]
      split
      · rw [if_pos (by simp), List.append_nil]
      · rw [if_pos (by simp), List.append_nil]
  change (if neg then ['-'] else []) ++ debugAbs n = (if neg then ['-'] else []) ++ floatAbs n ++
    if '.' ∈ (if neg then ['-'] else []) ++ floatAbs n then [] else ['.', '0']
  rw [key, List.append_assoc]
  congr 2
  by_cases hm : '.' ∈ floatAbs n
  · rw [if_pos hm, if_pos (List.mem_append_right _ hm)]
  · rw [if_neg hm, if_neg (fun h => (List.mem_append.mp h).elim hs hm)]

/-- **C207** Otherwise it is a digit from 1 to 9, possibly a point and digits the last of which is not zero, `e` and
an exponent. -/
theorem C207_exponent (neg : Bool) (n : ℕ) (hx : (Flt.fin neg n).Valid) (h0 : n ≠ 0)
    (h : n < Flt.roundNat Flt.unit (10 ^ 4) ∨ Flt.roundNat (10 ^ 16 * Flt.unit) 1 ≤ n) :
    ∃ (a : Char) (b : List Char) (e : ℤ), debugFloat (.fin neg n) =
        (if neg then ['-'] else []) ++ a :: (if b = [] then [] else '.' :: b) ++ 'e' :: Display.int e ∧
      a ∈ ['1', '2', '3', '4', '5', '6', '7', '8', '9'] ∧
      (∀ c ∈ b, c ∈ ['0', '1', '2', '3', '4', '5', '6', '7', '8', '9']) ∧ b.getLast? ≠ some '0' := by
  have hmod := shortest_mod (Nat.pos_of_ne_zero h0) hx.2 (Flt.repr53_iff.2 hx.1)
  have hd0 : (shortest n).1 ≠ 0 := fun h => hmod (by rw [h])
  have hdig : ∀ c ∈ nat (shortest n).1, isDigit c = true := nat_isDigit _
  have hhead := nat_head hd0
  have hlast := nat_last (shortest n).1
  have e : debugAbs n = exponential (shortest n).1 (shortest n).2 := by
    unfold debugAbs
    rw [if_neg h0, if_pos]
    rw [useExponential, Bool.or_eq_true, decide_eq_true_eq, decide_eq_true_eq]
    exact h
  change ∃ a b e, (if neg then ['-'] else []) ++ debugAbs n = _ ∧ _
  rw [e]
  unfold exponential
  generalize (shortest n).2 = j at *
  obtain ⟨a, b, hab⟩ := List.exists_cons_of_ne_nil (nat_ne_nil (shortest n).1)
  rw [hab] at hdig hhead hlast ⊢
  refine ⟨a, b, (j : ℤ) - shift + (a :: b).length - 1, ?_, ?_, fun c hc => ?_, ?_⟩
  · cases b <;> simp
  · have h1 : isDigit a = true := hdig a (by simp)
    have h2 : a ≠ '0' := by simpa using hhead
    simp [isDigit] at h1
    simp
    tauto
  · simpa [isDigit] using hdig c (by simp [hc])
  · intro hb
    have : b ≠ [] := by rintro rfl; simp at hb
    rw [List.getLast?_cons_of_ne_nil this, hb] at hlast
    have h1 := Option.some.inj hlast
    have := Nat.mod_lt (shortest n).1 (y := 10) (by omega)
    generalize (shortest n).1 % 10 = k at *
    interval_cases k <;> simp_all [digit]

/-! ### Matrices -/

theorem debugFloat_ne_nil {x : Flt} (hx : x.Valid) : debugFloat x ≠ [] := by
  cases x with
  | nan => exact List.cons_ne_nil _ _
  | inf s => cases s <;> exact List.cons_ne_nil _ _
  | fin neg n =>
    obtain ⟨a, b, e, h, -, -, hne, -⟩ := debugAbs_parts hx.2 (Flt.repr53_iff.2 hx.1)
    change (if neg then ['-'] else []) ++ debugAbs n ≠ []
    rw [h]
    simp [sciText, hne]

theorem read_row (l : List Flt) (hl : ∀ x ∈ l, x.Valid) : Read.row (debugList debugFloat l) = l := by
  cases l with
  | nil => rfl
  | cons x xs =>
    have hfil : ∀ y : Flt, y.Valid →
        (debugFloat y).filter (fun c => c != ' ' && c != '[' && c != ']') = debugFloat y := by
      intro y hy
      refine List.filter_eq_self.mpr fun c hc => ?_
      have := debugFloat_chars hy c hc
      simp at this ⊢
      tauto
    have hsplit : ∀ (ys : List Flt) (y : Flt), y.Valid → (∀ z ∈ ys, z.Valid) →
        (debugFloat y ++ ys.flatMap fun z => ',' :: debugFloat z).splitOn ',' = (y :: ys).map debugFloat := by
      intro ys
      induction ys with
      | nil =>
        intro y hy _
        rw [List.flatMap_nil, List.append_nil, List.splitOn_eq_singleton]
        · rfl
        · exact fun h => debugFloat_chars hy _ h (by simp)
      | cons z zs ih =>
        intro y hy hz
        rw [List.flatMap_cons, List.cons_append, List.splitOn_append_cons_self_of_not_mem
          (fun h => debugFloat_chars hy _ h (by simp)), ih z (hz z (by simp)) (fun w hw => hz w (by simp [hw]))]
        rfl
    have hx := hl x (by simp)
    have hxs : ∀ z ∈ xs, z.Valid := fun z hz => hl z (by simp [hz])
    have hflat : (xs.flatMap fun y => ',' :: ' ' :: debugFloat y).filter
        (fun c => c != ' ' && c != '[' && c != ']') = xs.flatMap fun z => ',' :: debugFloat z := by
      clear hl
      induction xs with
      | nil => rfl
      | cons z zs ih =>
        rw [List.flatMap_cons, List.flatMap_cons, List.filter_append, ih fun w hw => hxs w (by simp [hw])]
        congr 1
        simpa using hfil z (hxs z (by simp))
    have hall : (debugList debugFloat (x :: xs)).filter (fun c => c != ' ' && c != '[' && c != ']') =
        debugFloat x ++ xs.flatMap fun z => ',' :: debugFloat z := by
      change List.filter _ ('[' :: debugFloat x ++ (xs.flatMap fun y => ',' :: ' ' :: debugFloat y) ++ [']']) = _
      rw [List.append_assoc, List.cons_append, List.filter_cons_of_neg (by decide), List.filter_append, hfil x hx,
        List.filter_append, hflat]
      simp
    unfold Read.row
    rw [if_neg, hall, hsplit xs x hx hxs, List.map_map]
    · refine (List.map_congr_left fun y hy => ?_).trans (List.map_id _)
      exact C207_float y (hl y hy)
    · intro h
      obtain ⟨c, cs, hc⟩ := List.exists_cons_of_ne_nil (debugFloat_ne_nil hx)
      have h1 := debugFloat_chars hx c (by rw [hc]; simp)
      change '[' :: debugFloat x ++ (xs.flatMap fun y => ',' :: ' ' :: debugFloat y) ++ [']'] = _ at h
      rw [hc] at h
      have : c = ']' := by
        have := congrArg (fun l => l[1]?) h
        simpa using this
      exact h1 (by rw [this]; simp)

theorem debugList_chars (l : List Flt) (hl : ∀ x ∈ l, x.Valid) : '\n' ∉ debugList debugFloat l := by
  have hc : ∀ x ∈ l, '\n' ∉ debugFloat x := fun x hx h => debugFloat_chars (hl x hx) _ h (by simp)
  cases l with
  | nil => exact (by decide : '\n' ∉ ['[', ']'])
  | cons x xs =>
    change '\n' ∉ '[' :: debugFloat x ++ (xs.flatMap fun y => ',' :: ' ' :: debugFloat y) ++ [']']
    simp only [List.mem_append, List.mem_cons, List.mem_flatMap, not_or]
    refine ⟨⟨⟨by decide, hc x (by simp)⟩, ?_⟩, by decide, List.not_mem_nil⟩
    rintro ⟨y, hy, h⟩
    rcases h with h | h | h
    · exact absurd h (by decide)
    · exact absurd h (by decide)
    · exact hc y (by simp [hy]) h

theorem read_rows (ls : List (List Flt)) (hls : ∀ l ∈ ls, ∀ x ∈ l, x.Valid) (hne : ls ≠ []) :
    Read.rows ('\n' :: rowsText debugFloat ls) = ls := by
  have key : ∀ (ls : List (List Flt)), (∀ l ∈ ls, ∀ x ∈ l, x.Valid) → ls ≠ [] →
      (rowsText debugFloat ls).splitOn '\n' = ls.map (debugList debugFloat) := by
    intro ls
    induction ls with
    | nil => exact fun _ h => absurd rfl h
    | cons l ls ih =>
      intro h _
      cases ls with
      | nil => exact List.splitOn_eq_singleton (debugList_chars l (h l (by simp)))
      | cons m ls =>
        change (debugList debugFloat l ++ '\n' :: rowsText debugFloat (m :: ls)).splitOn '\n' = _
        rw [List.splitOn_append_cons_self_of_not_mem (debugList_chars l (h l (by simp))),
          ih (fun k hk => h k (by simp only [List.mem_cons] at hk ⊢; exact .inr hk)) (by simp)]
        rfl
  unfold Read.rows
  rw [List.tail_cons, key ls hls hne, List.map_map]
  refine (List.map_congr_left fun l hl => ?_).trans (List.map_id _)
  exact read_row l (hls l hl)

/-- **C207** Displaying a matrix of floats with at least one row and the right number of entries never panics, and
the text reads back as its rows. -/
theorem C207_matrix (b : Build) (powi : Flt → ℤ → Flt) (M : Mat Flt) (hv : ∀ x ∈ M.entries, x.Valid)
    (hM : M.entries.length = M.rows * M.cols) (hMl : M.rows * M.cols < 18446744073709551616)
    (hMc : M.cols < 18446744073709551616) (h0 : 0 < M.rows) :
    letI := Flt.field b powi
    ∃ s, Display.mat debugFloat M = .ok s ∧
      Read.rows s = (List.range M.rows).map fun r => (M.entries.drop (r * M.cols)).take M.cols := by
  let _ := Flt.field b powi
  refine ⟨_, C85_text debugFloat M hM.ge hMl hMc, read_rows _ ?_ ?_⟩
  · intro l hl x hx
    obtain ⟨r, -, rfl⟩ := List.mem_map.mp hl
    exact hv x (List.mem_of_mem_drop (List.mem_of_mem_take hx))
  · intro h
    have := congrArg List.length h
    simp at this
    omega

/-- **C207** Distinct matrices of floats with at least one row never display as the same text, whatever the zeros,
infinities and NaN in them. -/
theorem C207_injective (b b' : Build) (powi powi' : Flt → ℤ → Flt) (M N : Mat Flt)
    (hvM : ∀ x ∈ M.entries, x.Valid) (hvN : ∀ x ∈ N.entries, x.Valid)
    (hM : M.entries.length = M.rows * M.cols) (hMl : M.rows * M.cols < 18446744073709551616)
    (hMc : M.cols < 18446744073709551616) (hM0 : 0 < M.rows)
    (hN : N.entries.length = N.rows * N.cols) (hNl : N.rows * N.cols < 18446744073709551616)
    (hNc : N.cols < 18446744073709551616) (hN0 : 0 < N.rows)
    (h : @Display.mat Flt (Flt.field b powi) debugFloat M = @Display.mat Flt (Flt.field b' powi') debugFloat N) :
    M = N := by
  obtain ⟨s, hs, hsr⟩ := C207_matrix b powi M hvM hM hMl hMc hM0
  obtain ⟨t, ht, htr⟩ := C207_matrix b' powi' N hvN hN hNl hNc hN0
  have : s = t := by
    rw [hs, ht] at h
    exact Res.ok.inj h
  subst this
  have hrows := hsr.symm.trans htr
  have hr : M.rows = N.rows := by simpa using congrArg List.length hrows
  have he : M.entries = N.entries := by
    rw [M.entries_eq_rows hM, N.entries_eq_rows hN]
    exact congrArg List.flatten hrows
  have hcol : M.cols = N.cols := by
    have := congrArg List.length he
    rw [hM, hN, hr] at this
    exact Nat.eq_of_mul_eq_mul_left (by omega) this
  cases M; cases N; simp_all

/-- **C207** The text of the matrix of the test (mat.rs:426-440). -/
theorem C207_run (b : Build) : letI powi : Flt → ℤ → Flt := fun _ _ => .nan
    letI := Flt.field b powi
    Display.mat debugFloat ⟨[0, 1, 2, 3, 4, 5, 6, 7, 8, 9, 10, 11].map fun k => .fin false (k * Flt.unit), 3, 4⟩ =
      .ok "\n[0.0, 1.0, 2.0, 3.0]\n[4.0, 5.0, 6.0, 7.0]\n[8.0, 9.0, 10.0, 11.0]".toList := by
  cases b <;> fmt_decide

/-- Texts with and without exponents. -/
example : debugFloat (.fin true 0) = "-0.0".toList ∧
    debugFloat (Flt.round false Flt.unit (10 ^ 4)) = "0.0001".toList ∧
    debugFloat (Flt.round true (15 * Flt.unit) (10 ^ 8)) = "-1.5e-7".toList ∧
    debugFloat (Flt.round false (9990000000000000 * Flt.unit) 1) = "9990000000000000.0".toList ∧
    debugFloat (Flt.round false (10 ^ 16 * Flt.unit) 1) = "1e16".toList ∧
    debugFloat (Flt.round false (10 ^ 23 * Flt.unit) 1) = "1e23".toList := by
  fmt_decide

end Verif
