import Verif.Props.Display
import Verif.LinAlg.Display

/-!
# Property C174: displayed numbers, multidegrees and polynomials read back

A reader of the notation `-x² - 3/2y + 1`, written without reference to `display.rs`, and the proof
that reading the displayed text gives the number, the multidegree, the polynomial again.
-/

namespace Verif
open Res Display

namespace Read

/-- The value of a digit. -/
def digitVal (c : Char) : ℕ := ['0', '1', '2', '3', '4', '5', '6', '7', '8', '9'].idxOf c

/-- The value of a superscript digit. -/
def supVal (c : Char) : ℕ := ['⁰', '¹', '²', '³', '⁴', '⁵', '⁶', '⁷', '⁸', '⁹'].idxOf c

/-- The number with the given decimal digits, the most significant first. -/
def number (val : Char → ℕ) (s : List Char) : ℕ := s.foldl (fun n c => 10 * n + val c) 0

/-- An integer: decimal digits, possibly after a minus sign. -/
def int (s : List Char) : ℤ :=
  if s.head? = some '-' then -(number digitVal s.tail : ℤ) else number digitVal s

/-- A fraction `n/d`, or an integer. -/
def rat (s : List Char) : ℚ :=
  let a := s.takeWhile (· != '/')
  match s.dropWhile (· != '/') with
  | [] => int a
  | _ :: d => (int a : ℚ) / int d

/-- The exponent of the variable `c` at the beginning of the text, and the rest of the text: `0` if the
text does not begin with `c`, `1` if no superscripts follow. -/
def var (c : Char) (s : List Char) : ℕ × List Char :=
  if s.head? = some c then
    let e := s.tail.takeWhile isSup
    (if e = [] then 1 else number supVal e, s.tail.dropWhile isSup)
  else (0, s)

/-- The exponents of the given variables. -/
def vars : List Char → List Char → List ℕ × List Char
  | [], s => ([], s)
  | c :: cs, s => ((var c s).1 :: (vars cs (var c s).2).1, (vars cs (var c s).2).2)

/-- Numbers separated by commas and spaces. -/
def nats : ℕ → List Char → List ℕ
  | a, [] => [a]
  | a, c :: s =>
    if c = ',' then a :: nats 0 s
    else if c = ' ' then nats a s
    else nats (10 * a + digitVal c) s

/-- A power product such as `x²z¹²` or `X[0, 0, 1, 0, 0, 3]` at the beginning of the text. -/
def mdeg (s : List Char) : List ℕ × List Char :=
  if s.head? = some 'X' then
    (nats 0 (s.tail.tail.takeWhile (· != ']')), (s.tail.tail.dropWhile (· != ']')).tail)
  else vars ['x', 'y', 'z', 'u', 'v', 'w'] s

/-- A coefficient and the exponents of the variables. -/
abbrev Monom : Type := ℚ × (ℕ → ℕ)

/-- A term at the beginning of the text: a coefficient (`1` if there is none, `-1` if there is only a
minus sign) followed by a power product. -/
def term (s : List Char) : Monom × List Char :=
  let num := s.takeWhile isNum
  let c := if num = [] then 1 else if num = ['-'] then -1 else rat num
  let e := mdeg (s.dropWhile isNum)
  ((c, fun i => e.1.getD i 0), e.2)

/-- The first term with the opposite sign. -/
def negFirst : List Monom → List Monom
  | [] => []
  | t :: ts => (-t.1, t.2) :: ts

/-- At most so many terms, each after the first preceded by ` + ` or ` - `. -/
def terms : ℕ → List Char → List Monom
  | 0, _ => []
  | n + 1, s => (term s).1 ::
    match (term s).2 with
    | ' ' :: '+' :: ' ' :: r => terms n r
    | ' ' :: '-' :: ' ' :: r => negFirst (terms n r)
    | _ => []

/-- The terms of a polynomial. -/
def poly (s : List Char) : List Monom := terms (s.length + 1) s

end Read

/-! ### Numbers -/

theorem span_class (P : Char → Bool) {a b : List Char} (ha : ∀ c ∈ a, P c = true)
    (hb : ∀ c ∈ b.head?, P c = false) :
    (a ++ b).takeWhile P = a ∧ (a ++ b).dropWhile P = b := by
  rw [List.takeWhile_append_of_pos ha, List.dropWhile_append_of_pos ha]
  cases b with
  | nil => simp
  | cons x xs =>
    have := hb x (by simp)
    simp [this]

theorem number_digits {val : Char → ℕ} {g : ℕ → Char} (hg : ∀ d < 10, val (g d) = d) {l : List ℕ}
    (hl : ∀ d ∈ l, d < 10) : Read.number val (l.reverse.map g) = Nat.ofDigits 10 l := by
  unfold Read.number
  induction l with
  | nil => rfl
  | cons d l ih =>
    rw [List.reverse_cons, List.map_append, List.foldl_append, ih fun x hx => hl x (by simp [hx]),
      Nat.ofDigits_cons]
    simp [hg d (hl d (by simp))]
    omega

theorem digitVal_digit : ∀ d < 10, Read.digitVal (digit d) = d := by decide

theorem supVal_supDigit : ∀ d < 10, Read.supVal (supDigit d) = d := by decide

theorem number_nat (n : ℕ) : Read.number Read.digitVal (nat n) = n := by
  by_cases hn : n = 0
  · subst hn; rw [nat_small (by omega)]; decide
  · rw [nat_eq n hn, number_digits digitVal_digit fun d hd => Nat.digits_lt_base (by omega) hd,
      Nat.ofDigits_digits]

theorem number_superscript (n : ℕ) : Read.number Read.supVal (superscript n) = n := by
  by_cases hn : n = 0
  · subst hn; rw [superscript_small (by omega)]; decide
  · rw [superscript_eq n hn,
      number_digits supVal_supDigit fun d hd => Nat.digits_lt_base (by omega) hd, Nat.ofDigits_digits]

/-- C174. The text of an `Integer` reads back as the integer; that of a `Rational`, well-formed or not,
as the quotient of its numerator and denominator; that of an exponent as the exponent. -/
theorem C174_numbers :
    (∀ x : ℤ, Read.int (Display.int x) = x) ∧
    (∀ x : Rational, Read.rat (Display.rational x) = (x.numer : ℚ) / x.denom) ∧
    ∀ n, Read.number Read.supVal (superscript n) = n := by
  have hi : ∀ x : ℤ, Read.int (Display.int x) = x := by
    intro x
    unfold Display.int
    split
    · rename_i h
      simp only [Read.int, List.head?_cons, if_true, List.tail_cons, number_nat]
      omega
    · rename_i h
      have : (nat x.natAbs).head? ≠ some '-' := by
        intro he
        have := nat_isDigit x.natAbs '-' (List.mem_of_mem_head? he)
        revert this; decide
      rw [Read.int, if_neg this, number_nat]
      omega
  have hs : ∀ x : ℤ, ∀ c ∈ Display.int x, (c != '/') = true := by
    intro x c hc
    rcases int_chars x c hc with h | rfl
    · rw [bne_iff_ne]; rintro rfl; revert h; decide
    · decide
  refine ⟨hi, fun x => ?_, number_superscript⟩
  have hint : ∀ z : ℤ, Read.rat (Display.int z) = z := by
    intro z
    have := span_class (· != '/') (a := Display.int z) (b := []) (hs z) (by simp)
    rw [List.append_nil] at this
    simp only [Read.rat, this, hi]
  unfold Display.rational
  split
  · rename_i h
    rw [h]
    have := hint 0
    have h0 : Display.int 0 = ['0'] := by unfold Display.int; rw [nat]; rfl
    rw [h0] at this
    rw [this]; simp
  · split
    · rename_i h
      rw [hint, h]; simp
    · have := span_class (· != '/') (a := Display.int x.numer) (b := '/' :: Display.int x.denom)
        (hs _) (by simp)
      simp only [Read.rat, this, hi]

/-- C174. `{:?}` of `Integer` and `Rational`, as in displayed matrices. -/
theorem C174_debug (x : ℤ) (q : Rational) :
    debugInteger x = "Integer(".toList ++ Display.int x ++ ")".toList ∧
    debugRational q = "Rational { numer: Integer(".toList ++ Display.int q.numer ++
      "), denom: Integer(".toList ++ Display.int q.denom ++ ") }".toList := by
  simp [debugInteger, debugRational]

/-! ### Multidegrees -/

theorem read_var {c : Char} {d : ℕ} {r : List Char}
    (hr : ∀ x ∈ r.head?, isSup x = false ∧ x ≠ c) : Read.var c (wv (c, d) ++ r) = (d, r) := by
  by_cases hd : d = 0
  · subst hd
    rw [wv_zero, List.nil_append, Read.var, if_neg]
    intro h
    exact (hr c h).2 rfl
  · obtain ⟨s, h1, h2, h3⟩ := wv_pos (c := c) hd
    rw [h1, List.cons_append]
    have := span_class isSup h2 fun x hx => (hr x hx).1
    simp only [Read.var, List.head?_cons, if_true, List.tail_cons, this]
    by_cases h : d = 1
    · simp [h3, h]
    · rw [if_neg h] at h3
      rw [h3, if_neg (superscript_ne_nil d), number_superscript]

theorem read_vars {l : List (Char × ℕ)} {r : List Char} (hnd : (l.map Prod.fst).Nodup)
    (hc : ∀ c ∈ l.map Prod.fst, isSup c = false ∧ c ≠ ' ') (hr : ∀ c ∈ r.head?, c = ' ') :
    Read.vars (l.map Prod.fst) (l.flatMap wv ++ r) = (l.map Prod.snd, r) := by
  induction l with
  | nil => rfl
  | cons p l ih =>
    obtain ⟨c, d⟩ := p
    rw [List.map_cons, List.nodup_cons] at hnd
    have hv : Read.var c (wv (c, d) ++ (l.flatMap wv ++ r)) = (d, l.flatMap wv ++ r) := by
      refine read_var fun x hx => ?_
      rcases head_flatMap_wv l r x hx with h | h
      · exact ⟨(hc x (by simp only [List.map_cons, List.mem_cons]; exact Or.inr h)).1,
          fun e => hnd.1 (e ▸ h)⟩
      · have := hr x h
        subst this
        exact ⟨by decide, fun e => (hc c (by simp)).2 e.symm⟩
    have h2 := ih hnd.2 fun x hx => hc x (by simp only [List.map_cons, List.mem_cons]; exact Or.inr hx)
    rw [List.flatMap_cons, List.append_assoc, List.map_cons, Read.vars, hv, h2]
    rfl

theorem read_nats {s : List Char} (hs : ∀ c ∈ s, isDigit c = true) (a : ℕ) (r : List Char) :
    Read.nats a (s ++ r) = Read.nats (s.foldl (fun n c => 10 * n + Read.digitVal c) a) r := by
  induction s generalizing a with
  | nil => rfl
  | cons c s ih =>
    have h := hs c (by simp)
    have h1 : c ≠ ',' := by rintro rfl; revert h; decide
    have h2 : c ≠ ' ' := by rintro rfl; revert h; decide
    rw [List.cons_append, Read.nats, if_neg h1, if_neg h2, ih fun x hx => hs x (by simp [hx])]
    rfl

theorem read_list (d : ℕ) (ds : List ℕ) :
    Read.nats 0 (nat d ++ ds.flatMap fun d => ',' :: ' ' :: nat d) = d :: ds := by
  induction ds generalizing d with
  | nil =>
    rw [read_nats (nat_isDigit d)]
    have := number_nat d
    unfold Read.number at this
    rw [this]; rfl
  | cons e es ih =>
    rw [read_nats (nat_isDigit d)]
    have := number_nat d
    unfold Read.number at this
    rw [this, List.flatMap_cons, List.cons_append, Read.nats, if_pos rfl, List.cons_append, Read.nats,
      if_neg (by decide), if_pos rfl, ih]

theorem read_mdeg (m : MDeg) {r : List Char} (hr : ∀ c ∈ r.head?, c = ' ') :
    (∀ i, (Read.mdeg (Display.mdeg m ++ r)).1.getD i 0 = m.getD i 0) ∧
    (Read.mdeg (Display.mdeg m ++ r)).2 = r := by
  by_cases h : m.len ≤ 5
  · have hX : (Display.mdeg m ++ r).head? ≠ some 'X' := by
      intro he
      rw [mdeg_short h] at he
      rcases head_flatMap_wv _ _ 'X' he with h | h
      · revert h; simp [pairs]
      · exact absurd (hr _ h) (by decide)
    have hv : Read.mdeg (Display.mdeg m ++ r) = ((pairs m).map Prod.snd, r) := by
      rw [Read.mdeg, if_neg hX, mdeg_short h]
      exact read_vars (l := pairs m) (by simp [pairs]) (by simp [pairs, isSup]) hr
    rw [hv]
    refine ⟨fun i => ?_, rfl⟩
    by_cases hi : i < 6
    · interval_cases i <;> rfl
    · have h5 : m.length ≤ 5 := h
      rw [List.getD_eq_default _ _ (by simp [pairs]; omega), List.getD_eq_default _ _ (by omega)]
  · have hne : m ≠ [] := by rintro rfl; exact h (by decide)
    obtain ⟨d, ds, rfl⟩ := List.exists_cons_of_ne_nil hne
    have htext : Display.mdeg (d :: ds) ++ r = 'X' :: '[' ::
        ((nat d ++ ds.flatMap fun d => ',' :: ' ' :: nat d) ++ ']' :: r) := by
      rw [Display.mdeg, if_neg h, debugVec]
      simp
    have hch : ∀ c ∈ nat d ++ ds.flatMap fun d => ',' :: ' ' :: nat d, (c != ']') = true := by
      have hd : ∀ n, ∀ c ∈ nat n, (c != ']') = true := by
        intro n c hc
        have := nat_isDigit n c hc
        rw [bne_iff_ne]; rintro rfl; revert this; decide
      intro c hc
      rw [List.mem_append, List.mem_flatMap] at hc
      rcases hc with hc | ⟨e, _, hc⟩
      · exact hd d c hc
      · rw [List.mem_cons, List.mem_cons] at hc
        rcases hc with rfl | rfl | hc
        · decide
        · decide
        · exact hd e c hc
    have hsp := span_class (· != ']') hch (b := ']' :: r) (by simp)
    have hX : Read.mdeg (Display.mdeg (d :: ds) ++ r) = (d :: ds, r) := by
      rw [htext, Read.mdeg, List.head?_cons, if_pos rfl, List.tail_cons, List.tail_cons, hsp.1, hsp.2,
        read_list, List.tail_cons]
    rw [hX]
    exact ⟨fun _ => rfl, rfl⟩

/-- C174. The text of a multidegree, canonical or not, reads back as its exponents. -/
theorem C174_mdeg (m : MDeg) (i : ℕ) : (Read.mdeg (Display.mdeg m)).1.getD i 0 = m.getD i 0 := by
  have := (read_mdeg m (r := []) (by simp)).1 i
  rwa [List.append_nil] at this

/-! ### Polynomials -/

/-- The coefficient of a term as a rational number, and its exponents. -/
def monomOf (t : Term Rational) : Read.Monom := ((t.coef.numer : ℚ) / t.coef.denom, fun i => t.mdeg.getD i 0)

theorem read_term (t : Term Rational) {r : List Char} (hr : ∀ c ∈ r.head?, c = ' ') :
    Read.term (coefPart t ++ Display.mdeg t.mdeg ++ r) = (monomOf t, r) := by
  have hch : ∀ c ∈ coefPart t, isNum c = true := by
    intro c hc
    unfold coefPart at hc
    split at hc
    · exact rational_chars _ c hc
    · split at hc
      · simp at hc
      · split at hc
        · simp at hc; subst hc; decide
        · exact rational_chars _ c hc
  have hsp := span_class isNum hch (b := Display.mdeg t.mdeg ++ r) (by
    intro c hc
    rcases head_mdeg _ _ hr c hc with h | rfl
    · simp only [List.mem_cons, List.not_mem_nil, or_false] at h
      rcases h with rfl | rfl | rfl | rfl | rfl | rfl | rfl <;> decide
    · decide)
  have hm := read_mdeg t.mdeg hr
  have hc : (if coefPart t = [] then (1 : ℚ) else if coefPart t = ['-'] then -1
      else Read.rat (coefPart t)) = (t.coef.numer : ℚ) / t.coef.denom := by
    have hrat : (if Display.rational t.coef = [] then (1 : ℚ) else if Display.rational t.coef = ['-']
        then -1 else Read.rat (Display.rational t.coef)) = (t.coef.numer : ℚ) / t.coef.denom := by
      rw [if_neg (rational_ne _).1, if_neg (rational_ne _).2, C174_numbers.2.1]
    unfold coefPart
    split
    · exact hrat
    · split
      · rename_i h; rw [h]; norm_num
      · split
        · rename_i h; rw [h]; norm_num
        · exact hrat
  unfold Read.term monomOf
  rw [List.append_assoc]
  simp only [hsp, hc, hm.2]
  congr 2
  funext i
  exact hm.1 i

theorem read_next {b : Build} {t : Term Rational} {s : List Char}
    (hc : I64.InRange t.coef.numer ∧ t.coef.numer ≠ I64.MIN) (h : nextTerm b t = .ok s) :
    (∃ t' : Term Rational, s = ' ' :: '-' :: ' ' :: (coefPart t' ++ Display.mdeg t'.mdeg) ∧
      monomOf t = (-(monomOf t').1, (monomOf t').2)) ∨
    s = ' ' :: '+' :: ' ' :: (coefPart t ++ Display.mdeg t.mdeg) := by
  unfold nextTerm at h
  simp only [term_eq] at h
  split at h
  · left
    have hn : Rational.neg b t.coef = .ok ⟨-t.coef.numer, t.coef.denom⟩ := by
      unfold Rational.neg Integer.neg
      rw [I64.norm_eq (by obtain ⟨h1, h2⟩ := hc; unfold I64.InRange at *; unfold I64.MIN at h2; omega)]
      rfl
    change (Rational.neg b t.coef >>= _) = Res.ok s at h
    rw [hn, bind_ok, bind_ok, pure_eq] at h
    cases h
    refine ⟨⟨⟨-t.coef.numer, t.coef.denom⟩, t.mdeg⟩, rfl, ?_⟩
    simp [monomOf, neg_div]
  · right
    rw [bind_ok, pure_eq] at h
    cases h
    rfl

theorem read_terms {b : Build} {ts : List (Term Rational)} {rs : List (List Char)}
    (h : List.Forall₂ (fun t r => nextTerm b t = .ok r) ts rs)
    (hc : ∀ t ∈ ts, I64.InRange t.coef.numer ∧ t.coef.numer ≠ I64.MIN) (t : Term Rational) {n : ℕ}
    (hn : ts.length < n) :
    Read.terms n (coefPart t ++ Display.mdeg t.mdeg ++ rs.flatten) = monomOf t :: ts.map monomOf := by
  induction h generalizing t n with
  | nil =>
    obtain ⟨n, rfl⟩ := Nat.exists_eq_succ_of_ne_zero (by omega : n ≠ 0)
    rw [Read.terms, read_term t (by simp)]
    rfl
  | cons h1 h2 ih =>
    rename_i u r us rs
    obtain ⟨n, rfl⟩ := Nat.exists_eq_succ_of_ne_zero (by omega : n ≠ 0)
    rw [List.length_cons] at hn
    rw [Read.terms, read_term t (rest_head (List.Forall₂.cons h1 h2)), List.flatten_cons]
    dsimp only
    rcases read_next (hc u (by simp)) h1 with ⟨t', rfl, h3⟩ | rfl
    · have := ih (fun x hx => hc x (by simp [hx])) t' (n := n) (by omega)
      simp only [List.cons_append, List.append_assoc] at this ⊢
      rw [this, List.map_cons, h3]
      rfl
    · have := ih (fun x hx => hc x (by simp [hx])) u (n := n) (by omega)
      simp only [List.cons_append, List.append_assoc] at this ⊢
      rw [this, List.map_cons]

/-- C174. The text of a nonempty `Polynomial<Rational>` reads back as the list of its terms, and that of
the empty one as `0`, provided no numerator after the first is `i64::MIN`. -/
theorem C174_poly (b : Build) (p : Poly Rational) (s : List Char)
    (hc : ∀ t ∈ p.tail, I64.InRange t.coef.numer ∧ t.coef.numer ≠ I64.MIN)
    (h : Display.poly b p = .ok s) :
    Read.poly s = if p = [] then [(0, fun _ => 0)] else
      p.map fun t => ((t.coef.numer : ℚ) / t.coef.denom, fun i => t.mdeg.getD i 0) := by
  cases p with
  | nil =>
    cases h
    rw [if_pos rfl]
    have := read_terms (b := b) (ts := []) (rs := []) .nil (by simp) ⟨⟨0, 1⟩, []⟩ (n := 2) (by simp)
    have h0 : coefPart ⟨⟨0, 1⟩, []⟩ ++ Display.mdeg [] ++ [] = ['0'] := by decide
    simp only [List.flatten_nil] at this
    rw [h0] at this
    rw [Read.poly]
    refine this.trans ?_
    simp [monomOf]
  | cons t ts =>
    rw [if_neg (by simp)]
    simp only [Display.poly, term_eq, bind_ok] at h
    obtain ⟨rs, hrs, rfl⟩ := rest_eq h
    have hlen : ts.length ≤ rs.flatten.length := by
      clear h hc
      induction hrs with
      | nil => simp
      | cons h1 _ ih =>
        obtain ⟨s', rfl⟩ := nextTerm_head h1
        rw [List.flatten_cons, List.length_append, List.length_cons, List.length_cons]; omega
    exact read_terms hrs hc t (by simp only [List.length_append]; omega)

/-- The polynomial `-x² - 3/2 y + X[0, 0, 0, 0, 0, 12]`, where the last variable is the sixth. -/
example : ∃ s, Display.poly .debug [⟨⟨-1, 1⟩, [2]⟩, ⟨⟨-3, 2⟩, [0, 1]⟩, ⟨⟨1, 1⟩, [0, 0, 0, 0, 0, 12]⟩] = .ok s ∧
    (Read.poly s).map Prod.fst = [-1, -3 / 2, 1] := by
  obtain ⟨s, hs⟩ := C75_display_total .debug
    [⟨⟨-1, 1⟩, [2]⟩, ⟨⟨-3, 2⟩, [0, 1]⟩, ⟨⟨1, 1⟩, [0, 0, 0, 0, 0, 12]⟩] (by decide)
  refine ⟨s, hs, ?_⟩
  rw [C174_poly .debug _ s (by decide) hs, if_neg (by simp)]
  norm_num

/-- C174. The condition on the numerators is needed without overflow checks: `x - 2^63` displays as
`x - -9223372036854775808`, the text of `x + 2^63`. -/
theorem C174_min :
    ∃ s, Display.poly .release [⟨⟨1, 1⟩, [1]⟩, ⟨⟨I64.MIN, 1⟩, []⟩] = .ok s ∧
      s = "x - -9223372036854775808".toList ∧
      (Read.poly s).map Prod.fst = [1, 9223372036854775808] := by
  have hn : (Rational.field .release).neg ⟨I64.MIN, 1⟩ = .ok ⟨I64.MIN, 1⟩ := by decide
  have ht : nextTerm .release ⟨⟨I64.MIN, 1⟩, []⟩ =
      .ok (' ' :: '-' :: ' ' :: (coefPart ⟨⟨I64.MIN, 1⟩, []⟩ ++ Display.mdeg [])) := by
    unfold nextTerm
    simp only [term_eq]
    rw [if_pos (by decide), hn]
    rfl
  have hp : Display.poly .release [⟨⟨1, 1⟩, [1]⟩, ⟨⟨I64.MIN, 1⟩, []⟩] = .ok
      (coefPart ⟨⟨1, 1⟩, [1]⟩ ++ Display.mdeg [1] ++
        (' ' :: '-' :: ' ' :: (coefPart ⟨⟨I64.MIN, 1⟩, []⟩ ++ Display.mdeg []))) := by
    simp only [Display.poly, term_eq, bind_ok, List.foldlM_cons, ht]
    rfl
  refine ⟨_, hp, ?_, ?_⟩
  · simp [coefPart, Display.mdeg, MDeg.len, writeVar, rational, Display.int, I64.MIN, nat, digit]
  · have h2 := read_term ⟨⟨I64.MIN, 1⟩, []⟩ (r := []) (by simp)
    have h1 := read_term ⟨⟨1, 1⟩, [1]⟩
      (r := ' ' :: '-' :: ' ' :: (coefPart ⟨⟨I64.MIN, 1⟩, []⟩ ++ Display.mdeg [])) (by simp)
    rw [List.append_nil] at h2
    dsimp only at h1 h2
    rw [Read.poly, Read.terms, h1]
    simp only [List.length_append, List.length_cons]
    rw [← Nat.add_assoc, Read.terms, h2]
    simp [Read.negFirst, monomOf, I64.MIN]

end Verif
