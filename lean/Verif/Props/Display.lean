import Mathlib.Data.Nat.Digits.Lemmas
import Verif.Poly.Display
import Verif.Proofs.MDeg
import Verif.Proofs.Num

/-!
# Properties C73 to C75: displayed text
-/

namespace Verif
open Res

namespace Display

/-! ### Splitting texts -/

/-- A text over an alphabet `P` followed by a text that does not begin in `P` splits uniquely. -/
theorem split_class (P : Char → Bool) {a a' b b' : List Char} (ha : ∀ c ∈ a, P c)
    (ha' : ∀ c ∈ a', P c) (hb : ∀ c ∈ b.head?, P c = false) (hb' : ∀ c ∈ b'.head?, P c = false)
    (h : a ++ b = a' ++ b') : a = a' ∧ b = b' := by
  have key : ∀ (a b : List Char), (∀ c ∈ a, P c) → (∀ c ∈ b.head?, P c = false) →
      (a ++ b).takeWhile P = a := by
    intro a b ha hb
    rw [List.takeWhile_append_of_pos ha]
    cases b with
    | nil => simp
    | cons c b => rw [List.takeWhile_cons_of_neg (by simp [hb c rfl])]; simp
  have h1 := key a b ha hb
  rw [h, key a' b' ha' hb'] at h1
  subst h1
  exact ⟨rfl, List.append_cancel_left h⟩

def isDigit (c : Char) : Bool := c ∈ ['0', '1', '2', '3', '4', '5', '6', '7', '8', '9']
def isSup (c : Char) : Bool := c ∈ ['⁰', '¹', '²', '³', '⁴', '⁵', '⁶', '⁷', '⁸', '⁹']
def isNum (c : Char) : Bool := isDigit c || c == '-' || c == '/'

/-! ### Numbers -/

/-- The superscript character of a digit. -/
def supDigit (d : ℕ) : Char := ['⁰', '¹', '²', '³', '⁴', '⁵', '⁶', '⁷', '⁸', '⁹'].getD d '⁰'

theorem digit_spec {d : ℕ} (h : d < 10) : isDigit (digit d) = true ∧
    ∀ e < 10, digit d = digit e → d = e := by
  decide +revert

theorem supDigit_spec {d : ℕ} (h : d < 10) : isSup (supDigit d) = true ∧
    ∀ e < 10, supDigit d = supDigit e → d = e := by
  decide +revert

theorem superscript_small {d : ℕ} (h : d < 10) : superscript d = [supDigit d] := by
  unfold superscript
  interval_cases d <;> rfl

theorem superscript_large {n : ℕ} (h : 10 ≤ n) :
    superscript n = superscript (n / 10) ++ superscript (n % 10) := by
  obtain ⟨k, rfl⟩ := Nat.exists_eq_add_of_le' h
  rw [superscript]

theorem digits_rec (f : ℕ → List Char) (g : ℕ → Char) (hs : ∀ d < 10, f d = [g d])
    (hl : ∀ n, 10 ≤ n → f n = f (n / 10) ++ [g (n % 10)]) (n : ℕ) (hn : n ≠ 0) :
    f n = (Nat.digits 10 n).reverse.map g := by
  induction n using Nat.strong_induction_on with
  | _ n ih =>
    rw [Nat.digits_def' (by omega) (by omega)]
    rcases Nat.lt_or_ge n 10 with h | h
    · rw [hs n h, Nat.mod_eq_of_lt h, Nat.div_eq_of_lt h]; simp
    · rw [hl n h, ih (n / 10) (by omega) (by omega)]; simp

theorem superscript_eq (n : ℕ) (hn : n ≠ 0) :
    superscript n = (Nat.digits 10 n).reverse.map supDigit :=
  digits_rec _ _ (fun _ => superscript_small) (fun n h => by
    rw [superscript_large h, superscript_small (Nat.mod_lt n (by omega))]) n hn

theorem nat_small {d : ℕ} (h : d < 10) : nat d = [digit d] := by rw [nat, if_pos h]

theorem nat_eq (n : ℕ) (hn : n ≠ 0) : nat n = (Nat.digits 10 n).reverse.map digit :=
  digits_rec _ _ (fun d h => by rw [nat, if_pos h]) (fun n h => by rw [nat, if_neg (by omega)]) n hn

theorem map_inj_of {g : ℕ → Char} (hg : ∀ d < 10, ∀ e < 10, g d = g e → d = e) {l l' : List ℕ}
    (hl : ∀ d ∈ l, d < 10) (hl' : ∀ d ∈ l', d < 10) (h : l.map g = l'.map g) : l = l' := by
  induction l generalizing l' with
  | nil => cases l' <;> simp_all
  | cons d l ih =>
    cases l' with
    | nil => simp at h
    | cons e l' =>
      simp only [List.map_cons, List.cons.injEq] at h
      rw [hg d (hl d (by simp)) e (hl' e (by simp)) h.1,
        ih (fun d hd => hl d (by simp [hd])) (fun d hd => hl' d (by simp [hd])) h.2]

theorem numeral_inj (f : ℕ → List Char) (g : ℕ → Char) (h0 : f 0 = [g 0])
    (hf : ∀ n ≠ 0, f n = (Nat.digits 10 n).reverse.map g)
    (hg : ∀ d < 10, ∀ e < 10, g d = g e → d = e) {n n' : ℕ} (h : f n = f n') : n = n' := by
  have key : ∀ n, n ≠ 0 → f 0 = f n → False := by
    intro n hn h
    have hd : ∀ d ∈ (Nat.digits 10 n).reverse, d < 10 :=
      fun d hd => Nat.digits_lt_base (by omega) (List.mem_reverse.1 hd)
    rw [h0, hf n hn, show [g 0] = [0].map g from rfl] at h
    have := map_inj_of hg (by simp) hd h
    have hn' := Nat.ofDigits_digits 10 n
    rw [← List.reverse_reverse (Nat.digits 10 n), ← this] at hn'
    simp at hn'
    exact hn hn'.symm
  by_cases hn : n = 0
  · by_cases hn' : n' = 0
    · omega
    · subst hn; exact (key n' hn' h).elim
  · by_cases hn' : n' = 0
    · subst hn'; exact (key n hn h.symm).elim
    · rw [hf n hn, hf n' hn'] at h
      have := map_inj_of hg (fun d hd => Nat.digits_lt_base (by omega) (List.mem_reverse.1 hd))
        (fun d hd => Nat.digits_lt_base (by omega) (List.mem_reverse.1 hd)) h
      exact Nat.digits_inj_iff.1 (List.reverse_injective this)

theorem superscript_inj {n n' : ℕ} (h : superscript n = superscript n') : n = n' :=
  numeral_inj superscript supDigit (superscript_small (by omega)) superscript_eq
    (fun _ hd _ he => (supDigit_spec hd).2 _ he) h

theorem nat_inj {n n' : ℕ} (h : nat n = nat n') : n = n' :=
  numeral_inj nat digit (by rw [nat]; rfl) nat_eq (fun _ hd _ he => (digit_spec hd).2 _ he) h

theorem nat_isDigit (n : ℕ) : ∀ c ∈ nat n, isDigit c = true := by
  by_cases hn : n = 0
  · subst hn; rw [nat]; decide
  · rw [nat_eq n hn]
    intro c hc
    obtain ⟨d, hd, rfl⟩ := List.mem_map.1 hc
    exact (digit_spec (Nat.digits_lt_base (by omega) (List.mem_reverse.1 hd))).1

theorem superscript_isSup (n : ℕ) : ∀ c ∈ superscript n, isSup c = true := by
  by_cases hn : n = 0
  · subst hn; rw [superscript_small (by omega)]; decide
  · rw [superscript_eq n hn]
    intro c hc
    obtain ⟨d, hd, rfl⟩ := List.mem_map.1 hc
    exact (supDigit_spec (Nat.digits_lt_base (by omega) (List.mem_reverse.1 hd))).1

theorem nat_ne_nil (n : ℕ) : nat n ≠ [] := by rw [nat]; split <;> simp
theorem superscript_ne_nil (n : ℕ) : superscript n ≠ [] := by
  by_cases hn : n = 0
  · subst hn; rw [superscript_small (by omega)]; simp
  · rw [superscript_eq n hn]; simpa [Nat.digits_ne_nil_iff_ne_zero] using hn

theorem int_inj {x y : ℤ} (h : int x = int y) : x = y := by
  have hh : ∀ n l, nat n ≠ '-' :: l := by
    intro n l h
    have := nat_isDigit n '-' (by rw [h]; simp)
    revert this; decide
  unfold int at h
  split at h <;> split at h
  · have := nat_inj (List.cons.inj h).2; omega
  · exact (hh _ _ h.symm).elim
  · exact (hh _ _ h).elim
  · have := nat_inj h; omega

theorem int_chars (x : ℤ) : ∀ c ∈ int x, isDigit c = true ∨ c = '-' := by
  intro c hc
  unfold int at hc
  split at hc
  · rcases List.mem_cons.1 hc with h | h
    · exact Or.inr h
    · exact Or.inl (nat_isDigit _ c h)
  · exact Or.inl (nat_isDigit _ c hc)

theorem int_ne (x : ℤ) : int x ≠ [] ∧ int x ≠ ['-'] := by
  have h2 := nat_isDigit x.natAbs
  unfold int
  split
  · simp [nat_ne_nil]
  · refine ⟨nat_ne_nil _, fun h => ?_⟩
    rw [h] at h2
    have := h2 '-' (by simp)
    revert this; decide

theorem rational_inj {x y : Rational} (hx : x.numer ≠ 0) (hy : y.numer ≠ 0)
    (h : rational x = rational y) : x = y := by
  have hform : ∀ z : Rational, z.numer ≠ 0 → rational z =
      int z.numer ++ if z.denom = 1 then [] else '/' :: int z.denom := by
    intro z hz
    unfold rational
    rw [if_neg hz]
    split <;> simp
  have hc : ∀ z : Rational, ∀ c ∈ int z.numer, (c != '/') = true := by
    intro z c hc
    rcases int_chars _ c hc with h | rfl
    · rw [bne_iff_ne]; rintro rfl; revert h; decide
    · decide
  have hh : ∀ z : Rational,
      ∀ c ∈ (if z.denom = 1 then [] else '/' :: int z.denom).head?, (c != '/') = false := by
    intro z c hc
    split at hc <;> simp at hc
    subst hc; decide
  rw [hform x hx, hform y hy] at h
  obtain ⟨h1, h2⟩ := split_class (fun c => c != '/') (hc x) (hc y) (hh x) (hh y) h
  have hn := int_inj h1
  have hd : x.denom = y.denom := by
    split at h2 <;> split at h2
    · omega
    · cases h2
    · cases h2
    · exact int_inj (List.cons.inj h2).2
  cases x; cases y; simp_all

theorem rational_chars (x : Rational) : ∀ c ∈ rational x, isNum c = true := by
  have hi : ∀ z : ℤ, ∀ c ∈ int z, isNum c = true := by
    intro z c hc
    rcases int_chars z c hc with h | rfl
    · simp [isNum, h]
    · decide
  intro c hc
  unfold rational at hc
  split at hc
  · simp at hc; subst hc; decide
  · split at hc
    · exact hi _ c hc
    · rcases List.mem_append.1 hc with h | h
      · exact hi _ c h
      · rcases List.mem_cons.1 h with rfl | h
        · decide
        · exact hi _ c h

theorem rational_ne (x : Rational) : rational x ≠ [] ∧ rational x ≠ ['-'] := by
  unfold rational
  split
  · simp
  · split
    · exact int_ne _
    · refine ⟨by simp, fun h => ?_⟩
      rcases hi : int x.numer with _ | ⟨c, l⟩
      · exact (int_ne _).1 hi
      · rw [hi] at h; simp at h

theorem rational_ne_zero {x : Rational} (hx : x.numer ≠ 0) : rational x ≠ ['0'] := by
  intro h
  have h0 : int 0 = ['0'] := by unfold int; rw [nat]; rfl
  unfold rational at h
  rw [if_neg hx] at h
  split at h
  · exact hx (int_inj (h.trans h0.symm))
  · rcases hi : int x.numer with _ | ⟨c, l⟩
    · exact (int_ne _).1 hi
    · rw [hi] at h; simp at h

/-! ### Multidegrees -/

/-- What `write_var` writes for a degree. -/
def wv (p : Char × ℕ) : List Char :=
  if p.2 = 0 then [] else if p.2 = 1 then [p.1] else p.1 :: superscript p.2

theorem writeVar_eq (m : MDeg) (i : ℕ) (c : Char) : writeVar m i [c] = wv (c, m.getD i 0) := by
  unfold writeVar wv
  rw [List.getD_eq_getElem?_getD]
  cases m[i]? with
  | none => simp
  | some d =>
    by_cases h0 : d = 0
    · simp [h0]
    · by_cases h1 : d = 1 <;> simp [h0, h1]

theorem wv_zero (c : Char) : wv (c, 0) = [] := by simp [wv]

theorem wv_pos {c : Char} {d : ℕ} (h : d ≠ 0) : ∃ s, wv (c, d) = c :: s ∧ (∀ x ∈ s, isSup x = true) ∧
    s = if d = 1 then [] else superscript d := by
  unfold wv
  by_cases h1 : d = 1
  · simp [h1]
  · simp only [h, h1, if_false]
    exact ⟨_, rfl, superscript_isSup d, rfl⟩

theorem head_flatMap_wv (l : List (Char × ℕ)) (r : List Char) :
    ∀ c ∈ (l.flatMap wv ++ r).head?, c ∈ l.map Prod.fst ∨ c ∈ r.head? := by
  induction l with
  | nil => intro c hc; exact Or.inr (by simpa using hc)
  | cons p l ih =>
    obtain ⟨c₀, d⟩ := p
    intro c hc
    by_cases hd : d = 0
    · subst hd
      rw [List.flatMap_cons, wv_zero, List.nil_append] at hc
      rcases ih c hc with h | h
      · exact Or.inl (by simp [h])
      · exact Or.inr h
    · obtain ⟨s, hs, -, -⟩ := wv_pos (c := c₀) hd
      rw [List.flatMap_cons, hs] at hc
      simp at hc
      exact Or.inl (by simp [hc])

theorem flatMap_wv_inj {l l' : List (Char × ℕ)} (hk : l.map Prod.fst = l'.map Prod.fst)
    (hnd : (l.map Prod.fst).Nodup) (hc : ∀ c ∈ l.map Prod.fst, isSup c = false ∧ c ≠ ' ')
    {r r' : List Char} (hr : ∀ c ∈ r.head?, c = ' ') (hr' : ∀ c ∈ r'.head?, c = ' ')
    (h : l.flatMap wv ++ r = l'.flatMap wv ++ r') : l = l' ∧ r = r' := by
  induction l generalizing l' with
  | nil =>
    cases l' with
    | nil => exact ⟨rfl, by simpa using h⟩
    | cons p l' => simp at hk
  | cons p l ih =>
    cases l' with
    | nil => simp at hk
    | cons p' l' =>
      obtain ⟨c, d⟩ := p
      obtain ⟨c', d'⟩ := p'
      simp only [List.map_cons, List.cons.injEq] at hk
      obtain ⟨rfl, hk⟩ := hk
      rw [List.map_cons, List.nodup_cons] at hnd
      have hcc := hc c (by simp)
      have hc' : ∀ c ∈ l.map Prod.fst, isSup c = false ∧ c ≠ ' ' := fun x hx => hc x (by simp [hx])
      have ih := fun h => ih hk hnd.2 hc' h
      rw [List.flatMap_cons, List.flatMap_cons, List.append_assoc, List.append_assoc] at h
      -- heads of what follows
      have hne : ∀ (l₁ : List (Char × ℕ)) (r₁ : List Char), l₁.map Prod.fst = l.map Prod.fst →
          (∀ c ∈ r₁.head?, c = ' ') → ∀ s, l₁.flatMap wv ++ r₁ ≠ c :: s := by
        intro l₁ r₁ hl₁ hr₁ s he
        have := head_flatMap_wv l₁ r₁ c (by rw [he]; simp)
        rcases this with h | h
        · rw [hl₁] at h; exact hnd.1 h
        · exact hcc.2 (hr₁ c h)
      have hsup : ∀ (l₁ : List (Char × ℕ)) (r₁ : List Char), l₁.map Prod.fst = l.map Prod.fst →
          (∀ c ∈ r₁.head?, c = ' ') → ∀ x ∈ (l₁.flatMap wv ++ r₁).head?, isSup x = false := by
        intro l₁ r₁ hl₁ hr₁ x hx
        rcases head_flatMap_wv l₁ r₁ x hx with h | h
        · rw [hl₁] at h; exact (hc' x h).1
        · rw [hr₁ x h]; decide
      by_cases hd : d = 0
      · by_cases hd' : d' = 0
        · subst hd; subst hd'
          rw [wv_zero, List.nil_append, List.nil_append] at h
          obtain ⟨h1, h2⟩ := ih h
          exact ⟨by rw [h1], h2⟩
        · obtain ⟨s, hs, -, -⟩ := wv_pos (c := c) hd'
          subst hd
          rw [wv_zero, List.nil_append, hs] at h
          exact (hne l r rfl hr _ h).elim
      · obtain ⟨s, hs, hs1, hs2⟩ := wv_pos (c := c) hd
        by_cases hd' : d' = 0
        · subst hd'
          rw [wv_zero, List.nil_append, hs] at h
          exact (hne l' r' hk.symm hr' _ h.symm).elim
        · obtain ⟨s', hs', hs1', hs2'⟩ := wv_pos (c := c) hd'
          rw [hs, hs', List.cons_append, List.cons_append, List.cons.injEq] at h
          obtain ⟨h1, h2⟩ := split_class isSup hs1 hs1' (hsup l r rfl hr) (hsup l' r' hk.symm hr') h.2
          obtain ⟨h3, h4⟩ := ih h2
          refine ⟨?_, h4⟩
          rw [h3]
          rw [hs2, hs2'] at h1
          have : d = d' := by
            split at h1 <;> split at h1
            · omega
            · exact (superscript_ne_nil _ h1.symm).elim
            · exact (superscript_ne_nil _ h1).elim
            · exact superscript_inj h1
          rw [this]

/-- The variables of a short multidegree with their degrees. -/
def pairs (m : MDeg) : List (Char × ℕ) :=
  [('x', m.getD 0 0), ('y', m.getD 1 0), ('z', m.getD 2 0), ('u', m.getD 3 0), ('v', m.getD 4 0),
    ('w', m.getD 5 0)]

theorem mdeg_short {m : MDeg} (h : m.len ≤ 5) : mdeg m = (pairs m).flatMap wv := by
  unfold mdeg
  rw [if_pos h]
  simp [writeVar_eq, pairs]

theorem tail_inj {ds ds' : List ℕ}
    (h : (ds.flatMap fun d => ',' :: ' ' :: nat d) = ds'.flatMap fun d => ',' :: ' ' :: nat d) :
    ds = ds' := by
  have hh : ∀ ds : List ℕ, ∀ c ∈ (ds.flatMap fun d => ',' :: ' ' :: nat d).head?,
      isDigit c = false := by
    intro ds c hc
    cases ds with
    | nil => simp at hc
    | cons d ds => simp at hc; subst hc; decide
  induction ds generalizing ds' with
  | nil => cases ds' <;> simp_all
  | cons d ds ih =>
    cases ds' with
    | nil => simp at h
    | cons d' ds' =>
      simp only [List.flatMap_cons, List.cons_append, List.cons.injEq, true_and] at h
      obtain ⟨h1, h2⟩ := split_class isDigit (nat_isDigit d) (nat_isDigit d') (hh ds) (hh ds') h
      rw [nat_inj h1, ih h2]

theorem debugVec_inj {m m' : List ℕ} (hm : m ≠ []) (hm' : m' ≠ []) {r r' : List Char}
    (h : debugVec m ++ r = debugVec m' ++ r') : m = m' ∧ r = r' := by
  obtain ⟨d, ds, rfl⟩ := List.exists_cons_of_ne_nil hm
  obtain ⟨d', ds', rfl⟩ := List.exists_cons_of_ne_nil hm'
  have hh : ∀ ds : List ℕ, ∀ c ∈ (ds.flatMap fun d => ',' :: ' ' :: nat d).head?,
      isDigit c = false := by
    intro ds c hc
    cases ds with
    | nil => simp at hc
    | cons d ds => simp at hc; subst hc; decide
  have hbody : ∀ (d : ℕ) (ds : List ℕ), ∀ c ∈ nat d ++ ds.flatMap fun d => ',' :: ' ' :: nat d,
      (c != ']') = true := by
    have hd : ∀ c, isDigit c = true → (c != ']') = true := by
      intro c hc; rw [bne_iff_ne]; rintro rfl; revert hc; decide
    intro d ds c hc
    rcases List.mem_append.1 hc with h | h
    · exact hd c (nat_isDigit _ c h)
    · obtain ⟨e, -, he⟩ := List.mem_flatMap.1 h
      rcases List.mem_cons.1 he with rfl | he
      · decide
      · rcases List.mem_cons.1 he with rfl | he
        · decide
        · exact hd c (nat_isDigit _ c he)
  simp only [debugVec, List.cons_append, List.cons.injEq, true_and] at h
  rw [List.append_assoc _ [']'] r, List.append_assoc _ [']'] r'] at h
  obtain ⟨h1, h2⟩ := split_class (fun c => c != ']') (hbody d ds) (hbody d' ds')
    (fun c hc => by simp at hc; subst hc; decide) (fun c hc => by simp at hc; subst hc; decide) h
  obtain ⟨h3, h4⟩ := split_class isDigit (nat_isDigit d) (nat_isDigit d') (hh ds) (hh ds') h1
  rw [nat_inj h3, tail_inj h4]
  simpa using h2

theorem head_mdeg (m : MDeg) (r : List Char) (hr : ∀ c ∈ r.head?, c = ' ') :
    ∀ c ∈ (mdeg m ++ r).head?, c ∈ ['x', 'y', 'z', 'u', 'v', 'w', ' '] ∨ c = 'X' := by
  intro c hc
  by_cases h : m.len ≤ 5
  · rw [mdeg_short h] at hc
    rcases head_flatMap_wv _ _ c hc with h | h
    · left; simp [pairs] at h ⊢; tauto
    · left; rw [hr c h]; simp
  · unfold mdeg at hc
    rw [if_neg h] at hc
    simp at hc
    exact Or.inr hc.symm

/-- Multidegrees can be read back even with text after them. -/
theorem mdeg_inj {m m' : MDeg} (hm : m.getLast? ≠ some 0) (hm' : m'.getLast? ≠ some 0)
    {r r' : List Char} (hr : ∀ c ∈ r.head?, c = ' ') (hr' : ∀ c ∈ r'.head?, c = ' ')
    (h : mdeg m ++ r = mdeg m' ++ r') : m = m' ∧ r = r' := by
  have hX : ∀ (m m' : MDeg) (r r' : List Char), (∀ c ∈ r.head?, c = ' ') → m.len ≤ 5 →
      ¬ m'.len ≤ 5 → mdeg m ++ r ≠ mdeg m' ++ r' := by
    intro m m' r r' hr h1 h2 he
    rw [mdeg_short h1, mdeg, if_neg h2] at he
    rcases head_flatMap_wv _ _ 'X' (by rw [he]; simp) with h | h
    · revert h; simp [pairs]
    · have := hr _ h; revert this; decide
  by_cases h1 : m.len ≤ 5 <;> by_cases h2 : m'.len ≤ 5
  · rw [mdeg_short h1, mdeg_short h2] at h
    obtain ⟨h3, h4⟩ := flatMap_wv_inj (by simp [pairs]) (by simp [pairs])
      (by simp [pairs, isSup]) hr hr' h
    refine ⟨MDeg.ext_deg hm hm' fun i => ?_, h4⟩
    simp only [pairs, List.cons.injEq, Prod.mk.injEq, true_and, and_true] at h3
    unfold MDeg.deg
    unfold MDeg.len at h1 h2
    rcases Nat.lt_or_ge i 5 with hi | hi
    · interval_cases i <;> tauto
    · rw [List.getD_eq_default _ _ (by omega), List.getD_eq_default _ _ (by omega)]
  · exact (hX m m' r r' hr h1 h2 h).elim
  · exact (hX m' m r' r hr' h2 h1 h.symm).elim
  · unfold mdeg at h
    rw [if_neg h1, if_neg h2, List.cons_append, List.cons_append, List.cons.injEq] at h
    unfold MDeg.len at h1 h2
    exact debugVec_inj (by rintro rfl; simp at h1) (by rintro rfl; simp at h2) h.2

/-! ### Terms and polynomials -/

/-- What is written in front of the multidegree. -/
def coefPart (t : Term Rational) : List Char :=
  if t.mdeg = [] then rational t.coef
  else if t.coef = ⟨1, 1⟩ then []
  else if t.coef = ⟨-1, 1⟩ then ['-']
  else rational t.coef

theorem mdeg_nil : mdeg [] = [] := by rfl

theorem term_eq (b : Build) (t : Term Rational) : letI := Rational.field b
    term rational t = .ok (coefPart t ++ mdeg t.mdeg) := by
  let _ := Rational.field b
  show term rational t = _
  unfold term coefPart
  have hneg : RField.neg (RField.one : Rational) = .ok ⟨-1, 1⟩ := by
    cases b <;> decide
  have hb : ∀ x y : Rational, RField.beq x y = decide (x = y) := fun _ _ => rfl
  have h1 : (RField.one : Rational) = ⟨1, 1⟩ := rfl
  rw [hneg, h1]
  simp only [hb, bind_ok, decide_eq_true_eq, MDeg.isZero, List.isEmpty_iff, pure_eq]
  split
  · next h => rw [h, mdeg_nil, List.append_nil]
  · split
    · simp
    · split <;> simp

theorem term_inj {t t' : Term Rational} (ht : t.coef.numer ≠ 0) (ht' : t'.coef.numer ≠ 0)
    (hm : t.mdeg.getLast? ≠ some 0) (hm' : t'.mdeg.getLast? ≠ some 0) {r r' : List Char}
    (hr : ∀ c ∈ r.head?, c = ' ') (hr' : ∀ c ∈ r'.head?, c = ' ')
    (h : coefPart t ++ mdeg t.mdeg ++ r = coefPart t' ++ mdeg t'.mdeg ++ r') :
    t = t' ∧ r = r' := by
  have hcp : ∀ t : Term Rational, ∀ c ∈ coefPart t, isNum c = true := by
    intro t c hc
    unfold coefPart at hc
    split at hc
    · exact rational_chars _ c hc
    · split at hc
      · simp at hc
      · split at hc
        · simp at hc; subst hc; decide
        · exact rational_chars _ c hc
  have hhd : ∀ (m : MDeg) (r : List Char), (∀ c ∈ r.head?, c = ' ') →
      ∀ c ∈ (mdeg m ++ r).head?, isNum c = false := by
    intro m r hr c hc
    rcases head_mdeg m r hr c hc with h | rfl
    · exact (by decide : ∀ c ∈ ['x', 'y', 'z', 'u', 'v', 'w', ' '], isNum c = false) c h
    · decide
  rw [List.append_assoc, List.append_assoc] at h
  obtain ⟨h1, h2⟩ := split_class isNum (hcp t) (hcp t') (hhd _ r hr) (hhd _ r' hr') h
  obtain ⟨h3, h4⟩ := mdeg_inj hm hm' hr hr' h2
  refine ⟨?_, h4⟩
  obtain ⟨c, m⟩ := t
  obtain ⟨c', m'⟩ := t'
  simp only at h3 ht ht'
  subst h3
  have : c = c' := by
    have hne := rational_ne c
    have hne' := rational_ne c'
    unfold coefPart at h1
    simp only at h1
    by_cases hmz : m = []
    · rw [if_pos hmz, if_pos hmz] at h1
      exact rational_inj ht ht' h1
    · rw [if_neg hmz, if_neg hmz] at h1
      by_cases h5 : c = ⟨1, 1⟩ <;> by_cases h6 : c' = ⟨1, 1⟩
      · rw [h5, h6]
      · rw [if_pos h5, if_neg h6] at h1
        by_cases h7 : c' = ⟨-1, 1⟩
        · rw [if_pos h7] at h1; cases h1
        · rw [if_neg h7] at h1; exact (hne'.1 h1.symm).elim
      · rw [if_neg h5, if_pos h6] at h1
        by_cases h7 : c = ⟨-1, 1⟩
        · rw [if_pos h7] at h1; cases h1
        · rw [if_neg h7] at h1; exact (hne.1 h1).elim
      · rw [if_neg h5, if_neg h6] at h1
        by_cases h7 : c = ⟨-1, 1⟩ <;> by_cases h8 : c' = ⟨-1, 1⟩
        · rw [h7, h8]
        · rw [if_pos h7, if_neg h8] at h1; exact (hne'.2 h1.symm).elim
        · rw [if_neg h7, if_pos h8] at h1; exact (hne.2 h1).elim
        · rw [if_neg h7, if_neg h8] at h1; exact rational_inj ht ht' h1
  rw [this]

theorem neg_eq {b : Build} {x z : Rational} (hx : I64.InRange x.numer) (h : Rational.neg b x = .ok z) :
    z.denom = x.denom ∧ (z.numer = -x.numer ∨ (x.numer = I64.MIN ∧ z.numer = I64.MIN)) := by
  unfold Rational.neg Integer.neg at h
  by_cases hm : x.numer = I64.MIN
  · rw [hm] at h
    cases b with
    | debug => cases h
    | release =>
      rw [show I64.norm .release (-I64.MIN) = .ok I64.MIN by decide, bind_ok] at h
      cases h
      exact ⟨rfl, Or.inr ⟨hm, rfl⟩⟩
  · rw [I64.norm_eq (by unfold I64.InRange at *; unfold I64.MIN at hm; omega), bind_ok] at h
    cases h
    exact ⟨rfl, Or.inl rfl⟩

theorem neg_inj {b : Build} {x y z : Rational} (hx : I64.InRange x.numer) (hy : I64.InRange y.numer)
    (hx' : Rational.neg b x = .ok z) (hy' : Rational.neg b y = .ok z) : x = y := by
  obtain ⟨h1, h2⟩ := neg_eq hx hx'
  obtain ⟨h3, h4⟩ := neg_eq hy hy'
  unfold I64.InRange at hx hy
  unfold I64.MIN at h2 h4
  have : x.numer = y.numer := by omega
  have : x.denom = y.denom := by omega
  cases x; cases y; simp_all

/-- A term of a displayed polynomial: a nonzero coefficient (an `i64` fraction) and a canonical
multidegree. -/
structure TermOk (t : Term Rational) : Prop where
  numer_ne : t.coef.numer ≠ 0
  numer_range : I64.InRange t.coef.numer
  mdeg : t.mdeg.Clean

theorem nextTerm_head {b : Build} {t : Term Rational} {s : List Char} (h : nextTerm b t = .ok s) :
    ∃ s', s = ' ' :: s' := by
  unfold nextTerm at h
  split at h <;> simp only [bind_eq_ok, pure_eq, Res.ok.injEq] at h
  · obtain ⟨_, _, _, _, rfl⟩ := h; exact ⟨_, rfl⟩
  · obtain ⟨_, _, rfl⟩ := h; exact ⟨_, rfl⟩

theorem nextTerm_inj {b : Build} {t t' : Term Rational} (ht : TermOk t) (ht' : TermOk t')
    {s s' r r' : List Char} (h : nextTerm b t = .ok s) (h' : nextTerm b t' = .ok s')
    (hr : ∀ c ∈ r.head?, c = ' ') (hr' : ∀ c ∈ r'.head?, c = ' ') (he : s ++ r = s' ++ r') :
    t = t' ∧ r = r' := by
  unfold nextTerm at h h'
  simp only [term_eq] at h h'
  have hz : ∀ t : Term Rational, ∀ z, TermOk t → Rational.neg b t.coef = .ok z → z.numer ≠ 0 := by
    intro t z ht hz
    have := ht.numer_ne
    have := neg_eq ht.numer_range hz
    unfold I64.MIN at this
    omega
  split at h <;> split at h' <;> simp only [bind_eq_ok, pure_eq, Res.ok.injEq] at h h'
  · obtain ⟨c, hc, _, rfl, rfl⟩ := h
    obtain ⟨c', hc', _, rfl, rfl⟩ := h'
    simp only [List.cons_append, List.cons.injEq, true_and] at he
    obtain ⟨h1, h2⟩ := term_inj (t := ⟨c, t.mdeg⟩) (t' := ⟨c', t'.mdeg⟩) (hz t c ht hc)
      (hz t' c' ht' hc') ht.mdeg.last ht'.mdeg.last hr hr' he
    simp only [Term.mk.injEq] at h1
    obtain ⟨rfl, h1⟩ := h1
    have := neg_inj ht.numer_range ht'.numer_range hc hc'
    refine ⟨?_, h2⟩
    cases t; cases t'; simp_all
  · obtain ⟨c, hc, _, rfl, rfl⟩ := h
    obtain ⟨_, rfl, rfl⟩ := h'
    simp at he
  · obtain ⟨_, rfl, rfl⟩ := h
    obtain ⟨c', hc', _, rfl, rfl⟩ := h'
    simp at he
  · obtain ⟨_, rfl, rfl⟩ := h
    obtain ⟨_, rfl, rfl⟩ := h'
    simp only [List.cons_append, List.cons.injEq, true_and] at he
    exact term_inj ht.numer_ne ht'.numer_ne ht.mdeg.last ht'.mdeg.last hr hr' he

theorem rest_eq {b : Build} {ts : List (Term Rational)} {s S : List Char}
    (h : ts.foldlM (fun s t => do let s' ← nextTerm b t; pure (s ++ s')) s = .ok S) :
    ∃ rs : List (List Char), List.Forall₂ (fun t r => nextTerm b t = .ok r) ts rs ∧
      S = s ++ rs.flatten := by
  induction ts generalizing s with
  | nil => cases h; exact ⟨[], .nil, by simp⟩
  | cons t ts ih =>
    rw [List.foldlM_cons, bind_eq_ok] at h
    obtain ⟨s₁, h1, h2⟩ := h
    simp only [bind_eq_ok, pure_eq, Res.ok.injEq] at h1
    obtain ⟨r, hr, rfl⟩ := h1
    obtain ⟨rs, hrs, rfl⟩ := ih h2
    exact ⟨r :: rs, .cons hr hrs, by simp⟩

theorem rest_head {b : Build} {ts : List (Term Rational)} {rs : List (List Char)}
    (h : List.Forall₂ (fun t r => nextTerm b t = .ok r) ts rs) :
    ∀ c ∈ rs.flatten.head?, c = ' ' := by
  intro c hc
  cases h with
  | nil => simp at hc
  | cons h _ => obtain ⟨s', rfl⟩ := nextTerm_head h; simp at hc; exact hc.symm

theorem rest_inj {b : Build} {ts ts' : List (Term Rational)} {rs rs' : List (List Char)}
    (h : List.Forall₂ (fun t r => nextTerm b t = .ok r) ts rs)
    (h' : List.Forall₂ (fun t r => nextTerm b t = .ok r) ts' rs')
    (ht : ∀ t ∈ ts, TermOk t) (ht' : ∀ t ∈ ts', TermOk t) (he : rs.flatten = rs'.flatten) :
    ts = ts' := by
  induction h generalizing ts' rs' with
  | nil =>
    cases h' with
    | nil => rfl
    | cons h' _ => obtain ⟨_, rfl⟩ := nextTerm_head h'; simp at he
  | cons h hs ih =>
    cases h' with
    | nil => obtain ⟨_, rfl⟩ := nextTerm_head h; simp at he
    | cons h' hs' =>
      rw [List.flatten_cons, List.flatten_cons] at he
      obtain ⟨h1, h2⟩ := nextTerm_inj (ht _ (by simp)) (ht' _ (by simp)) h h' (rest_head hs)
        (rest_head hs') he
      rw [h1, ih hs' (fun t h => ht t (by simp [h])) (fun t h => ht' t (by simp [h])) h2]

end Display

open Display

/-! ## C73 -/

/-- **C73** `superscript(n)` consists of the decimal digits of `n`, most significant first, each as
a superscript character (and is `⁰` for 0); distinct numbers render differently. -/
theorem C73_superscript :
    superscript 0 = ['⁰'] ∧
    (∀ n, n ≠ 0 → superscript n = (Nat.digits 10 n).reverse.map
      fun d => ['⁰', '¹', '²', '³', '⁴', '⁵', '⁶', '⁷', '⁸', '⁹'].getD d '⁰') ∧
    (∀ n n', superscript n = superscript n' → n = n') :=
  ⟨superscript_small (by omega), superscript_eq, fun _ _ => superscript_inj⟩

example : superscript 207 = ['²', '⁰', '⁷'] := by
  rw [superscript_eq _ (by omega)]; norm_num [supDigit]

/-! ## C74 -/

/-- **C74** Distinct canonical multidegrees never display as the same text. -/
theorem C74_display_mdeg (m m' : MDeg) (hm : m.Clean) (hm' : m'.Clean)
    (h : Display.mdeg m = Display.mdeg m') : m = m' :=
  (mdeg_inj (r := []) (r' := []) hm.last hm'.last (by simp) (by simp) (by simpa using h)).1

example : MDeg.Clean [2, 0, 12] ∧ Display.mdeg [2, 0, 12] = ['x', '²', 'z', '¹', '²'] := by
  refine ⟨by decide, ?_⟩
  simp [Display.mdeg, MDeg.len, writeVar, superscript_small, supDigit, superscript_large]

/-- The hypothesis is needed: `trim_zeros` leaves `[0]`, which displays like the zero multidegree. -/
theorem C74_noncanonical : Display.mdeg [0] = Display.mdeg [] := by
  simp [Display.mdeg, MDeg.len, writeVar]

/-! ## C75 -/

/-- **C75** In either build profile, distinct polynomials with nonzero rational coefficients and
canonical multidegrees never display as the same text. -/
theorem C75_display_poly (b : Build) (p q : Poly Rational)
    (hp : ∀ t ∈ p, t.coef.numer ≠ 0 ∧ I64.InRange t.coef.numer ∧ t.mdeg.Clean)
    (hq : ∀ t ∈ q, t.coef.numer ≠ 0 ∧ I64.InRange t.coef.numer ∧ t.mdeg.Clean)
    (s : List Char) (h : Display.poly b p = .ok s) (h' : Display.poly b q = .ok s) : p = q := by
  have hp' : ∀ t ∈ p, TermOk t := fun t ht => ⟨(hp t ht).1, (hp t ht).2.1, (hp t ht).2.2⟩
  have hq' : ∀ t ∈ q, TermOk t := fun t ht => ⟨(hq t ht).1, (hq t ht).2.1, (hq t ht).2.2⟩
  clear hp hq
  -- a nonzero polynomial does not display as `0`
  have h0 : ∀ (t : Term Rational) (ts : Poly Rational), TermOk t → Display.poly b (t :: ts) ≠ .ok ['0'] := by
    intro t ts ht h
    simp only [Display.poly, term_eq, bind_ok] at h
    obtain ⟨rs, hrs, he⟩ := rest_eq h
    have hlen := congrArg List.length he
    rw [List.length_append, List.length_append, List.length_singleton] at hlen
    have hcp : coefPart t ≠ ['0'] := by
      unfold coefPart
      have := rational_ne_zero ht.numer_ne
      split
      · exact this
      · split
        · simp
        · split
          · decide
          · exact this
    have hc : coefPart t ≠ [] ∨ mdeg t.mdeg ≠ [] := by
      by_cases hm : t.mdeg = []
      · left; unfold coefPart; rw [if_pos hm]; exact (rational_ne _).1
      · right
        intro h
        exact hm (mdeg_inj (r := []) (r' := []) ht.mdeg.last (by simp) (by simp) (by simp)
          (by rw [h]; rfl)).1
    rcases hcc : coefPart t with _ | ⟨c, l⟩
    · rw [hcc, List.nil_append] at he
      have := head_mdeg t.mdeg rs.flatten (rest_head hrs) '0' (by rw [← he]; rfl)
      revert this; decide
    · rw [hcc] at he hcp
      simp only [List.cons_append, List.cons.injEq] at he
      have hnil := List.append_eq_nil_iff.1 (List.append_eq_nil_iff.1 he.2.symm).1
      exact hcp (by rw [← he.1, hnil.1])
  cases p with
  | nil =>
    cases q with
    | nil => rfl
    | cons t ts =>
      simp only [Display.poly, pure_eq, Res.ok.injEq] at h
      subst h
      exact (h0 t ts (hq' t (by simp)) h').elim
  | cons t ts =>
    cases q with
    | nil =>
      simp only [Display.poly, pure_eq, Res.ok.injEq] at h'
      subst h'
      exact (h0 t ts (hp' t (by simp)) h).elim
    | cons t' ts' =>
      simp only [Display.poly, term_eq, bind_ok] at h h'
      obtain ⟨rs, hrs, rfl⟩ := rest_eq h
      obtain ⟨rs', hrs', he⟩ := rest_eq h'
      have ht := hp' t (by simp)
      have ht' := hq' t' (by simp)
      obtain ⟨h1, h2⟩ := term_inj ht.numer_ne ht'.numer_ne ht.mdeg.last ht'.mdeg.last
        (rest_head hrs) (rest_head hrs') he
      rw [h1, rest_inj hrs hrs' (fun t h => hp' t (by simp [h])) (fun t h => hq' t (by simp [h])) h2]

/-- Displaying does not panic, except that an overflow-checked build cannot negate a coefficient with
numerator `i64::MIN` after the first term. -/
theorem C75_display_total (b : Build) (p : Poly Rational)
    (hp : ∀ t ∈ p.tail, I64.InRange t.coef.numer ∧ t.coef.numer ≠ I64.MIN) :
    ∃ s, Display.poly b p = .ok s := by
  cases p with
  | nil => exact ⟨_, rfl⟩
  | cons t ts =>
    simp only [Display.poly, term_eq, bind_ok]
    rw [List.tail_cons] at hp
    generalize coefPart t ++ Display.mdeg t.mdeg = s
    induction ts generalizing s with
    | nil => exact ⟨_, rfl⟩
    | cons t ts ih =>
      have : ∃ r, nextTerm b t = .ok r := by
        unfold nextTerm
        simp only [term_eq]
        split
        · obtain ⟨h1, h2⟩ := hp t (by simp)
          have : Rational.neg b t.coef = .ok ⟨-t.coef.numer, t.coef.denom⟩ := by
            unfold Rational.neg Integer.neg
            rw [I64.norm_eq (by unfold I64.InRange at *; unfold I64.MIN at h2; omega)]
            rfl
          change ∃ r, (Rational.neg b t.coef >>= _) = Res.ok r
          rw [this]
          exact ⟨_, rfl⟩
        · exact ⟨_, rfl⟩
      obtain ⟨r, hr⟩ := this
      rw [List.foldlM_cons, hr]
      exact ih (fun t ht => hp t (by simp [ht])) _

/-- The polynomial `-x² - 3/2 y + 1`. -/
example : Display.poly .debug [⟨⟨-1, 1⟩, [2]⟩, ⟨⟨-3, 2⟩, [0, 1]⟩, ⟨⟨1, 1⟩, []⟩] =
    .ok "-x² - 3/2y + 1".toList := by
  have hn : (Rational.field .debug).neg ⟨-3, 2⟩ = .ok ⟨3, 2⟩ := by decide
  simp [Display.poly, term_eq, nextTerm, coefPart, Display.mdeg, MDeg.len, writeVar,
    superscript_small, supDigit, bind_ok, pure_eq, Integer.isNeg, hn, rational, Display.int,
    nat_small, digit]

/-! ## C79 -/

/-- **C79** fails: the test shorthand `w(1)` of `fn_vars!` is the variable that displays as `u`. -/
theorem C79_refuted : fnVarsIdx 'w' = some 3 ∧ Display.mdeg (MDeg.var 3 1) = ['u'] := by
  refine ⟨rfl, ?_⟩
  simp [Display.mdeg, MDeg.len, MDeg.var, writeVar, List.replicate]

/-- **C79** (the part that holds) `x`, `y` and `z` display as themselves, to every power. -/
theorem C79_shorthand_partial (c : Char) (hc : c ∈ ['x', 'y', 'z']) (d : ℕ) (hd : d ≠ 0) :
    ∃ i, fnVarsIdx c = some i ∧
      Display.mdeg (MDeg.var i d) = if d = 1 then [c] else c :: superscript d := by
  simp only [List.mem_cons, List.not_mem_nil, or_false] at hc
  rcases hc with rfl | rfl | rfl
  all_goals
    refine ⟨_, rfl, ?_⟩
    simp [Display.mdeg, MDeg.len, MDeg.var, writeVar, List.replicate, hd]

/-- **C79** fails for every power of the other three: `w` and `u` display as `u` and `v`, and `v` as a
vector of exponents. -/
theorem C79_wrong (d : ℕ) (hd : d ≠ 0) :
    (∃ i, fnVarsIdx 'w' = some i ∧
      Display.mdeg (MDeg.var i d) = if d = 1 then ['u'] else 'u' :: superscript d) ∧
    (∃ i, fnVarsIdx 'u' = some i ∧
      Display.mdeg (MDeg.var i d) = if d = 1 then ['v'] else 'v' :: superscript d) ∧
    (∃ i, fnVarsIdx 'v' = some i ∧
      Display.mdeg (MDeg.var i d) = "X[0, 0, 0, 0, 0, ".toList ++ nat d ++ [']']) := by
  refine ⟨⟨_, rfl, ?_⟩, ⟨_, rfl, ?_⟩, ⟨_, rfl, ?_⟩⟩
  · simp [Display.mdeg, MDeg.len, MDeg.var, writeVar, List.replicate, hd]
  · simp [Display.mdeg, MDeg.len, MDeg.var, writeVar, List.replicate, hd]
  · simp [Display.mdeg, MDeg.len, MDeg.var, debugVec, List.replicate, hd, nat_small, digit]

/-- **C79** `fn_vars!` knows exactly the letters of the six shorthands. -/
theorem C79_letters (c : Char) : fnVarsIdx c ≠ none ↔ c ∈ ['x', 'y', 'z', 'w', 'u', 'v'] := by
  unfold fnVarsIdx
  split <;> simp_all

end Verif
