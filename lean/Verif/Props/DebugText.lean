import Verif.LinAlg.Debug
import Verif.Props.MatDisplayF64

/-!
# Property C208: the derived `Debug` of multidegrees, terms, polynomials and matrices
-/

namespace Verif
open Res

namespace Display

variable {F : Type} {dbg : F → List Char} {V : F → Prop}

/-- Where one text ends can be seen from the text itself, for values satisfying `V`. -/
def EndsItself (V : F → Prop) (dbg : F → List Char) : Prop :=
  ∀ x y, V x → V y → ∀ r s, dbg x ++ r = dbg y ++ s → x = y ∧ r = s

/-- The text is not empty, does not begin with a bracket, and where it ends can be seen if a comma or a bracket
follows. -/
structure Item (V : F → Prop) (dbg : F → List Char) : Prop where
  ends : ∀ x y, V x → V y → ∀ r s : List Char, (∀ c ∈ r.head?, c ∈ [',', ']']) → (∀ c ∈ s.head?, c ∈ [',', ']']) →
    dbg x ++ r = dbg y ++ s → x = y ∧ r = s
  start : ∀ x, V x → ∀ r s, dbg x ++ r ≠ ']' :: s

theorem Item.tail (h : Item V dbg) : ∀ {xs ys : List F} {r s : List Char}, (∀ x ∈ xs, V x) → (∀ y ∈ ys, V y) →
    (xs.flatMap fun y => ',' :: ' ' :: dbg y) ++ ']' :: r = (ys.flatMap fun y => ',' :: ' ' :: dbg y) ++ ']' :: s →
    xs = ys ∧ r = s := by
  have hhead : ∀ (zs : List F) (t : List Char),
      ∀ c ∈ ((zs.flatMap fun y => ',' :: ' ' :: dbg y) ++ ']' :: t).head?, c ∈ [',', ']'] := by
    intro zs t c hc
    cases zs <;> simp at hc <;> simp [← hc]
  intro xs
  induction xs with
  | nil =>
    intro ys r s _ _ h
    cases ys with
    | nil => simpa using h
    | cons y ys => simp at h
  | cons x xs ih =>
    intro ys r s hx hy he
    cases ys with
    | nil => simp at he
    | cons y ys =>
      simp only [List.flatMap_cons, List.cons_append, List.append_assoc, List.cons.injEq, true_and] at he
      obtain ⟨rfl, h'⟩ := h.ends _ _ (hx _ (by simp)) (hy _ (by simp)) _ _ (hhead _ _) (hhead _ _) he
      obtain ⟨rfl, rfl⟩ := ih (fun z hz => hx z (by simp [hz])) (fun z hz => hy z (by simp [hz])) h'
      exact ⟨rfl, rfl⟩

theorem Item.list (h : Item V dbg) : EndsItself (fun l => ∀ x ∈ l, V x) (debugList dbg) := by
  have hhead : ∀ (zs : List F) (t : List Char),
      ∀ c ∈ ((zs.flatMap fun y => ',' :: ' ' :: dbg y) ++ ']' :: t).head?, c ∈ [',', ']'] := by
    intro zs t c hc
    cases zs <;> simp at hc <;> simp [← hc]
  intro xs ys hx hy r s he
  cases xs with
  | nil =>
    cases ys with
    | nil => simpa [debugList] using he
    | cons y ys =>
      simp only [debugList, List.cons_append, List.append_assoc, List.cons.injEq, true_and,
        List.nil_append] at he
      exact absurd he.symm (h.start y (hy y (by simp)) _ _)
  | cons x xs =>
    cases ys with
    | nil =>
      simp only [debugList, List.cons_append, List.append_assoc, List.cons.injEq, true_and,
        List.nil_append] at he
      exact absurd he (h.start x (hx x (by simp)) _ _)
    | cons y ys =>
      simp only [debugList, List.cons_append, List.append_assoc, List.cons.injEq, true_and,
        List.nil_append] at he
      obtain ⟨rfl, h'⟩ := h.ends _ _ (hx _ (by simp)) (hy _ (by simp)) _ _ (hhead _ _) (hhead _ _) he
      obtain ⟨rfl, rfl⟩ := h.tail (fun z hz => hx z (by simp [hz])) (fun z hz => hy z (by simp [hz])) h'
      exact ⟨rfl, rfl⟩

/-! ### The items -/

theorem nat_ends {x y : ℕ} {r s : List Char} (hr : ∀ c ∈ r.head?, isDigit c = false)
    (hs : ∀ c ∈ s.head?, isDigit c = false) (h : nat x ++ r = nat y ++ s) : x = y ∧ r = s := by
  obtain ⟨h1, h2⟩ := split_class isDigit (nat_isDigit x) (nat_isDigit y) hr hs h
  exact ⟨nat_inj h1, h2⟩

theorem item_nat : Item (fun _ => True) nat where
  ends x y _ _ r s hr hs h := nat_ends
    (fun c hc => (by decide : ∀ c ∈ [',', ']'], isDigit c = false) c (hr c hc))
    (fun c hc => (by decide : ∀ c ∈ [',', ']'], isDigit c = false) c (hs c hc)) h
  start x _ r s h := by
    obtain ⟨c, cs, hc⟩ := List.exists_cons_of_ne_nil (nat_ne_nil x)
    rw [hc, List.cons_append, List.cons.injEq] at h
    have := nat_isDigit x c (by rw [hc]; simp)
    rw [h.1] at this
    exact absurd this (by decide)

theorem item_integer : Item (fun _ => True) debugInteger where
  ends x y _ _ r s _ _ h := debugInteger_sd x y r s h
  start x _ r s h := by simp [debugInteger] at h

theorem item_rational : Item (fun _ => True) debugRational where
  ends x y _ _ r s _ _ h := debugRational_sd x y r s h
  start x _ r s h := by simp [debugRational] at h

theorem item_float [Fmt] : Item Flt.Valid debugFloat where
  ends x y hx hy r s hr hs h := by
    have hc : ∀ {x : Flt}, x.Valid → ∀ c ∈ debugFloat x, (decide (c ∉ [',', ']'])) = true := by
      intro x hx c hc
      have := debugFloat_chars hx c hc
      simp at this ⊢
      tauto
    have hn : ∀ {r : List Char}, (∀ c ∈ r.head?, c ∈ [',', ']']) → ∀ c ∈ r.head?,
        (decide (c ∉ [',', ']'])) = false := by
      intro r hr c hc
      exact decide_eq_false (not_not.2 (hr c hc))
    obtain ⟨h1, h2⟩ := split_class (fun c => decide (c ∉ [',', ']'])) (hc hx) (hc hy) (hn hr) (hn hs) h
    exact ⟨C207_float_injective x y hx hy h1, h2⟩
  start x hx r s h := by
    obtain ⟨c, cs, hc⟩ := List.exists_cons_of_ne_nil (debugFloat_ne_nil hx)
    rw [hc, List.cons_append, List.cons.injEq] at h
    have := debugFloat_chars hx c (by rw [hc]; simp)
    rw [h.1] at this
    simp at this

theorem cancel {l r s : List Char} (h : l ++ r = l ++ s) : r = s := List.append_cancel_left h

theorem debugMDeg_ends : EndsItself (fun _ => True) debugMDeg := by
  intro x y _ _ r s h
  unfold debugMDeg at h
  generalize "MultiDegree(".toList = a, ")".toList = b at h
  simp only [List.append_assoc, List.append_cancel_left_eq] at h
  obtain ⟨h1, h2⟩ := item_nat.list x y (by simp) (by simp) _ _ h
  exact ⟨h1, cancel h2⟩

theorem Item.term (h : Item V dbg) : EndsItself (fun t => V t.coef) (debugTerm dbg) := by
  intro x y hx hy r s he
  unfold debugTerm at he
  rw [show ", mdeg: ".toList = ',' :: " mdeg: ".toList from by decide] at he
  generalize "Term { coef: ".toList = a, " mdeg: ".toList = b, " }".toList = c at he
  simp only [List.append_assoc, List.append_cancel_left_eq, List.cons_append] at he
  obtain ⟨h1, h2⟩ := h.ends _ _ hx hy _ _ (by simp) (by simp) he
  obtain ⟨h3, h4⟩ := debugMDeg_ends _ _ trivial trivial _ _ (cancel (List.cons.inj h2).2)
  refine ⟨?_, cancel h4⟩
  cases x; cases y; simp_all

theorem Item.terms (h : Item V dbg) : Item (fun t => V t.coef) (debugTerm dbg) where
  ends x y hx hy r s _ _ he := h.term x y hx hy r s he
  start x _ r s he := by
    unfold debugTerm at he
    rw [show "Term { coef: ".toList = 'T' :: "erm { coef: ".toList from by decide] at he
    exact absurd (List.cons.inj he).1 (by decide)

end Display

open Display

section
variable {F : Type} {dbg : F → List Char} {V : F → Prop}

/-- **C208** Distinct multidegrees, canonical or not, have distinct `{:?}` texts. -/
theorem C208_mdeg (m m' : MDeg) (h : debugMDeg m = debugMDeg m') : m = m' :=
  (debugMDeg_ends m m' trivial trivial [] [] (by simpa using h)).1

/-- Distinct terms and polynomials have distinct texts if the coefficients have. -/
theorem debugTerm_inj (hd : Item V dbg) (t t' : Term F) (ht : V t.coef) (ht' : V t'.coef)
    (h : debugTerm dbg t = debugTerm dbg t') : t = t' :=
  (hd.term t t' ht ht' [] [] (by simpa using h)).1

theorem debugPoly_inj (hd : Item V dbg) (p q : Poly F) (hp : ∀ t ∈ p, V t.coef) (hq : ∀ t ∈ q, V t.coef)
    (h : debugPoly dbg p = debugPoly dbg q) : p = q := by
  unfold debugPoly at h
  generalize "Polynomial { terms: ".toList = a, " }".toList = b at h
  simp only [List.append_assoc, List.append_cancel_left_eq] at h
  exact (hd.terms.list p q hp hq _ _ h).1

theorem debugMat_inj (hd : Item V dbg) (M N : Mat F) (hM : ∀ x ∈ M.entries, V x) (hN : ∀ x ∈ N.entries, V x)
    (h : debugMat dbg M = debugMat dbg N) : M = N := by
  unfold debugMat at h
  rw [show ", cols: ".toList = ',' :: " cols: ".toList from by decide,
    show " }".toList = ' ' :: "}".toList from by decide] at h
  generalize "Mat { entries: ".toList = a, ", rows: ".toList = b, " cols: ".toList = c, "}".toList = d at h
  simp only [List.append_assoc, List.append_cancel_left_eq, List.cons_append] at h
  obtain ⟨h1, h2⟩ := hd.list _ _ hM hN _ _ h
  obtain ⟨h3, h4⟩ := nat_ends (by simp [isDigit]) (by simp [isDigit]) (cancel h2)
  obtain ⟨h5, -⟩ := nat_ends (by simp [isDigit]) (by simp [isDigit]) (cancel (List.cons.inj h4).2)
  cases M; cases N; simp_all

theorem evalMessage_inj (hd : Item V dbg) (x y : List F) (t u : Term F) (hx : ∀ c ∈ x, V c) (hy : ∀ c ∈ y, V c)
    (ht : V t.coef) (hu : V u.coef) (h : evalMessage dbg x t = evalMessage dbg y u) : x = y ∧ t = u := by
  unfold evalMessage at h
  generalize "incorrectly sized argument ".toList = a, " passed to term ".toList = b at h
  simp only [List.append_assoc, List.append_cancel_left_eq] at h
  obtain ⟨h1, h2⟩ := hd.list _ _ hx hy _ _ h
  exact ⟨h1, debugTerm_inj hd t u ht hu (cancel h2)⟩

end

/-- **C208** Distinct terms, polynomials (with any coefficients and multidegrees) and matrices (with any number of
entries) of `Rational` have distinct `{:?}` texts, and the message of the panic of `Term::eval` determines its
arguments. -/
theorem C208_rational :
    (∀ t t' : Term Rational, debugTerm debugRational t = debugTerm debugRational t' → t = t') ∧
    (∀ p q : Poly Rational, debugPoly debugRational p = debugPoly debugRational q → p = q) ∧
    (∀ M N : Mat Rational, debugMat debugRational M = debugMat debugRational N → M = N) ∧
    ∀ (x y : List Rational) (t u : Term Rational),
      evalMessage debugRational x t = evalMessage debugRational y u → x = y ∧ t = u :=
  ⟨fun t t' => debugTerm_inj item_rational t t' trivial trivial,
    fun p q => debugPoly_inj item_rational p q (by simp) (by simp),
    fun M N => debugMat_inj item_rational M N (by simp) (by simp),
    fun x y t u => evalMessage_inj item_rational x y t u (by simp) (by simp) trivial trivial⟩

/-- **C208** The same over floats (where all NaN are the same in the model). -/
theorem C208_float [Fmt] :
    (∀ t t' : Term Flt, t.coef.Valid → t'.coef.Valid → debugTerm debugFloat t = debugTerm debugFloat t' → t = t') ∧
    (∀ p q : Poly Flt, (∀ t ∈ p, t.coef.Valid) → (∀ t ∈ q, t.coef.Valid) →
      debugPoly debugFloat p = debugPoly debugFloat q → p = q) ∧
    (∀ M N : Mat Flt, (∀ x ∈ M.entries, x.Valid) → (∀ x ∈ N.entries, x.Valid) →
      debugMat debugFloat M = debugMat debugFloat N → M = N) ∧
    ∀ (x y : List Flt) (t u : Term Flt), (∀ c ∈ x, c.Valid) → (∀ c ∈ y, c.Valid) → t.coef.Valid → u.coef.Valid →
      evalMessage debugFloat x t = evalMessage debugFloat y u → x = y ∧ t = u :=
  ⟨debugTerm_inj item_float, debugPoly_inj item_float, debugMat_inj item_float, evalMessage_inj item_float⟩

/-- Texts, among them those of two different polynomials that `Display` shows alike. -/
theorem C208_run :
    debugPoly debugInteger [⟨3, [1, 2]⟩, ⟨-1, []⟩] =
      ("Polynomial { terms: [Term { coef: Integer(3), mdeg: MultiDegree([1, 2]) }, " ++
        "Term { coef: Integer(-1), mdeg: MultiDegree([]) }] }").toList ∧
    debugMat debugInteger ⟨[1, 2], 1, 2⟩ = "Mat { entries: [Integer(1), Integer(2)], rows: 1, cols: 2 }".toList ∧
    debugMDeg [0] ≠ debugMDeg [] ∧ Display.mdeg [0] = Display.mdeg [] ∧
    evalMessage debugInteger [7] ⟨3, [1, 2]⟩ = ("incorrectly sized argument [Integer(7)] passed to term " ++
      "Term { coef: Integer(3), mdeg: MultiDegree([1, 2]) }").toList := by
  decide +kernel

end Verif
