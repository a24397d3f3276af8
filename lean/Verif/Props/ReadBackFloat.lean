import Verif.Props.ReadBack
import Verif.Props.DisplayF64

/-!
# Property C176: displayed floats and polynomials over them read back

The reader of `ReadBack` with decimal numbers as coefficients, rounded to the nearest float.
-/

namespace Verif
open Res Display

variable [Fmt]

namespace Read

/-- The float with the opposite sign. -/
def opposite : Flt → Flt
  | .nan => .nan
  | .inf s => .inf !s
  | .fin s n => .fin (!s) n

/-- A decimal number without sign, rounded to nearest, `inf` or `NaN`, for the given sign. -/
def fltAbs (neg : Bool) (s : List Char) : Flt :=
  if s = "inf".toList then .inf neg
  else if s = "NaN".toList then .nan
  else
    let a := s.takeWhile (· != '.')
    let b := (s.dropWhile (· != '.')).tail
    Flt.round neg (number digitVal (a ++ b) * Flt.unit) (10 ^ b.length)

/-- A float, possibly after a minus sign. -/
def flt (s : List Char) : Flt := if s.head? = some '-' then fltAbs true s.tail else fltAbs false s

/-- A float and the exponents of the variables. -/
abbrev FMonom : Type := Flt × (ℕ → ℕ)

/-- Characters of floats. -/
def isFloat (c : Char) : Bool :=
  c ∈ ['0', '1', '2', '3', '4', '5', '6', '7', '8', '9', '.', '-', 'i', 'n', 'f', 'N', 'a']

/-- A term at the beginning of the text: a coefficient (`1` if there is none, `-1` if there is only a
minus sign) followed by a power product. -/
def fterm (s : List Char) : FMonom × List Char :=
  let num := s.takeWhile isFloat
  let c := if num = [] then flt ['1'] else if num = ['-'] then flt ['-', '1'] else flt num
  let e := mdeg (s.dropWhile isFloat)
  ((c, fun i => e.1.getD i 0), e.2)

/-- The first term with the opposite sign. -/
def oppFirst : List FMonom → List FMonom
  | [] => []
  | t :: ts => (opposite t.1, t.2) :: ts

/-- At most so many terms, each after the first preceded by ` + ` or ` - `. -/
def fterms : ℕ → List Char → List FMonom
  | 0, _ => []
  | n + 1, s => (fterm s).1 ::
    match (fterm s).2 with
    | ' ' :: '+' :: ' ' :: r => fterms n r
    | ' ' :: '-' :: ' ' :: r => oppFirst (fterms n r)
    | _ => []

/-- The terms of a polynomial. -/
def fpoly (s : List Char) : List FMonom := fterms (s.length + 1) s

end Read

omit [Fmt] in
theorem number_eq_readNat (s : List Char) : Read.number Read.digitVal s = readNat s := rfl

omit [Fmt] in
theorem isFloat_of_isNumF {c : Char} (h : isNumF c = true) : Read.isFloat c = true := by
  simp only [isNumF, isDigit, Bool.or_eq_true, decide_eq_true_eq, beq_iff_eq] at h
  simp only [Read.isFloat, decide_eq_true_eq]
  simp only [List.mem_cons, List.not_mem_nil, or_false] at h ⊢
  tauto

/-- C176. The text of a float, `inf` and `NaN` included, reads back as the float. -/
theorem C176_float (x : Flt) (hx : x.Valid) : Read.flt (Display.float x) = x := by
  cases x with
  | nan => rfl
  | inf s => cases s <;> rfl
  | fin neg n =>
    obtain ⟨a, b, h1, h2, h3, -, -, h4, -⟩ := C127_float_text neg n hx
    have hd : ∀ c ∈ a ++ b, isDigit c = true := fun c hc => by simpa [isDigit] using h2 c hc
    have hne : ∀ c ∈ a ++ b, c ≠ '.' ∧ c ≠ '-' ∧ c ≠ 'i' ∧ c ≠ 'N' := by
      intro c hc
      have := hd c hc
      refine ⟨?_, ?_, ?_, ?_⟩ <;> (rintro rfl; revert this; decide)
    obtain ⟨d, a', rfl⟩ := List.exists_cons_of_ne_nil h3
    have hd1 := hne d (by simp)
    have key : Read.fltAbs neg ((d :: a') ++ if b = [] then [] else '.' :: b) = .fin neg n := by
      have hsp := span_class (· != '.') (a := d :: a') (b := if b = [] then [] else '.' :: b)
        (fun c hc => by simpa using (hne c (List.mem_append_left _ hc)).1) (by split <;> simp)
      have htl : (if b = [] then [] else '.' :: b).tail = b := by
        split
        · rename_i h; rw [h]; rfl
        · rfl
      unfold Read.fltAbs
      rw [if_neg, if_neg]
      · simp only [hsp, htl]
        rw [number_eq_readNat, h4]
      · intro h
        simp only [List.cons_append] at h
        exact hd1.2.2.2 (by simpa using congrArg List.head? h)
      · intro h
        simp only [List.cons_append] at h
        exact hd1.2.2.1 (by simpa using congrArg List.head? h)
    rw [h1]
    cases neg with
    | true => exact key
    | false =>
      change (if _ then _ else _) = _
      rw [if_neg]
      · exact key
      · simp [hd1.2.1]

/-- A term as a float and exponents. -/
def fmonomOf (t : Term Flt) : Read.FMonom := (t.coef, fun i => t.mdeg.getD i 0)

theorem read_fterm (t : Term Flt) (ht : t.coef.Valid) {r : List Char} (hr : ∀ c ∈ r.head?, c = ' ') :
    Read.fterm (coefPartF t ++ Display.mdeg t.mdeg ++ r) = (fmonomOf t, r) := by
  have hch : ∀ c ∈ coefPartF t, Read.isFloat c = true := by
    intro c hc
    unfold coefPartF at hc
    split at hc
    · exact isFloat_of_isNumF (float_chars ht c hc)
    · split at hc
      · simp at hc
      · split at hc
        · simp at hc; subst hc; decide
        · exact isFloat_of_isNumF (float_chars ht c hc)
  have hsp := span_class Read.isFloat hch (b := Display.mdeg t.mdeg ++ r) (by
    intro c hc
    rcases head_mdeg _ _ hr c hc with h | rfl
    · exact (by decide : ∀ c ∈ ['x', 'y', 'z', 'u', 'v', 'w', ' '], Read.isFloat c = false) c h
    · decide)
  have hm := read_mdeg t.mdeg hr
  have h1 : Read.flt ['1'] = Flt.one := by fmt_decide
  have h2 : Read.flt ['-', '1'] = Flt.neg Flt.one := by fmt_decide
  have hc : (if coefPartF t = [] then Read.flt ['1'] else if coefPartF t = ['-'] then Read.flt ['-', '1']
      else Read.flt (coefPartF t)) = t.coef := by
    have hrat : (if Display.float t.coef = [] then Read.flt ['1'] else if Display.float t.coef = ['-']
        then Read.flt ['-', '1'] else Read.flt (Display.float t.coef)) = t.coef := by
      rw [if_neg (float_ne ht).1, if_neg (float_ne ht).2, C176_float _ ht]
    unfold coefPartF
    split
    · exact hrat
    · split
      · rename_i h; rw [h]; exact h1
      · split
        · rename_i h; rw [h]; exact h2
        · exact hrat
  unfold Read.fterm fmonomOf
  rw [List.append_assoc]
  simp only [hsp, hc, hm.2]
  congr 2
  funext i
  exact hm.1 i

theorem read_fterms {ts : List (Term Flt)} (hc : ∀ t ∈ ts, t.coef.Valid) (t : Term Flt) (ht : t.coef.Valid)
    {n : ℕ} (hn : ts.length < n) :
    Read.fterms n (coefPartF t ++ Display.mdeg t.mdeg ++ ts.flatMap restText) =
      fmonomOf t :: ts.map fmonomOf := by
  induction ts generalizing t n with
  | nil =>
    obtain ⟨n, rfl⟩ := Nat.exists_eq_succ_of_ne_zero (by omega : n ≠ 0)
    rw [Read.fterms, List.flatMap_nil, read_fterm t ht (by simp)]
    rfl
  | cons u us ih =>
    obtain ⟨n, rfl⟩ := Nat.exists_eq_succ_of_ne_zero (by omega : n ≠ 0)
    rw [List.length_cons] at hn
    have hu := hc u (by simp)
    rw [Read.fterms, read_fterm t ht (restText_head (u :: us)), List.flatMap_cons]
    dsimp only
    by_cases hneg : isSignNegative u.coef
    · rw [show restText u = ' ' :: '-' :: ' ' :: (coefPartF ⟨Flt.neg u.coef, u.mdeg⟩ ++ Display.mdeg u.mdeg)
        from if_pos hneg]
      have := ih (fun x hx => hc x (by simp [hx])) ⟨Flt.neg u.coef, u.mdeg⟩ (neg_validF hu) (n := n) (by omega)
      simp only [List.cons_append, List.append_assoc] at this ⊢
      rw [this, List.map_cons]
      congr 2
      simp only [Read.oppFirst, fmonomOf]
      obtain ⟨x, m⟩ := u
      cases x <;> simp [Flt.neg, Read.opposite]
    · rw [show restText u = ' ' :: '+' :: ' ' :: (coefPartF u ++ Display.mdeg u.mdeg) from if_neg hneg]
      have := ih (fun x hx => hc x (by simp [hx])) u hu (n := n) (by omega)
      simp only [List.cons_append, List.append_assoc] at this ⊢
      rw [this, List.map_cons]

/-- C176. The text of a nonempty `Polynomial<f64>` reads back as the list of its terms, and that of the
empty one as `0`. -/
theorem C176_poly (b : Build) (powi : Flt → ℤ → Flt) (p : Poly Flt) (hp : ∀ t ∈ p, t.coef.Valid) :
    ∃ s, Display.polyF64 b powi p = .ok s ∧
      Read.fpoly s = if p = [] then [(.fin false 0, fun _ => 0)] else
        p.map fun t => (t.coef, fun i => t.mdeg.getD i 0) := by
  cases p with
  | nil =>
    refine ⟨_, rfl, ?_⟩
    have := read_fterms (ts := []) (by simp) ⟨Flt.zero, []⟩ zero_valid (n := 2) (by simp)
    have h0 : coefPartF ⟨Flt.zero, []⟩ ++ Display.mdeg [] ++ [] = ['0'] := by rw [mdeg_nil]; fmt_decide
    simp only [List.flatMap_nil] at this
    rw [h0] at this
    rw [if_pos rfl, Read.fpoly]
    refine this.trans ?_
    simp [fmonomOf, Flt.zero]
  | cons t ts =>
    refine ⟨_, polyF64_eq b powi t ts, ?_⟩
    rw [if_neg (by simp)]
    have hlen : ts.length ≤ (ts.flatMap restText).length := by
      clear hp
      induction ts with
      | nil => simp
      | cons u us ih =>
        rw [List.flatMap_cons, List.length_append, List.length_cons]
        have : 0 < (restText u).length := by unfold restText; split <;> simp
        omega
    exact read_fterms (fun x hx => hp x (by simp [hx])) t (hp t (by simp))
      (by simp only [List.length_append]; omega)

/-- `0.1x² - y + inf` reads back. -/
example : ∃ s, Display.polyF64 .debug (fun x _ => x) [⟨.fin false (Flt.roundNat Flt.unit 10), [2]⟩,
    ⟨Flt.neg Flt.one, [0, 1]⟩, ⟨.inf false, []⟩] = .ok s ∧
    (Read.fpoly s).map Prod.fst =
      [.fin false (Flt.roundNat Flt.unit 10), Flt.neg Flt.one, .inf false] := by
  obtain ⟨s, h1, h2⟩ := C176_poly .debug (fun x _ => x) [⟨.fin false (Flt.roundNat Flt.unit 10), [2]⟩,
    ⟨Flt.neg Flt.one, [0, 1]⟩, ⟨.inf false, []⟩] (by
      intro t ht
      simp only [List.mem_cons, List.not_mem_nil, or_false] at ht
      rcases ht with rfl | rfl | rfl
      · exact ⟨by fmt_decide, by fmt_decide⟩
      · exact ⟨by fmt_decide, by fmt_decide⟩
      · trivial)
  exact ⟨s, h1, by rw [h2]; rfl⟩

end Verif
