import Verif.Proofs.Ord
import Verif.Props.MDeg

/-!
# Properties C20–C23: the monomial orders

All statements are about a build with overflow checks and quantify over the four orders
(`OrdKind`).  `k.Lt n` is the textbook order of kind `k` on exponent sequences (Proofs/Ord.lean):
`LexLt`, `RevLexLt`: the first (last) differing exponent decides; `GrLex`: smaller total degree, or
equal total degree and `LexLt`; `GRevLex`: smaller total degree, or equal total degree and the last
differing exponent is *larger*.  `TotalOk k a`: the total degree of `a` fits in a `u8`, required
only for the graded orders.
-/

namespace Verif
open Res

/-- The precondition for comparing without overflow: graded orders sum the exponents in a `u8`. -/
def TotalOk (k : OrdKind) (a : MDeg) : Prop := k.graded = true → a.sum ≤ 255

/-! ## C20 -/

/-- C20. Each comparison answers exactly as the textbook order. -/
theorem C20_textbook (k : OrdKind) (n : ℕ) (a b : MDeg) (ha : a.Clean) (hb : b.Clean)
    (hal : a.length ≤ n) (hbl : b.length ≤ n) (hat : TotalOk k a) (hbt : TotalOk k b) :
    ((k.order .debug).cmp a b = .ok .lt ↔ k.Lt n a.deg b.deg) ∧
    ((k.order .debug).cmp a b = .ok .eq ↔ a.deg = b.deg) ∧
    ((k.order .debug).cmp a b = .ok .gt ↔ k.Lt n b.deg a.deg) := by
  have hs := cmp_spec k ha hb hal hbl
  have hE : ∀ p, ¬ (p = Panic.overflowU8 ∧ k.graded ∧ (256 ≤ a.sum ∨ 256 ≤ b.sum)) := by
    rintro p ⟨_, hg, h⟩
    have := hat hg; have := hbt hg; omega
  obtain ⟨o, ho, hm⟩ := (hs.mono (fun p hp => hE p hp) fun _ h => h).total
  rw [ho]
  have key : ∀ o' : Ordering, (Res.ok o = Res.ok o' ↔ CmpMeans n k a b o') := fun o' =>
    ⟨fun h => by cases h; exact hm, fun h => by rw [CmpMeans.unique hm h]⟩
  refine ⟨key .lt, (key .eq).trans ⟨?_, ?_⟩, key .gt⟩
  · rintro rfl; rfl
  · intro h; exact MDeg.ext_deg ha.last hb.last (congrFun h)

/-- C20. Outside that precondition the graded orders panic. -/
theorem C20_graded_panics (k : OrdKind) (hk : k.graded = true) (a b : MDeg)
    (h : 255 < a.sum ∨ 255 < b.sum) : (k.order .debug).cmp a b = .panic .overflowU8 := by
  have : MOrder.grad .debug a b = .panic .overflowU8 := by
    unfold MOrder.grad
    rw [MDeg.totalDeg_eq, MDeg.totalDeg_eq]
    split
    · rw [if_neg (by omega)]; rfl
    · rfl
  cases k <;> simp [OrdKind.graded] at hk
  · change (MOrder.grad .debug a b >>= _) = _; rw [this]; rfl
  · change (MOrder.grad .debug a b >>= _) = _; rw [this]; rfl

example : MDeg.Clean [1, 2] ∧ MDeg.Clean [0, 0, 3] ∧ TotalOk .gRevLex [1, 2] ∧
    TotalOk .gRevLex [0, 0, 3] ∧
    (OrdKind.gRevLex.order .debug).cmp [1, 2] [0, 0, 3] = .ok .gt ∧
    (OrdKind.grLex.order .debug).cmp [1, 2] [0, 0, 3] = .ok .gt ∧
    (OrdKind.revLex.order .debug).cmp [1, 2] [0, 0, 3] = .ok .lt := by
  refine ⟨by decide, by decide, fun _ => by decide, fun _ => by decide, ?_⟩
  decide

/-- Without overflow checks a graded order can order multidegrees against their total degrees, and
even put a multiple below its divisor. -/
theorem C20_release_wraps :
    (OrdKind.grLex.order .release).cmp [200, 100] [200] = .ok .lt ∧
    (OrdKind.gRevLex.order .release).cmp [200, 100] [200] = .ok .lt := by decide

/-! ## C21 -/

/-- C21. Each comparison is a total order: `Equal` only on equal multidegrees, antisymmetric, and
transitive. -/
theorem C21_total_order (k : OrdKind) (a b c : MDeg) (ha : a.Clean) (hb : b.Clean) (hc : c.Clean)
    (hat : TotalOk k a) (hbt : TotalOk k b) (hct : TotalOk k c) :
    (∃ o, (k.order .debug).cmp a b = .ok o ∧ (k.order .debug).cmp b a = .ok o.swap ∧
      (o = .eq ↔ a = b)) ∧
    ((k.order .debug).cmp a b = .ok .lt → (k.order .debug).cmp b c = .ok .lt →
      (k.order .debug).cmp a c = .ok .lt) := by
  let n := a.length + b.length + c.length
  obtain ⟨ab1, ab2, ab3⟩ := C20_textbook k n a b ha hb (by omega) (by omega) hat hbt
  obtain ⟨ba1, ba2, ba3⟩ := C20_textbook k n b a hb ha (by omega) (by omega) hbt hat
  obtain ⟨bc1, -, -⟩ := C20_textbook k n b c hb hc (by omega) (by omega) hbt hct
  obtain ⟨ac1, -, -⟩ := C20_textbook k n a c ha hc (by omega) (by omega) hat hct
  have van : ∀ m : MDeg, m.length ≤ n → ∀ i, n ≤ i → m.deg i = 0 := fun m hm i hi =>
    MDeg.deg_of_length_le (by omega)
  refine ⟨?_, fun h1 h2 => ac1.mpr ((ab1.mp h1).trans (bc1.mp h2))⟩
  rcases OrdKind.Lt.tri k (van a (by omega)) (van b (by omega)) with h | h | h
  · refine ⟨.lt, ab1.mpr h, ba3.mpr h, by simp, ?_⟩
    rintro rfl; exact absurd h (OrdKind.Lt.irrefl k _)
  · refine ⟨.eq, ab2.mpr h, ba2.mpr h.symm, fun _ => ?_, fun _ => rfl⟩
    exact MDeg.ext_deg ha.last hb.last (congrFun h)
  · refine ⟨.gt, ab3.mpr h, ba1.mpr h, by simp, ?_⟩
    rintro rfl; exact absurd h (OrdKind.Lt.irrefl k _)

example : (OrdKind.lex.order .debug).cmp [0, 2] [1] = .ok .lt ∧
    (OrdKind.lex.order .debug).cmp [1] [1, 1] = .ok .lt ∧
    (OrdKind.lex.order .debug).cmp [0, 2] [1, 1] = .ok .lt := by decide

/-! ## C22 -/

/-- C22. Multiplying both sides by the same monomial does not change the answer of a comparison,
and the zero multidegree is below every other one. -/
theorem C22_multiplicative (k : OrdKind) (a b c a' b' : MDeg) (ha : a.Clean) (hb : b.Clean)
    (hc : c.Clean) (ha' : MDeg.add .debug a c = .ok a') (hb' : MDeg.add .debug b c = .ok b')
    (hat : TotalOk k a') (hbt : TotalOk k b') :
    (k.order .debug).cmp a' b' = (k.order .debug).cmp a b ∧
    (a ≠ MDeg.zero → TotalOk k a → (k.order .debug).cmp MDeg.zero a = .ok .lt) := by
  obtain ⟨ca, da⟩ := (C16_add a c ha hc).1 a' ha'
  obtain ⟨cb, db⟩ := (C16_add b c hb hc).1 b' hb'
  have le_of : ∀ x x' : MDeg, (∀ i, x'.deg i = x.deg i + c.deg i) → x.sum ≤ x'.sum := by
    intro x x' h
    rw [MDeg.sum_eq_sum_deg x (x.length + x'.length) (by omega),
      MDeg.sum_eq_sum_deg x' (x.length + x'.length) (by omega)]
    exact List.sum_le_sum fun i _ => by rw [h]; omega
  have hat0 : TotalOk k a := fun hg => (le_of a a' da).trans (hat hg)
  have hbt0 : TotalOk k b := fun hg => (le_of b b' db).trans (hbt hg)
  let n := a.length + b.length + a'.length + b'.length
  obtain ⟨ab1, ab2, ab3⟩ := C20_textbook k n a b ha hb (by omega) (by omega) hat0 hbt0
  obtain ⟨ab1', ab2', ab3'⟩ := C20_textbook k n a' b' ca cb (by omega) (by omega) hat hbt
  have ea : a'.deg = a.deg + c.deg := funext da
  have eb : b'.deg = b.deg + c.deg := funext db
  have van : ∀ m : MDeg, m.length ≤ n → ∀ i, n ≤ i → m.deg i = 0 := fun m hm i hi =>
    MDeg.deg_of_length_le (by omega)
  constructor
  · rcases OrdKind.Lt.tri k (van a (by omega)) (van b (by omega)) with h | h | h
    · rw [ab1.mpr h, ab1'.mpr (by rw [ea, eb]; exact h.add _)]
    · rw [ab2.mpr h, ab2'.mpr (by rw [ea, eb, h])]
    · rw [ab3.mpr h, ab3'.mpr (by rw [ea, eb]; exact h.add _)]
  · intro hne ht
    obtain ⟨z1, -, -⟩ := C20_textbook k n MDeg.zero a MDeg.zero_clean ha (by simp [MDeg.zero])
      (by omega) (fun _ => by simp [MDeg.zero]) ht
    have e0 : MDeg.deg MDeg.zero = 0 := by funext i; simp [MDeg.zero]
    rw [z1, e0]
    rcases OrdKind.Lt.tri k (n := n) (f := 0) (fun _ _ => rfl) (van a (by omega)) with h | h | h
    · exact h
    · refine absurd (MDeg.ext_deg ha.last MDeg.zero_clean.last fun i => ?_) hne
      rw [e0, h]
    · exact absurd h (OrdKind.not_lt_zero k (van a (by omega)))

example : MDeg.add .debug [0, 2] [1, 1] = .ok [1, 3] ∧ MDeg.add .debug [1] [1, 1] = .ok [2, 1] ∧
    TotalOk .grLex [1, 3] ∧ TotalOk .grLex [2, 1] :=
  ⟨by decide, by decide, fun _ => by decide, fun _ => by decide⟩

/-! ## C23 -/

/-- C23. In `n` variables there is no infinite strictly descending sequence, for any of the four
orders. -/
theorem C23_well_order (k : OrdKind) (n : ℕ) (m : ℕ → MDeg) (hc : ∀ i, (m i).Clean)
    (hl : ∀ i, (m i).length ≤ n) :
    ¬ ∀ i, (k.order .debug).cmp (m (i + 1)) (m i) = .ok .lt := by
  intro h
  have hlt : ∀ i, k.Lt n (m (i + 1)).deg (m i).deg := fun i =>
    (cmp_spec k (hc _) (hc _) (hl _) (hl _)).of_ok (h i)
  let f : ℕ → (Fin n →₀ ℕ) := fun i => Finsupp.equivFunOnFinite.symm fun j => (m i).deg j
  have ef : ∀ i, extend (f i) = (m i).deg := by
    intro i
    funext j
    simp only [extend, f]
    split
    · simp
    · exact (MDeg.deg_of_length_le (by have := hl i; omega)).symm
  have hdesc : ∀ i, (k.mathlib n).toSyn (f (i + 1)) < (k.mathlib n).toSyn (f i) := fun i => by
    rw [OrdKind.mathlib_lt, ef, ef]; exact hlt i
  have wf : WellFounded ((· < ·) : (k.mathlib n).syn → _ → Prop) := wellFounded_lt
  rw [RelEmbedding.wellFounded_iff_isEmpty] at wf
  exact wf.false (RelEmbedding.natGT (fun i => (k.mathlib n).toSyn (f i)) hdesc)

/-- The bound on the number of variables is needed: `x_0 > x_1 > x_2 > ...` in `Lex`. -/
theorem C23_bound_needed (i : ℕ) :
    (OrdKind.lex.order .debug).cmp (MDeg.var (i + 1) 1) (MDeg.var i 1) = .ok .lt := by
  have h : ∀ i, MOrder.lexCmp (List.replicate (i + 1) 0 ++ [1]) (List.replicate i 0 ++ [1]) = .lt := by
    intro i
    induction i with
    | zero => decide
    | succ i ih =>
      rw [List.replicate_succ, List.replicate_succ (n := i), List.cons_append, List.cons_append,
        MOrder.lexCmp]
      exact ih
  exact congrArg Res.ok (h i)

end Verif
