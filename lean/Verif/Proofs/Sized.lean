import Verif.Proofs.LUError

/-!
# Elimination with bounds on the entries

`Mat.Each M n m B`: the entry of `M` in row `i` and column `j` satisfies `B i j`.  The rules for the row
operations ask only for what the operation on two entries does.
-/

namespace Verif
open Res LinAlg

namespace Mat
variable {F : Type} [RField F] {M : Mat F} {n m : ℕ} {B : ℕ → ℕ → F → Prop} {E : Panic → Prop}

/-- `M` is an `n × m` matrix whose entry in row `i` and column `j` satisfies `B i j`. -/
def Each (M : Mat F) (n m : ℕ) (B : ℕ → ℕ → F → Prop) : Prop :=
  ∃ a, M.Has n m a ∧ ∀ i j, i < n → j < m → B i j (a i j)

omit [RField F] in
theorem Each.imp (h : M.Each n m B) {B' : ℕ → ℕ → F → Prop}
    (hB : ∀ i j x, i < n → j < m → B i j x → B' i j x) : M.Each n m B' := by
  obtain ⟨a, h1, h2⟩ := h
  exact ⟨a, h1, fun i j hi hj => hB i j _ hi hj (h2 i j hi hj)⟩

theorem Each.shape (h : M.Each n m B) : M.Shape n m := by
  obtain ⟨a, h1, -⟩ := h
  exact h1.shape

theorem Each.get (h : M.Each n m B) {i j : ℕ} (hi : i < n) (hj : j < m) :
    Spec E (M.get i j) (B i j) := by
  obtain ⟨a, h1, h2⟩ := h
  rw [h1.get hi hj]
  exact h2 i j hi hj

theorem Each.set (h : M.Each n m B) {i j : ℕ} {y : F} (hi : i < n) (hj : j < m)
    {B' : ℕ → ℕ → F → Prop} (hy : B' i j y)
    (hB : ∀ i' j' x, ¬ (i' = i ∧ j' = j) → B i' j' x → B' i' j' x) :
    Spec E (M.set i j y) (fun M' => M'.Each n m B') := by
  obtain ⟨a, h1, h2⟩ := h
  refine (h1.set_spec hi hj).imp fun M' hM' => ⟨_, hM', fun i' j' hi' hj' => ?_⟩
  split
  · rename_i h; rw [h.1, h.2]; exact hy
  · rename_i h; exact hB i' j' _ h (h2 i' j' hi' hj')

theorem Each.scaleRow (h : M.Each n m B) {r : ℕ} {s : F} {Q : F → Prop} (hr : r < n)
    (hQ : ∀ j x, j < m → B r j x → Spec E (RField.mul s x) Q) :
    Spec E (M.scaleRow r s) (fun M' => M'.Each n m (fun i j => if i = r then Q else B i j)) := by
  unfold Mat.scaleRow
  rw [h.shape.cols]
  refine Spec.imp (foldlM_range_spec (fun k (M' : Mat F) => M'.Each n m
    (fun i j => if i = r ∧ j < k then Q else B i j)) ?_ ?_) fun M' hM' =>
      hM'.imp fun i j x _ hj => by simp [hj]
  · exact h.imp fun i j x _ _ => by simp
  · intro k M' hk hM'
    refine (hM'.get hr hk).bind fun x hx => ?_
    simp only [lt_irrefl, and_false, if_false] at hx
    refine (hQ k x hk hx).bind fun y hy => ?_
    refine hM'.set hr hk (by simpa using hy) fun i' j' z hne hz => ?_
    by_cases h1 : i' = r ∧ j' < k
    · rw [if_pos h1] at hz; rw [if_pos ⟨h1.1, by omega⟩]; exact hz
    · rw [if_neg h1] at hz; rw [if_neg (by omega)]; exact hz

theorem Each.replaceRow (h : M.Each n m B) {s t : ℕ} {c : F} {Q : F → Prop} (hs : s < n) (ht : t < n)
    (hst : s ≠ t)
    (hQ : ∀ j x y, j < m → B t j x → B s j y →
      Spec E (RField.mul y c >>= fun z => RField.add x z) Q) :
    Spec E (M.replaceRow s t c) (fun M' => M'.Each n m (fun i j => if i = t then Q else B i j)) := by
  unfold Mat.replaceRow
  rw [h.shape.cols]
  refine Spec.imp (foldlM_range_spec (fun k (M' : Mat F) => M'.Each n m
    (fun i j => if i = t ∧ j < k then Q else B i j)) ?_ ?_) fun M' hM' =>
      hM'.imp fun i j x _ hj => by simp [hj]
  · exact h.imp fun i j x _ _ => by simp
  · intro k M' hk hM'
    refine (hM'.get ht hk).bind fun x hx => ?_
    refine (hM'.get hs hk).bind fun y hy => ?_
    simp only [lt_irrefl, and_false, if_false] at hx
    rw [if_neg (by tauto)] at hy
    have := (hQ k x y hk hx hy).bind (f := fun w => M'.set t k w)
      (P := Q) (Q := fun M' => M'.Each n m (fun i j => if i = t ∧ j < k + 1 then Q else B i j))
      fun w hw => hM'.set ht hk (by simpa using hw) fun i' j' z hne hz => ?_
    · simpa only [bind_assoc] using this
    by_cases h1 : i' = t ∧ j' < k
    · rw [if_pos h1] at hz; rw [if_pos ⟨h1.1, by omega⟩]; exact hz
    · rw [if_neg h1] at hz; rw [if_neg (by omega)]; exact hz

theorem Each.permuteRows (h : M.Each n m B) {s t : ℕ} (hs : s < n) (ht : t < n) :
    Spec E (M.permuteRows s t) (fun M' => M'.Each n m (fun i j => B (Equiv.swap s t i) j)) := by
  obtain ⟨a, h1, h2⟩ := h
  exact (h1.permuteRows hs ht).imp fun M' hM' =>
    ⟨_, hM', fun i j hi hj => h2 _ _ (swap_lt hs ht hi) hj⟩

end Mat

/-! ### Pivots -/

section pivot
variable {F : Type} [RField F] [EpsilonEquality F] [StabilityCmp F] {E : Panic → Prop}

omit [RField F] [EpsilonEquality F] in
theorem getMaxIndex_each {P : F → Prop}
    (hP : ∀ x y, P x → P y → Spec E (StabilityCmp.stabilityCmp x y) (fun o => o ≠ none))
    (l : List F) (hl : l ≠ []) (h : ∀ x ∈ l, P x) :
    Spec E (getMaxIndex l StabilityCmp.stabilityCmp) (fun i => i < l.length) := by
  obtain ⟨x, xs, rfl⟩ := List.exists_cons_of_ne_nil hl
  have hz : ((x :: xs).zipIdx.map fun (x, i) => (i, x)) =
      (0, x) :: (xs.zipIdx 1).map fun (x, i) => (i, x) := by simp [List.zipIdx_cons]
  unfold getMaxIndex
  rw [hz, maxBy]
  refine Spec.bind (P := fun o => ∃ b : ℕ × F, o = some b ∧ b.1 < (x :: xs).length) ?_ ?_
  · refine Spec.map ((foldlM_spec (fun _ (b : ℕ × F) => b.1 < (x :: xs).length ∧ P b.2)
      ⟨by simp, h x (by simp)⟩ ?_).imp fun b hb => ⟨b, rfl, hb.1⟩)
    rintro done ⟨i, y⟩ rest ⟨bi, bx⟩ heq ⟨h1, h2⟩
    have hi : (i, y) ∈ (xs.zipIdx 1).map fun (x, i) => (i, x) := by rw [heq]; simp
    simp only [List.mem_map, Prod.mk.injEq] at hi
    obtain ⟨⟨y', i'⟩, hm, rfl, rfl⟩ := hi
    have hil : i' < (x :: xs).length := by
      have := List.snd_lt_of_mem_zipIdx hm
      simpa [Nat.add_comm] using this
    have hy : P y' := h y' (List.mem_cons_of_mem _ (List.fst_mem_of_mem_zipIdx hm))
    refine Spec.bind (P := fun _ => True) ?_ ?_
    · refine (hP bx y' h2 hy).bind ?_
      rintro (_ | r) hr
      · exact absurd rfl hr
      · trivial
    · rintro (_ | _ | _) _
      · exact ⟨hil, hy⟩
      · exact ⟨hil, hy⟩
      · exact ⟨h1, h2⟩
  · rintro _ ⟨b, rfl, hb⟩
    exact hb

theorem Mat.Each.getStable {M : Mat F} {n m c r : ℕ} {B : ℕ → ℕ → F → Prop} {P : F → Prop}
    (h : M.Each n m B) (hc : c < m) (hr : r < n)
    (hE : ∀ x y : F, Spec E (EpsilonEquality.epsilonEquals x y) (fun _ => True))
    (hP : ∀ x y, P x → P y → Spec E (StabilityCmp.stabilityCmp x y) (fun o => o ≠ none))
    (hB : ∀ i x, r ≤ i → i < n → B i c x → P x) :
    Spec E (M.getStable c r) (fun o => match o with
      | none => True
      | some (i, s) => r ≤ i ∧ i < n ∧ B i c s ∧
          EpsilonEquality.epsilonEquals s (RField.zero : F) = .ok false) := by
  obtain ⟨a, h1, h2⟩ := h
  unfold Mat.getStable
  rw [h1.getColIter hc, bind_ok]
  refine (getMaxIndex_each hP _ ?_ ?_).bind fun k hk => ?_
  · rw [← List.length_pos_iff]; simp; omega
  · intro x hx
    rw [List.mem_iff_getElem] at hx
    obtain ⟨i, hi, rfl⟩ := hx
    simp only [List.length_drop, List.length_map, List.length_range] at hi
    simp only [List.getElem_drop, List.getElem_map, List.getElem_range]
    exact hB (r + i) _ (by omega) (by omega) (h2 _ _ (by omega) hc)
  · have hk' : k + r < n := by simp at hk; omega
    dsimp only
    rw [h1.get hk' hc, bind_ok]
    cases hb : (EpsilonEquality.epsilonEquals (a (k + r) c) (RField.zero : F)) with
    | panic p => have := hE (a (k + r) c) (RField.zero : F); rw [hb] at this; exact this
    | diverge => have := hE (a (k + r) c) (RField.zero : F); rw [hb] at this; exact this
    | ok b =>
      rw [bind_ok]
      cases b with
      | true => trivial
      | false => exact ⟨by omega, hk', h2 _ _ hk' hc, hb⟩

omit [StabilityCmp F] in
theorem Mat.Has.firstNonzero_of {M : Mat F} {n m r : ℕ} {a : ℕ → ℕ → F} (h : M.Has n m a)
    (hE : ∀ x y : F, Spec E (EpsilonEquality.epsilonEquals x y) (fun _ => True)) (hr : r < n) :
    Spec E (M.firstNonzero r) (fun o => ∀ c, o = some c → c < m) := by
  unfold Mat.firstNonzero Mat.getRow
  rw [h.getRowIter hr, bind_ok]
  change Spec E (Mat.position _ ((List.range m).map fun j => a r j)) _
  have key : ∀ (l : List F), Spec E (Mat.position (fun x => do
      let b ← EpsilonEquality.epsilonEquals x (RField.zero : F); pure !b) l)
      (fun o => ∀ c, o = some c → c < l.length) := by
    intro l
    induction l with
    | nil => intro c hc; cases hc
    | cons x xs ih =>
      rw [Mat.position]
      cases hb : (EpsilonEquality.epsilonEquals x (RField.zero : F)) with
      | panic p => have := hE x (RField.zero : F); rw [hb] at this; exact this
      | diverge => have := hE x (RField.zero : F); rw [hb] at this; exact this
      | ok b =>
        rw [bind_ok]
        cases b with
        | false => intro c hc; cases hc; simp
        | true =>
          refine ih.bind fun o ho => ?_
          intro c hc
          cases o with
          | none => cases hc
          | some c' => cases hc; simpa using ho c' rfl
  refine (key _).imp fun o ho c hc => ?_
  simpa using ho c hc

end pivot

/-! ### Arithmetic with bounds -/

/-- `size p q x`: `x` is a fraction with numerator at most `p` and denominator at most `q`.
Operations return if the bounds of the result are below `L`. -/
structure Sizes (F : Type) [RField F] [EpsilonEquality F] [StabilityCmp F] (E : Panic → Prop)
    (L : ℕ) where
  size : ℕ → ℕ → F → Prop
  mono : ∀ {p q p' q' x}, size p q x → p ≤ p' → q ≤ q' → size p' q' x
  zero : size 1 1 RField.zero
  one : size 1 1 RField.one
  mul : ∀ {p q p' q' x y}, size p q x → size p' q' y → p * p' < L → q * q' < L →
    Spec E (RField.mul x y) (size (p * p') (q * q'))
  add : ∀ {p q p' q' x y}, size p q x → size p' q' y → p * q' + p' * q < L → q * q' < L →
    Spec E (RField.add x y) (size (p * q' + p' * q) (q * q'))
  neg : ∀ {p q x}, size p q x → p < L → q < L → Spec E (RField.sub RField.zero x) (size p q)
  recip : ∀ {p q x}, size p q x → p < L → q < L →
    EpsilonEquality.epsilonEquals x (RField.zero : F) = .ok false →
    Spec E (RField.div RField.one x) (size q p)
  eps : ∀ x y : F, Spec E (EpsilonEquality.epsilonEquals x y) (fun _ => True)
  stab : ∀ {p q x y}, size p q x → size p q y → p + q < L →
    Spec E (StabilityCmp.stabilityCmp x y) (fun o => o ≠ none)

/-- The bounds on numerators and denominators after `k` pivots. -/
def elimBound (p q : ℕ) : ℕ → ℕ × ℕ
  | 0 => (p, q)
  | k + 1 => let (p, q) := elimBound p q k; (2 * p ^ 2 * q ^ 2, p * q ^ 3)

/-- The bound on the entries of the `k`th row of an echelon form. -/
def rowBound (p q k : ℕ) : ℕ := (elimBound p q k).1 * (elimBound p q k).2

theorem elimBound_pos {p q : ℕ} (hp : 0 < p) (hq : 0 < q) (k : ℕ) :
    0 < (elimBound p q k).1 ∧ 0 < (elimBound p q k).2 := by
  induction k with
  | zero => exact ⟨hp, hq⟩
  | succ k ih =>
    obtain ⟨h1, h2⟩ := ih
    simp only [elimBound]
    constructor <;> positivity

theorem elimBound_step {p q : ℕ} (hp : 0 < p) (hq : 0 < q) (k : ℕ) :
    (elimBound p q k).1 ≤ rowBound p q k ∧ (elimBound p q k).2 ≤ rowBound p q k ∧
    rowBound p q k ≤ (elimBound p q (k + 1)).1 ∧ rowBound p q k ≤ (elimBound p q (k + 1)).2 := by
  obtain ⟨h1, h2⟩ := elimBound_pos hp hq k
  unfold rowBound
  simp only [elimBound]
  generalize (elimBound p q k).1 = a at *
  generalize (elimBound p q k).2 = b at *
  refine ⟨Nat.le_mul_of_pos_right _ h2, Nat.le_mul_of_pos_left _ h1, ?_, ?_⟩
  · calc a * b ≤ a * b * (2 * a * b) := Nat.le_mul_of_pos_right _ (by positivity)
      _ = 2 * a ^ 2 * b ^ 2 := by ring
  · calc a * b ≤ a * b * b ^ 2 := Nat.le_mul_of_pos_right _ (by positivity)
      _ = a * b ^ 3 := by ring

theorem elimBound_mono {p q : ℕ} (hp : 0 < p) (hq : 0 < q) {k l : ℕ} (h : k ≤ l) :
    (elimBound p q k).1 ≤ (elimBound p q l).1 ∧ (elimBound p q k).2 ≤ (elimBound p q l).2 := by
  induction h with
  | refl => exact ⟨le_rfl, le_rfl⟩
  | step _ ih =>
    rename_i l _
    obtain ⟨h1, h2, h3, h4⟩ := elimBound_step hp hq l
    exact ⟨ih.1.trans (h1.trans h3), ih.2.trans (h2.trans h4)⟩

theorem rowBound_mono {p q : ℕ} (hp : 0 < p) (hq : 0 < q) {k l : ℕ} (h : k ≤ l) :
    rowBound p q k ≤ rowBound p q l :=
  Nat.mul_le_mul (elimBound_mono hp hq h).1 (elimBound_mono hp hq h).2

theorem rowBound_pos {p q : ℕ} (hp : 0 < p) (hq : 0 < q) (k : ℕ) : 0 < rowBound p q k :=
  Nat.mul_pos (elimBound_pos hp hq k).1 (elimBound_pos hp hq k).2

theorem bounds_lt {p q n m r L : ℕ} (hp : 0 < p) (hq : 0 < q)
    (hL : rowBound p q (min (n - 1) m) + 1 < L) (hrn : r < n) (hrm : r < m) :
    rowBound p q r + 1 < L ∧
    (r + 1 < n → (elimBound p q (r + 1)).1 < L ∧ (elimBound p q (r + 1)).2 < L) ∧
    (elimBound p q r).1 + (elimBound p q r).2 < L := by
  have hA : rowBound p q r + 1 < L := by
    have := rowBound_mono hp hq (show r ≤ min (n - 1) m by omega)
    omega
  obtain ⟨e1, e2⟩ := elimBound_pos hp hq r
  refine ⟨hA, fun hlt => ?_, ?_⟩
  · obtain ⟨c1, c2, -, -⟩ := elimBound_step hp hq (r + 1)
    have := rowBound_mono hp hq (show r + 1 ≤ min (n - 1) m by omega)
    omega
  · have : (elimBound p q r).1 + (elimBound p q r).2 ≤ rowBound p q r + 1 := by
      unfold rowBound
      generalize (elimBound p q r).1 = a at *
      generalize (elimBound p q r).2 = b at *
      nlinarith
    omega

section elim
variable {F : Type} [RField F] [EpsilonEquality F] [StabilityCmp F] {E : Panic → Prop} {L : ℕ}

/-- The bounds on the rows when the first `r` pivots are done. -/
def Sizes.rows (S : Sizes F E L) (p q r : ℕ) (i _ : ℕ) : F → Prop :=
  if i < r then S.size (rowBound p q i) (rowBound p q i)
  else S.size (elimBound p q r).1 (elimBound p q r).2

/-- The bounds on the parts of a form when the first `r` pivots are done. -/
structure Form.Sized (S : Sizes F E L) (p q : ℕ) (f : Form F) (M : Mat F) (n m r : ℕ) : Prop where
  original : f.original = M
  p_each : f.p.Each n n (S.rows p q r)
  b_each : f.b.Each n m (S.rows p q r)

theorem Sizes.rows_swap (S : Sizes F E L) {p q r s i : ℕ} (hs : r ≤ s) (j : ℕ) :
    S.rows p q r (Equiv.swap r s i) j = S.rows p q r i j := by
  unfold Sizes.rows
  by_cases hi : i < r
  · rw [swap_of_lt hs hi]
  · rw [if_neg (by have := swap_ge hs (by omega : r ≤ i); omega), if_neg hi]

/-- The bounds while row `k` is being reduced with pivot row `r`. -/
def Sizes.mid (S : Sizes F E L) (p q r k : ℕ) (i _ : ℕ) : F → Prop :=
  if i ≤ r then S.size (rowBound p q i) (rowBound p q i)
  else if i < k then S.size (elimBound p q (r + 1)).1 (elimBound p q (r + 1)).2
  else S.size (elimBound p q r).1 (elimBound p q r).2

/-- The sum of an entry and a multiple of the pivot row. -/
theorem Sizes.replace (S : Sizes F E L) {p q r : ℕ} (hp : 0 < p) (hq : 0 < q)
    (h1 : (elimBound p q (r + 1)).1 < L) (h2 : (elimBound p q (r + 1)).2 < L) {x y c : F}
    (hx : S.size (elimBound p q r).1 (elimBound p q r).2 x)
    (hy : S.size (rowBound p q r) (rowBound p q r) y)
    (hc : S.size (elimBound p q r).1 (elimBound p q r).2 c) :
    Spec E (RField.mul y c >>= fun z => RField.add x z)
      (S.size (elimBound p q (r + 1)).1 (elimBound p q (r + 1)).2) := by
  obtain ⟨ha, hb⟩ := elimBound_pos hp hq r
  unfold rowBound at hy
  simp only [elimBound] at *
  generalize (elimBound p q r).1 = a at *
  generalize (elimBound p q r).2 = b at *
  have e1 : a * (a * b * b) + a * b * a * b = 2 * a ^ 2 * b ^ 2 := by ring
  have e2 : b * (a * b * b) = a * b ^ 3 := by ring
  have l1 : a * b * a ≤ 2 * a ^ 2 * b ^ 2 := by
    calc a * b * a ≤ a * b * a * (2 * b) := Nat.le_mul_of_pos_right _ (by positivity)
      _ = _ := by ring
  have l2 : a * b * b ≤ a * b ^ 3 := by
    calc a * b * b ≤ a * b * b * b := Nat.le_mul_of_pos_right _ hb
      _ = _ := by ring
  refine (S.mul hy hc (by omega) (by omega)).bind fun z hz => ?_
  refine (S.add hx hz (by rw [e1]; exact h1) (by rw [e2]; exact h2)).imp fun w hw => ?_
  rwa [e1, e2] at hw

theorem Mat.Each.scaleSized (S : Sizes F E L) {M : Mat F} {n m r p q : ℕ} {w : F}
    (h : M.Each n m (S.rows p q r)) (hr : r < n) (hL : rowBound p q r < L)
    (hw : S.size (elimBound p q r).2 (elimBound p q r).1 w) :
    Spec E (M.scaleRow r w) (fun M' => M'.Each n m (S.mid p q r (r + 1))) := by
  refine (h.scaleRow (Q := S.size (rowBound p q r) (rowBound p q r)) hr fun j x hj hx => ?_).imp
    fun M' h' => h'.imp fun i j x hi hj hx => ?_
  · unfold Sizes.rows at hx
    rw [if_neg (lt_irrefl r)] at hx
    refine (S.mul hw hx (by rw [mul_comm]; exact hL) hL).imp fun z hz => ?_
    unfold rowBound
    rwa [mul_comm (elimBound p q r).2] at hz
  · unfold Sizes.mid
    by_cases hir : i = r
    · subst hir; rw [if_pos rfl] at hx; rwa [if_pos le_rfl]
    · rw [if_neg hir] at hx
      unfold Sizes.rows at hx
      by_cases hlt : i < r
      · rw [if_pos hlt] at hx; rwa [if_pos hlt.le]
      · rw [if_neg hlt] at hx; rwa [if_neg (by omega), if_neg (by omega)]

theorem Mat.Each.replaceSized (S : Sizes F E L) {M : Mat F} {n m r k p q : ℕ} {w : F}
    (hp : 0 < p) (hq : 0 < q) (h : M.Each n m (S.mid p q r k)) (hr : r < k) (hk : k < n)
    (h1 : (elimBound p q (r + 1)).1 < L) (h2 : (elimBound p q (r + 1)).2 < L)
    (hw : S.size (elimBound p q r).1 (elimBound p q r).2 w) :
    Spec E (M.replaceRow r k w) (fun M' => M'.Each n m (S.mid p q r (k + 1))) := by
  refine (h.replaceRow (Q := S.size (elimBound p q (r + 1)).1 (elimBound p q (r + 1)).2)
    (by omega) hk (by omega) fun j x y hj hx hy => ?_).imp
    fun M' h' => h'.imp fun i j x hi hj hx => ?_
  · unfold Sizes.mid at hx hy
    rw [if_neg (by omega), if_neg (by omega)] at hx
    rw [if_pos le_rfl] at hy
    exact S.replace hp hq h1 h2 hx hy hw
  · unfold Sizes.mid at hx ⊢
    by_cases hik : i = k
    · subst hik; rw [if_pos rfl] at hx; rwa [if_neg (by omega), if_pos (by omega)]
    · rw [if_neg hik] at hx
      by_cases hir : i ≤ r
      · rw [if_pos hir] at hx; rwa [if_pos hir]
      · rw [if_neg hir] at hx; rw [if_neg hir]
        by_cases hlt : i < k
        · rw [if_pos hlt] at hx; rwa [if_pos (by omega)]
        · rw [if_neg hlt] at hx; rwa [if_neg (by omega)]

theorem Sizes.mid_end (S : Sizes F E L) {p q r n i j : ℕ} {x : F} (hi : i < n)
    (h : S.mid p q r n i j x) : S.rows p q (r + 1) i j x := by
  unfold Sizes.mid at h
  unfold Sizes.rows
  by_cases hir : i ≤ r
  · rw [if_pos hir] at h; rwa [if_pos (by omega)]
  · rw [if_neg hir, if_pos hi] at h; rwa [if_neg (by omega)]

theorem Mat.rowEchelonFor_sized (S : Sizes F E L) {p q : ℕ} (hp : 0 < p) (hq : 0 < q) {M : Mat F}
    {n m : ℕ} (hL : rowBound p q (min (n - 1) m) + 1 < L) (k c r : ℕ) {f : Form F}
    (hcl : c + k ≤ m) (hrc : r ≤ c) (hrn : r ≤ n) (h : f.Sized S p q M n m r) :
    Spec E (Mat.rowEchelonFor n (List.range' c k) r f)
      (fun f' => ∃ r', r' ≤ n ∧ f'.Sized S p q M n m r') := by
  induction k generalizing c f r with
  | zero => exact ⟨r, hrn, h⟩
  | succ k ih =>
    rw [List.range'_succ, Mat.rowEchelonFor]
    by_cases hrn' : r ≥ n
    · rw [if_pos hrn']; exact ⟨r, hrn, h⟩
    rw [if_neg hrn']
    push Not at hrn'
    have hc : c < m := by omega
    obtain ⟨hA, hN, hsum⟩ := bounds_lt hp hq hL hrn' (by omega : r < m)
    obtain ⟨b1, b2, -, -⟩ := elimBound_step hp hq r
    refine (h.b_each.getStable (P := S.size (elimBound p q r).1 (elimBound p q r).2) hc hrn' S.eps
      (fun x y hx hy => S.stab hx hy hsum) fun i x hi _ hx => ?_).bind ?_
    · unfold Sizes.rows at hx
      rwa [if_neg (by omega)] at hx
    rintro (_ | ⟨s, v⟩) ho
    · exact ih (c + 1) r (by omega) (by omega) hrn h
    obtain ⟨hs, hsn, hv, hne⟩ := ho
    unfold Sizes.rows at hv
    rw [if_neg (by omega)] at hv
    refine Spec.bind (P := fun f' : Form F => f'.Sized S p q M n m r) ?_ fun f₁ h₁ => ?_
    · unfold Form.permuteRows
      refine (h.p_each.permuteRows hrn' hsn).bind fun p' hp' => ?_
      refine (h.b_each.permuteRows hrn' hsn).bind fun b' hb' => ?_
      simp only [S.rows_swap hs] at hp' hb'
      exact ⟨h.original, hp', hb'⟩
    refine (S.recip hv (by omega) (by omega) hne).bind fun w hw => ?_
    refine Spec.bind (P := fun f' : Form F => f'.original = M ∧
      f'.p.Each n n (S.mid p q r (r + 1)) ∧ f'.b.Each n m (S.mid p q r (r + 1))) ?_ fun f₂ h₂ => ?_
    · unfold Form.scaleRow
      refine (h₁.p_each.scaleSized S hrn' (by omega) hw).bind fun p' hp' => ?_
      refine (h₁.b_each.scaleSized S hrn' (by omega) hw).bind fun b' hb' => ?_
      exact ⟨h₁.original, hp', hb'⟩
    refine Spec.bind (P := fun f' : Form F => f'.Sized S p q M n m (r + 1)) ?_ fun f₃ h₃ => ?_
    · unfold Form.replaceColUnderRow
      rw [h₂.2.2.shape.rows]
      refine (foldlM_range'_spec (fun k (f' : Form F) => f'.original = M ∧
        f'.p.Each n n (S.mid p q r k) ∧ f'.b.Each n m (S.mid p q r k)) h₂
        fun k f' hk hk' h' => ?_).imp fun f' h' => ?_
      · obtain ⟨h1, h2⟩ := hN (by omega)
        unfold Form.replaceStep
        refine (h'.2.2.get (by omega) hc).bind fun x hx => ?_
        unfold Sizes.mid at hx
        rw [if_neg (by omega), if_neg (by omega)] at hx
        refine (S.neg hx (by omega) (by omega)).bind fun y hy => ?_
        refine (h'.2.1.replaceSized S hp hq (by omega) (by omega) h1 h2 hy).bind fun p' hp' => ?_
        refine (S.neg hx (by omega) (by omega)).bind fun y hy => ?_
        refine (h'.2.2.replaceSized S hp hq (by omega) (by omega) h1 h2 hy).bind fun b' hb' => ?_
        exact ⟨h'.1, hp', hb'⟩
      · rw [show r + 1 + (n - (r + 1)) = n by omega] at h'
        exact ⟨h'.1, h'.2.1.imp fun i j x hi hj hx => S.mid_end hi hx,
          h'.2.2.imp fun i j x hi hj hx => S.mid_end hi hx⟩
    exact ih (c + 1) (r + 1) (by omega) (by omega) hrn' h₃

theorem Sizes.rows_final (S : Sizes F E L) {p q r i j : ℕ} {x : F} (hp : 0 < p) (hq : 0 < q)
    (h : S.rows p q r i j x) : S.size (rowBound p q i) (rowBound p q i) x := by
  unfold Sizes.rows at h
  by_cases hir : i < r
  · rwa [if_pos hir] at h
  · rw [if_neg hir] at h
    obtain ⟨h1, h2⟩ := elimBound_mono hp hq (show r ≤ i by omega)
    obtain ⟨h3, h4, -, -⟩ := elimBound_step hp hq i
    exact S.mono h (h1.trans h3) (h2.trans h4)

theorem Mat.identity_each (S : Sizes F E L) {n p q : ℕ} (hp : 0 < p) (hq : 0 < q) (hn : n < 18446744073709551616)
    (hnn : n * n < 18446744073709551616) : (Mat.identity n : Mat F).Each n n (fun _ _ => S.size p q) := by
  refine ⟨_, Mat.has_of_box hn hn hnn, fun i j _ _ => ?_⟩
  dsimp only
  split
  · exact S.mono S.one hp hq
  · exact S.mono S.zero hp hq

/-- `row_echelon` returns if the bounds stay below `L`. -/
theorem Mat.rowEchelon_sized (S : Sizes F E L) {p q : ℕ} (hp : 0 < p) (hq : 0 < q) {M : Mat F}
    {n m : ℕ} (hL : rowBound p q (min (n - 1) m) + 1 < L) (hnn : n * n < 18446744073709551616)
    (h : M.Each n m (fun _ _ => S.size p q)) :
    Spec E M.rowEchelon (fun f => f.original = M ∧
      f.p.Each n n (fun i _ => S.size (rowBound p q i) (rowBound p q i)) ∧
      f.b.Each n m (fun i _ => S.size (rowBound p q i) (rowBound p q i))) := by
  unfold Mat.rowEchelon
  rw [h.shape.rows, h.shape.cols, List.range_eq_range' (n := m)]
  refine (Mat.rowEchelonFor_sized S hp hq (M := M) (m := m) hL m 0 0 (by omega) le_rfl (by omega)
    ⟨rfl, (identity_each S hp hq h.shape.rows_lt hnn).imp fun i j x _ _ hx => hx,
      h.imp fun i j x _ _ hx => hx⟩).imp ?_
  rintro f ⟨r, hr, hf⟩
  exact ⟨hf.original, hf.p_each.imp fun i j x _ _ hx => S.rows_final hp hq hx,
    hf.b_each.imp fun i j x _ _ hx => S.rows_final hp hq hx⟩

/-! ### `lu` -/

/-- The bounds on the parts of `lu` when the first `r` pivots are done. -/
structure LUInternal.Sized (S : Sizes F E L) (p q : ℕ) (lu : LUInternal F) (n m r : ℕ) : Prop where
  p_len : lu.p.length = n
  l_each : lu.l.Each n n (fun _ j => S.size (elimBound p q j).1 (elimBound p q j).2)
  u_each : lu.u.Each n m (S.rows p q r)

theorem Mat.luFor_sized (S : Sizes F E L) {p q : ℕ} (hp : 0 < p) (hq : 0 < q)
    {n m : ℕ} (hL : rowBound p q (min (n - 1) m) + 1 < L) (k c r : ℕ) {lu : LUInternal F}
    (hcl : c + k ≤ m) (hrc : r ≤ c) (hrn : r ≤ n) (h : lu.Sized S p q n m r) :
    Spec E (Mat.luFor n (List.range' c k) r lu)
      (fun lu' => ∃ r', r' ≤ n ∧ lu'.Sized S p q n m r') := by
  induction k generalizing c lu r with
  | zero => exact ⟨r, hrn, h⟩
  | succ k ih =>
    rw [List.range'_succ, Mat.luFor]
    by_cases hrn' : r ≥ n
    · rw [if_pos hrn']; exact ⟨r, hrn, h⟩
    rw [if_neg hrn']
    push Not at hrn'
    have hc : c < m := by omega
    obtain ⟨hA, hN, hsum⟩ := bounds_lt hp hq hL hrn' (by omega : r < m)
    obtain ⟨b1, b2, -, -⟩ := elimBound_step hp hq r
    refine (h.u_each.getStable (P := S.size (elimBound p q r).1 (elimBound p q r).2) hc hrn' S.eps
      (fun x y hx hy => S.stab hx hy hsum) fun i x hi _ hx => ?_).bind ?_
    · unfold Sizes.rows at hx
      rwa [if_neg (by omega)] at hx
    rintro (_ | ⟨s, v⟩) ho
    · exact ih (c + 1) r (by omega) (by omega) hrn h
    obtain ⟨hs, hsn, hv, hne⟩ := ho
    unfold Sizes.rows at hv
    rw [if_neg (by omega)] at hv
    refine Spec.bind (P := fun lu' : LUInternal F => lu'.Sized S p q n m r) ?_ fun lu₁ h₁ => ?_
    · obtain ⟨p', h1, h2, -⟩ := swapList_perm (l := lu.p) (i := r) (j := s)
        (by rw [h.p_len]; exact hrn') (by rw [h.p_len]; exact hsn)
      unfold LUInternal.permute
      rw [h1, bind_ok]
      refine (h.u_each.permuteRows hrn' hsn).bind fun u' hu' => ?_
      simp only [S.rows_swap hs] at hu'
      obtain ⟨a, ha1, ha2⟩ := h.l_each
      refine (ha1.permuteUnderDiagonal hrn' hsn (by omega)).bind fun l' hl' => ?_
      refine ⟨h2.trans h.p_len, ⟨_, hl', fun i j hi hj => ?_⟩, hu'⟩
      split
      · exact ha2 _ _ (swap_lt hrn' hsn hi) hj
      · exact ha2 _ _ hi hj
    refine Spec.bind (P := fun lu' : LUInternal F => lu'.p.length = n ∧
      lu'.l.Each n n (fun _ j => S.size (elimBound p q j).1 (elimBound p q j).2) ∧
      lu'.u.Each n m (S.mid p q r (r + 1))) ?_ fun lu₂ h₂ => ?_
    · unfold LUInternal.scaleRow
      refine (h₁.l_each.set hrn' hrn' hv fun _ _ _ _ h => h).bind fun l' hl' => ?_
      refine (S.recip hv (by omega) (by omega) hne).bind fun w hw => ?_
      refine (h₁.u_each.scaleSized S hrn' (by omega) hw).bind fun u' hu' => ?_
      exact ⟨h₁.p_len, hl', hu'⟩
    refine Spec.bind (P := fun lu' : LUInternal F => lu'.Sized S p q n m (r + 1)) ?_ fun lu₃ h₃ => ?_
    · unfold LUInternal.replaceColUnderRow
      rw [h₂.2.2.shape.rows]
      refine (foldlM_range'_spec (fun k (lu' : LUInternal F) => lu'.p.length = n ∧
        lu'.l.Each n n (fun _ j => S.size (elimBound p q j).1 (elimBound p q j).2) ∧
        lu'.u.Each n m (S.mid p q r k)) h₂ fun k lu' hk hk' h' => ?_).imp fun lu' h' => ?_
      · obtain ⟨h1, h2⟩ := hN (by omega)
        refine (h'.2.2.get (by omega) hc).bind fun x hx => ?_
        unfold Sizes.mid at hx
        rw [if_neg (by omega), if_neg (by omega)] at hx
        refine (S.neg hx (by omega) (by omega)).bind fun y hy => ?_
        refine (h'.2.2.replaceSized S hp hq (by omega) (by omega) h1 h2 hy).bind fun u' hu' => ?_
        refine (h'.2.1.set (show k < n by omega) hrn' hx fun _ _ _ _ h => h).bind fun l' hl' => ?_
        exact ⟨h'.1, hl', hu'⟩
      · rw [show r + 1 + (n - (r + 1)) = n by omega] at h'
        exact ⟨h'.1, h'.2.1, h'.2.2.imp fun i j x hi hj hx => S.mid_end hi hx⟩
    exact ih (c + 1) (r + 1) (by omega) (by omega) hrn' h₃

/-- `lu` returns if the bounds stay below `L`. -/
theorem Mat.lu_sized (S : Sizes F E L) {p q : ℕ} (hp : 0 < p) (hq : 0 < q) {M : Mat F}
    {n m : ℕ} (hL : rowBound p q (min (n - 1) m) + 1 < L) (hnn : n * n < 18446744073709551616)
    (h : M.Each n m (fun _ _ => S.size p q)) :
    Spec E M.lu (fun d =>
      d.l.Each n n (fun _ j => S.size (elimBound p q j).1 (elimBound p q j).2) ∧
      d.u.Each n m (fun i _ => S.size (rowBound p q i) (rowBound p q i))) := by
  unfold Mat.lu
  rw [h.shape.rows, h.shape.cols, List.range_eq_range' (n := m)]
  refine (Mat.luFor_sized S hp hq (m := m) hL m 0 0 (by omega) le_rfl (by omega)
    ⟨by simp, (identity_each S hp hq h.shape.rows_lt hnn).imp fun i j x _ _ hx => ?_,
      h.imp fun i j x _ _ hx => hx⟩).bind ?_
  · obtain ⟨h1, h2⟩ := elimBound_mono hp hq (Nat.zero_le j)
    exact S.mono hx h1 h2
  rintro lu ⟨r, hr, hf⟩
  exact ⟨hf.l_each, hf.u_each.imp fun i j x _ _ hx => S.rows_final hp hq hx⟩

/-! ### `to_rref` -/

/-- The bounds on the rows after the rows `n - 1, …, n - j` have been used to clear the columns above
their pivots. -/
def rrefBound (γ : ℕ → ℕ) (n : ℕ) : ℕ → ℕ → ℕ
  | 0 => γ
  | j + 1 => fun i =>
    if i < n - 1 - j then 2 * rrefBound γ n j i ^ 2 * rrefBound γ n j (n - 1 - j)
    else rrefBound γ n j i

theorem rrefBound_pos {γ : ℕ → ℕ} (hγ : ∀ i, 0 < γ i) (n j i : ℕ) : 0 < rrefBound γ n j i := by
  induction j generalizing i with
  | zero => exact hγ i
  | succ j ih =>
    simp only [rrefBound]
    split
    · have := ih i; have := ih (n - 1 - j); positivity
    · exact ih i

theorem rrefBound_step {γ : ℕ → ℕ} (hγ : ∀ i, 0 < γ i) (n j i : ℕ) :
    rrefBound γ n j i ≤ rrefBound γ n (j + 1) i := by
  have h1 := rrefBound_pos hγ n j i
  have h2 := rrefBound_pos hγ n j (n - 1 - j)
  simp only [rrefBound]
  split
  · generalize rrefBound γ n j i = a at *
    generalize rrefBound γ n j (n - 1 - j) = b at *
    calc a ≤ a * (2 * a * b) := Nat.le_mul_of_pos_right _ (by positivity)
      _ = 2 * a ^ 2 * b := by ring
  · exact le_rfl

theorem rrefBound_mono {γ : ℕ → ℕ} (hγ : ∀ i, 0 < γ i) (n i : ℕ) {j k : ℕ} (h : j ≤ k) :
    rrefBound γ n j i ≤ rrefBound γ n k i := by
  induction h with
  | refl => exact le_rfl
  | step _ ih => exact ih.trans (rrefBound_step hγ n _ i)

omit [RField F] [EpsilonEquality F] [StabilityCmp F] in
theorem foldlM_skip {α β : Type} {g : β → α → Res β} {x : β} {l : List α} (h : ∀ a ∈ l, g x a = .ok x) :
    l.foldlM g x = .ok x := by
  induction l with
  | nil => rfl
  | cons a l ih =>
    rw [List.foldlM_cons, h a (by simp), bind_ok]
    exact ih fun b hb => h b (by simp [hb])

/-- `to_rref` returns if the bounds stay below `L`, where `n` bounds the number of nonzero rows. -/
theorem Form.toRrefLow_sized (S : Sizes F E L) {f : Form F} {N n m : ℕ} {γ : ℕ → ℕ} (hγ : ∀ i, 0 < γ i)
    (hnN : n ≤ N) (hz : ∀ r, n ≤ r → r < N → f.b.firstNonzero r = .ok none)
    (hL : ∀ i, i < n → rrefBound γ n (n - 1) i < L)
    (hfp : f.p.Each N N (fun i _ => S.size (γ i) (γ i)))
    (hfb : f.b.Each N m (fun i _ => S.size (γ i) (γ i))) :
    Spec E f.toRref (fun f' => f'.original = f.original ∧
      f'.p.Each N N (fun i _ => S.size (rrefBound γ n (n - 1) i) (rrefBound γ n (n - 1) i)) ∧
      f'.b.Each N m (fun i _ => S.size (rrefBound γ n (n - 1) i) (rrefBound γ n (n - 1) i))) := by
  unfold Form.toRref
  rw [hfb.shape.rows, show N - 1 = (n - 1) + (N - 1 - (n - 1)) by omega, ← List.range'_append_1,
    List.reverse_append, List.foldlM_append]
  rw [foldlM_skip fun r hr => ?_, bind_ok]
  rotate_left
  · simp only [List.mem_reverse, List.mem_range'_1] at hr
    rw [hz r (by omega) (by omega)]
    rfl
  let T : ℕ → Form F → Prop := fun k f' => f'.original = f.original ∧
      f'.p.Each N N (fun i _ => S.size (rrefBound γ n (n - k) i) (rrefBound γ n (n - k) i)) ∧
      f'.b.Each N m (fun i _ => S.size (rrefBound γ n (n - k) i) (rrefBound γ n (n - k) i))
  refine foldlM_range'_rev_spec T ?_ ?_
  · simp only [T]
    rw [show n - (1 + (n - 1)) = 0 by omega]
    exact ⟨trivial, hfp, hfb⟩
  rintro r f' hr hrn ⟨h1, h2, h3⟩
  have hrn' : r < n := by omega
  set g := rrefBound γ n (n - (r + 1)) with hg
  have hg' : ∀ i, rrefBound γ n (n - r) i = if i < r then 2 * g i ^ 2 * g r else g i := by
    intro i
    rw [show n - r = n - (r + 1) + 1 by omega]
    simp only [rrefBound]
    rw [show n - 1 - (n - (r + 1)) = r by omega]
  have hle : ∀ i, g i ≤ rrefBound γ n (n - r) i := fun i => rrefBound_mono hγ n i (by omega)
  have hlt : ∀ i, i < n → rrefBound γ n (n - r) i < L := fun i hi =>
    (rrefBound_mono hγ n i (by omega)).trans_lt (hL i hi)
  have hpos : ∀ i, 0 < g i := fun i => rrefBound_pos hγ n _ i
  obtain ⟨a, ha, -⟩ := id h3
  refine (ha.firstNonzero_of S.eps (hrn'.trans_le hnN)).bind ?_
  rintro (_ | c) hc
  · exact ⟨h1, h2.imp fun i j x _ _ hx => S.mono hx (hle i) (hle i),
      h3.imp fun i j x _ _ hx => S.mono hx (hle i) (hle i)⟩
  have hcm := hc c rfl
  unfold Form.replaceColAboveRow
  let G : ℕ → ℕ → ℕ := fun k i => if i < k then 2 * g i ^ 2 * g r else g i
  refine (foldlM_range_spec (fun k (f' : Form F) => f'.original = f.original ∧
    f'.p.Each N N (fun i _ => S.size (G k i) (G k i)) ∧
    f'.b.Each N m (fun i _ => S.size (G k i) (G k i))) ?_ ?_).imp ?_
  · simp only [G, Nat.not_lt_zero, if_false]
    exact ⟨h1, h2, h3⟩
  · rintro k f'' hk ⟨h1', h2', h3'⟩
    have e : 2 * g k ^ 2 * g r < L := by
      have := hlt k (by omega)
      rwa [hg' k, if_pos hk] at this
    have hgk : g k < L := (hle k).trans_lt (hlt k (by omega))
    have p1 := hpos k
    have p2 := hpos r
    have op : ∀ x y c : F, S.size (g k) (g k) x → S.size (g r) (g r) y → S.size (g k) (g k) c →
        Spec E (RField.mul y c >>= fun z => RField.add x z)
          (S.size (2 * g k ^ 2 * g r) (2 * g k ^ 2 * g r)) := by
      intro x y c hx hy hc
      generalize g k = u at *
      generalize g r = w at *
      have e1 : u * (w * u) + w * u * u = 2 * u ^ 2 * w := by ring
      have e2 : u * (w * u) ≤ 2 * u ^ 2 * w := by omega
      have e3 : w * u ≤ u * (w * u) := Nat.le_mul_of_pos_left _ p1
      refine (S.mul hy hc (by omega) (by omega)).bind fun z hz => ?_
      exact (S.add hx hz (by omega) (by omega)).imp fun v hv => S.mono hv e1.le e2
    have fin : ∀ {l : ℕ} {M' : Mat F}, M'.Each N l (fun i _ => if i = k then
        S.size (2 * g k ^ 2 * g r) (2 * g k ^ 2 * g r) else S.size (G k i) (G k i)) →
        M'.Each N l (fun i _ => S.size (G (k + 1) i) (G (k + 1) i)) := by
      intro l M' hM'
      refine hM'.imp fun i j x _ _ hx => ?_
      by_cases hik : i = k
      · rw [if_pos hik] at hx
        simp only [G]
        rwa [if_pos (by omega), hik]
      · rw [if_neg hik] at hx
        simp only [G] at hx ⊢
        by_cases hi : i < k
        · rw [if_pos hi] at hx; rwa [if_pos (by omega)]
        · rw [if_neg hi] at hx; rwa [if_neg (by omega)]
    have rd : ∀ {x : F} , S.size (G k k) (G k k) x → S.size (g k) (g k) x := by
      intro x hx
      simp only [G, lt_irrefl, if_false] at hx; exact hx
    have rr : ∀ {x : F} , S.size (G k r) (G k r) x → S.size (g r) (g r) x := by
      intro x hx
      simp only [G] at hx; rwa [if_neg (by omega)] at hx
    unfold Form.replaceStep
    refine (h3'.get (by omega) hcm).bind fun x hx => ?_
    have hx := rd hx
    refine (S.neg hx hgk hgk).bind fun y hy => ?_
    refine (h2'.replaceRow (hrn'.trans_le hnN) (by omega) (by omega) fun j x' y' _ hx' hy' =>
      op x' y' y (rd hx') (rr hy') hy).bind fun p' hp' => ?_
    refine (S.neg hx hgk hgk).bind fun y hy => ?_
    refine (h3'.replaceRow (hrn'.trans_le hnN) (by omega) (by omega) fun j x' y' _ hx' hy' =>
      op x' y' y (rd hx') (rr hy') hy).bind fun b' hb' => ?_
    exact ⟨h1', fin hp', fin hb'⟩
  · rintro f'' ⟨h1', h2', h3'⟩
    refine ⟨h1', h2'.imp fun i j x _ _ hx => ?_, h3'.imp fun i j x _ _ hx => ?_⟩
    · simp only [hg']; exact hx
    · simp only [hg']; exact hx

/-- `to_rref` returns if the bounds stay below `L`. -/
theorem Form.toRref_sized (S : Sizes F E L) {f : Form F} {n m : ℕ} {γ : ℕ → ℕ} (hγ : ∀ i, 0 < γ i)
    (hL : ∀ i, i < n → rrefBound γ n (n - 1) i < L)
    (hfp : f.p.Each n n (fun i _ => S.size (γ i) (γ i)))
    (hfb : f.b.Each n m (fun i _ => S.size (γ i) (γ i))) :
    Spec E f.toRref (fun f' => f'.original = f.original ∧
      f'.p.Each n n (fun i _ => S.size (rrefBound γ n (n - 1) i) (rrefBound γ n (n - 1) i)) ∧
      f'.b.Each n m (fun i _ => S.size (rrefBound γ n (n - 1) i) (rrefBound γ n (n - 1) i))) := by
  refine Form.toRrefLow_sized S hγ le_rfl (fun r h1 h2 => ?_) hL hfp hfb
  omega

/-- `compute_kernel` returns if the entries are below `L`. -/
theorem Form.computeKernel_sized (S : Sizes F E L) {f : Form F} {n m : ℕ} {γ : ℕ → ℕ}
    (hL : ∀ i, i < n → γ i < L) (hfb : f.b.Each n m (fun i _ => S.size (γ i) (γ i))) :
    Spec E f.computeKernel (fun vs => ∀ v ∈ vs, v.Shape m 1) := by
  obtain ⟨a, ha, -⟩ := id hfb
  unfold Form.computeKernel
  refine Spec.bind (P := fun _ => True) ?_ fun bound _ => ?_
  · unfold Form.boundVariables
    rw [ha.rows]
    exact (mapM_spec (P := fun _ o => True) fun r hr =>
      (ha.firstNonzero_of S.eps (by simpa using hr)).imp fun o ho => trivial).bind fun l hl => trivial
  rw [ha.rows, ha.cols]
  have hm := ha.cols_lt
  refine (mapM_spec (P := fun _ (v : Mat F) => v.Shape m 1) fun c hc => ?_).imp fun l hl v hv => ?_
  · have hcm : c < m := by
      rw [List.mem_filter] at hc; simpa using hc.1
    refine foldlM_range_spec (fun _ (v : Mat F) => v.Shape m 1)
      ⟨rfl, rfl, by simp [Mat.e, Mat.new], hm, by norm_num, by omega⟩ fun r v hr hv => ?_
    refine (ha.firstNonzero_of S.eps hr).bind ?_
    rintro (_ | c2) hc2
    · exact hv
    · dsimp only
      split
      · refine (hfb.get hr hcm).bind fun x hx => ?_
        refine (S.neg hx (hL r hr) (hL r hr)).bind fun y _ => ?_
        exact hv.set (hc2 c2 rfl) (by omega)
      · exact hv
  · obtain ⟨i, hi⟩ := List.getElem?_of_mem hv
    rw [List.forall₂_iff_get] at hl
    obtain ⟨hi', he⟩ := List.getElem?_eq_some_iff.mp hi
    have := hl.2 i (by rw [hl.1]; exact hi') hi'
    simp only [List.get_eq_getElem] at this
    rwa [he] at this

/-- `rank` returns for every matrix with the right number of entries. -/
theorem Form.rank_sized (S : Sizes F E L) {f : Form F} {n m : ℕ} (h : f.b.Shape n m) :
    Spec E f.rank (fun _ => True) := by
  unfold Form.rank
  refine Spec.bind (P := fun z => z ≤ n) ?_ fun z hz => ?_
  · unfold Mat.zeroRows
    rw [h.rows]
    refine foldlM_range_spec (fun k z => z ≤ k) le_rfl fun k z hk hz => ?_
    refine (h.has.firstNonzero_of S.eps hk).bind ?_
    rintro (_ | c) -
    · exact Nat.succ_le_succ hz
    · exact Nat.le_succ_of_le hz
  · rw [h.rows, Usize.sub.eq_def, if_pos hz]
    trivial

/-- The entries of the vectors of `compute_kernel`, where `n` bounds the number of nonzero rows. -/
theorem Form.computeKernelLow_sized (S : Sizes F E L) {f : Form F} {N n m R : ℕ} {γ : ℕ → ℕ}
    (hz : ∀ r, n ≤ r → r < N → f.b.firstNonzero r = .ok none)
    (hR : ∀ i, i < n → γ i ≤ R) (h0 : 0 < R) (hRL : R < L)
    (hfb : f.b.Each N m (fun i _ => S.size (γ i) (γ i))) :
    Spec E f.computeKernel (fun vs => ∀ v ∈ vs, v.Each m 1 (fun _ _ => S.size R R)) := by
  obtain ⟨a, ha, -⟩ := id hfb
  unfold Form.computeKernel
  refine Spec.bind (P := fun _ => True) ?_ fun bound _ => ?_
  · unfold Form.boundVariables
    rw [ha.rows]
    exact (mapM_spec (P := fun _ o => True) fun r hr =>
      (ha.firstNonzero_of S.eps (by simpa using hr)).imp fun o ho => trivial).bind fun l hl => trivial
  rw [ha.rows, ha.cols]
  have hm := ha.cols_lt
  refine (mapM_spec (P := fun _ (v : Mat F) => v.Each m 1 (fun _ _ => S.size R R)) fun c hc => ?_).imp
    fun l hl v hv => ?_
  · have hcm : c < m := by
      rw [List.mem_filter] at hc; simpa using hc.1
    refine foldlM_range_spec (fun _ (v : Mat F) => v.Each m 1 (fun _ _ => S.size R R))
      ?_ fun r v hr hv => ?_
    · refine ⟨fun i _ => if i = c then RField.one else RField.zero,
        ⟨rfl, rfl, by simp [Mat.e, Mat.new], hm, by norm_num, by omega, fun i j hi hj => ?_⟩,
        fun i j _ _ => ?_⟩
      · have : j = 0 := by omega
        subst this
        simp [Mat.e, Mat.new, hi]
      · dsimp only
        split
        · exact S.mono S.one h0 h0
        · exact S.mono S.zero h0 h0
    refine (ha.firstNonzero_of S.eps hr).bind' ?_
    rintro (_ | c2) hc2 hc2'
    · exact hv
    · have hrn : r < n := by
        by_contra h
        rw [hz r (by omega) hr] at hc2
        cases hc2
      dsimp only
      split
      · refine (hfb.get hr hcm).bind fun x hx => ?_
        have hxR := S.mono hx (hR r hrn) (hR r hrn)
        refine (S.neg hxR hRL hRL).bind fun y hy => ?_
        exact hv.set (hc2' c2 rfl) (by omega) hy fun _ _ _ _ h => h
      · exact hv
  · obtain ⟨i, hi⟩ := List.getElem?_of_mem hv
    rw [List.forall₂_iff_get] at hl
    obtain ⟨hi', he⟩ := List.getElem?_eq_some_iff.mp hi
    have := hl.2 i (by rw [hl.1]; exact hi') hi'
    simp only [List.get_eq_getElem] at this
    rwa [he] at this

/-- The bounds on a sum of `k` products of numbers with the bounds `p`, `q` and `P`, `Q`. -/
def dotBound (p q P Q : ℕ) : ℕ → ℕ × ℕ
  | 0 => (1, 1)
  | k + 1 => ((dotBound p q P Q k).1 * (q * Q) + p * P * (dotBound p q P Q k).2,
      (dotBound p q P Q k).2 * (q * Q))

theorem dotBound_pos {p q P Q : ℕ} (hq : 0 < q) (hQ : 0 < Q) (k : ℕ) : 0 < (dotBound p q P Q k).2 := by
  induction k with
  | zero => exact one_pos
  | succ k ih => exact Nat.mul_pos ih (Nat.mul_pos hq hQ)

theorem dotBound_mono {p q P Q : ℕ} (hq : 0 < q) (hQ : 0 < Q) {k l : ℕ} (h : k ≤ l) :
    (dotBound p q P Q k).1 ≤ (dotBound p q P Q l).1 ∧ (dotBound p q P Q k).2 ≤ (dotBound p q P Q l).2 := by
  have h1 := Nat.mul_pos hq hQ
  induction h with
  | refl => exact ⟨le_rfl, le_rfl⟩
  | step _ ih =>
    refine ⟨ih.1.trans ?_, ih.2.trans ?_⟩
    · exact (Nat.le_mul_of_pos_right _ h1).trans (Nat.le_add_right _ _)
    · exact Nat.le_mul_of_pos_right _ h1

/-- `dot` returns if the bounds stay below `L`. -/
theorem Mat.dot_sized (S : Sizes F E L) {M N : Mat F} {p q P Q m : ℕ} (hq : 0 < q) (hQ : 0 < Q)
    (hM : ∀ x ∈ M.entries, S.size p q x) (hN : ∀ x ∈ N.entries, S.size P Q x)
    (hm : M.entries.length ≤ m)
    (hL1 : (dotBound p q P Q m).1 < L) (hL2 : (dotBound p q P Q m).2 < L) :
    Spec E (M.dot N) (S.size (dotBound p q P Q m).1 (dotBound p q P Q m).2) := by
  unfold Mat.dot
  have hlen : (M.entries.zip N.entries).length ≤ m := by
    rw [List.length_zip]; omega
  refine (foldlM_spec (fun (done : List (F × F)) x =>
    S.size (dotBound p q P Q done.length).1 (dotBound p q P Q done.length).2 x) S.zero ?_).imp
    fun x hx => ?_
  · rintro done ⟨x, y⟩ rest c heq hc
    have hmem : (x, y) ∈ M.entries.zip N.entries := by rw [heq]; simp
    obtain ⟨hx, hy⟩ := List.of_mem_zip hmem
    have hk : done.length + 1 ≤ m := by
      rw [heq] at hlen; simp at hlen; omega
    have hk' := dotBound_mono (p := p) (P := P) hq hQ hk
    have hb := dotBound_pos (p := p) (P := P) hq hQ done.length
    have h1 : (dotBound p q P Q (done.length + 1)).1 = (dotBound p q P Q done.length).1 * (q * Q) +
      p * P * (dotBound p q P Q done.length).2 := rfl
    have h2 : (dotBound p q P Q (done.length + 1)).2 = (dotBound p q P Q done.length).2 * (q * Q) := rfl
    have h3 : p * P ≤ p * P * (dotBound p q P Q done.length).2 := Nat.le_mul_of_pos_right _ hb
    have h4 : q * Q ≤ (dotBound p q P Q done.length).2 * (q * Q) := Nat.le_mul_of_pos_left _ hb
    dsimp only
    refine (S.mul (hM x hx) (hN y hy) (by omega) (by omega)).bind fun z hz => ?_
    refine (S.add hc hz (by omega) (by omega)).imp fun w hw => ?_
    rw [List.length_append]
    exact hw
  · have := dotBound_mono (p := p) (P := P) hq hQ hlen
    exact S.mono hx this.1 this.2

end elim

end Verif
