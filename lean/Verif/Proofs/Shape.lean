import Verif.Proofs.LU
import Verif.Proofs.Pivot

/-!
# Elimination without field laws

What `lu`, `row_echelon`, `to_rref`, … do for coefficients about whose arithmetic nothing is known
except which panics it can raise (`Tame`).  `M.Has n m a`: `M` is an `n × m` matrix with the entries
`a i j : F`.
-/

set_option linter.unusedSectionVars false

namespace Verif

open Res LinAlg

/-- The arithmetic and the comparisons of `F` return or raise a panic in `E`; an undefined
comparison is only allowed if `E` allows the panic of `unwrap`. -/
class Tame (F : Type) [RField F] [EpsilonEquality F] [StabilityCmp F] (E : outParam (Panic → Prop)) :
    Prop where
  add : ∀ a b : F, Spec E (RField.add a b) (fun _ => True)
  sub : ∀ a b : F, Spec E (RField.sub a b) (fun _ => True)
  mul : ∀ a b : F, Spec E (RField.mul a b) (fun _ => True)
  div : ∀ a b : F, Spec E (RField.div a b) (fun _ => True)
  eps : ∀ a b : F, Spec E (EpsilonEquality.epsilonEquals a b) (fun _ => True)
  stab : ∀ a b : F, Spec E (StabilityCmp.stabilityCmp a b) (fun o => o = none → E .unwrapNone)

variable {F : Type} [RField F]

namespace Mat

/-- `M` is an `n × m` matrix, as the library builds them, with the entries `a i j`. -/
structure Has (M : Mat F) (n m : ℕ) (a : ℕ → ℕ → F) : Prop where
  rows : M.rows = n
  cols : M.cols = m
  len : M.entries.length = n * m
  rows_lt : n < 18446744073709551616
  cols_lt : m < 18446744073709551616
  len_lt : n * m < 18446744073709551616
  entry : ∀ i j, i < n → j < m → M.entries[i * m + j]? = some (a i j)

/-- `M` is an `n × m` matrix, as the library builds them. -/
structure Shape (M : Mat F) (n m : ℕ) : Prop where
  rows : M.rows = n
  cols : M.cols = m
  len : M.entries.length = n * m
  rows_lt : n < 18446744073709551616
  cols_lt : m < 18446744073709551616
  len_lt : n * m < 18446744073709551616

variable {M : Mat F} {n m : ℕ} {a : ℕ → ℕ → F}

theorem Has.shape (h : M.Has n m a) : M.Shape n m := { h with }

theorem Shape.has (h : M.Shape n m) : M.Has n m (fun i j => M.entries.getD (i * m + j) RField.zero) := by
  refine { h with entry := fun i j hi hj => ?_ }
  have := rowMajor_lt hi hj
  rw [List.getD_eq_getElem?_getD, List.getElem?_eq_getElem (by rw [h.len]; exact this)]
  rfl

theorem Has.congr (h : M.Has n m a) {a' : ℕ → ℕ → F} (ha : ∀ i j, i < n → j < m → a i j = a' i j) :
    M.Has n m a' :=
  { h with entry := fun i j hi hj => by rw [h.entry i j hi hj, ha i j hi hj] }

theorem Has.unique {a' : ℕ → ℕ → F} (h : M.Has n m a) (h' : M.Has n m a') {i j : ℕ} (hi : i < n)
    (hj : j < m) : a i j = a' i j := by
  have := (h.entry i j hi hj).symm.trans (h'.entry i j hi hj)
  exact Option.some.inj this

theorem Shape.offset (h : M.Shape n m) {i j : ℕ} (hi : i < n) (hj : j < m) :
    M.offset i j = .ok (i * m + j) := by
  have := rowMajor_lt hi hj
  have hl := h.len_lt
  unfold Mat.offset Usize.mul Usize.add
  rw [h.cols, Usize.norm_eq (by omega), bind_ok, Usize.norm_eq (by omega)]

theorem Has.get (h : M.Has n m a) {i j : ℕ} (hi : i < n) (hj : j < m) : M.get i j = .ok (a i j) := by
  rw [Mat.get, h.shape.offset hi hj, bind_ok, h.entry i j hi hj]; rfl

theorem Shape.get (h : M.Shape n m) {E : Panic → Prop} {i j : ℕ} (hi : i < n) (hj : j < m) :
    Spec E (M.get i j) (fun _ => True) := by
  rw [h.has.get hi hj]; trivial

theorem Has.set (h : M.Has n m a) {i j : ℕ} {y : F} (hi : i < n) (hj : j < m) :
    ∃ M', M.set i j y = .ok M' ∧
      M'.Has n m (fun i' j' => if i' = i ∧ j' = j then y else a i' j') := by
  refine ⟨{ M with entries := M.entries.set (i * m + j) y }, ?_, ?_⟩
  · rw [Mat.set, h.shape.offset hi hj, bind_ok, if_pos (by rw [h.len]; exact rowMajor_lt hi hj)]; rfl
  · refine { h with len := by simp [h.len], entry := fun i' j' hi' hj' => ?_ }
    dsimp only
    by_cases he : i' = i ∧ j' = j
    · obtain ⟨rfl, rfl⟩ := he
      rw [List.getElem?_set_self (by rw [h.len]; exact rowMajor_lt hi hj), if_pos ⟨rfl, rfl⟩]
    · rw [if_neg he, List.getElem?_set_ne, h.entry i' j' hi' hj']
      intro heq
      obtain ⟨e1, e2⟩ := rowMajor_inj hj hj' heq
      exact he ⟨e1.symm, e2.symm⟩

theorem Has.set_spec (h : M.Has n m a) {E : Panic → Prop} {i j : ℕ} {y : F} (hi : i < n)
    (hj : j < m) : Spec E (M.set i j y)
      (fun M' => M'.Has n m (fun i' j' => if i' = i ∧ j' = j then y else a i' j')) := by
  obtain ⟨M', h1, h2⟩ := h.set hi hj (y := y)
  rw [h1]; exact h2

theorem Shape.set (h : M.Shape n m) {E : Panic → Prop} {i j : ℕ} {y : F} (hi : i < n) (hj : j < m) :
    Spec E (M.set i j y) (fun M' => M'.Shape n m) :=
  (h.has.set_spec hi hj).imp fun _ h => h.shape

theorem has_of_box {n m : ℕ} {f : ℕ × ℕ → F} (hn : n < 18446744073709551616)
    (hm : m < 18446744073709551616) (hnm : n * m < 18446744073709551616) :
    (Mat.new n m ((boxIter n m).map f)).Has n m (fun i j => f (i, j)) where
  rows := rfl
  cols := rfl
  len := by simp [Mat.new, boxIter_length]
  rows_lt := hn
  cols_lt := hm
  len_lt := hnm
  entry i j hi hj := by simp [Mat.new, boxIter_get hi hj]

theorem Has.getColIter (h : M.Has n m a) {c : ℕ} (hc : c < m) :
    M.getColIter c = .ok ((List.range n).map fun i => a i c) := by
  unfold Mat.getColIter
  rw [h.rows]
  have : ∀ l : List ℕ, (∀ i ∈ l, i < n) →
      l.mapM (fun r => M.get r c) = .ok (l.map fun i => a i c) := by
    intro l
    induction l with
    | nil => intro _; rfl
    | cons i l ih =>
      intro hl
      rw [List.mapM_cons, h.get (hl i (by simp)) hc, bind_ok, ih fun j hj => hl j (by simp [hj]), bind_ok]
      rfl
  exact this _ fun i hi => by simpa using hi

theorem Shape.getCol (h : M.Shape n m) {E : Panic → Prop} {c : ℕ} (hc : c < m) :
    Spec E (M.getCol c) (fun v => v.Shape n 1) := by
  have h1 := h.rows_lt
  unfold Mat.getCol
  rw [h.has.getColIter hc, bind_ok]
  exact ⟨by simp [Mat.fromIter], rfl, by simp [Mat.fromIter], h.rows_lt, by norm_num, by omega⟩

theorem Has.getRowIter (h : M.Has n m a) {r : ℕ} (hr : r < n) :
    M.getRowIter r = .ok ((List.range m).map fun j => a r j) := by
  have h1 : r * m ≤ (r + 1) * m := Nat.mul_le_mul_right m (by omega)
  have h2 : (r + 1) * m ≤ n * m := Nat.mul_le_mul_right m hr
  have h3 := h.len_lt
  have h4 := h.rows_lt
  have h5 : (r + 1) * m - r * m = m := by rw [Nat.succ_mul]; omega
  unfold Mat.getRowIter Usize.mul Usize.add
  rw [h.cols, Usize.norm_eq (by omega), bind_ok, Usize.norm_eq (by omega), bind_ok,
    Usize.norm_eq (by omega), bind_ok, if_pos ⟨h1, by rw [h.len]; exact h2⟩, h5]
  change Res.ok _ = _
  congr 1
  apply List.ext_getElem?
  intro j
  by_cases hj : j < m
  · rw [List.getElem?_take_of_lt hj, List.getElem?_drop, h.entry r j hr hj]
    simp [hj]
  · rw [List.getElem?_eq_none (by simp; omega), List.getElem?_eq_none (by simp; omega)]

/-! ### Row operations -/

section ops
variable [EpsilonEquality F] [StabilityCmp F] {E : Panic → Prop} [Tame F E]

theorem Shape.scaleRow (h : M.Shape n m) {i : ℕ} {s : F} (hi : i < n) :
    Spec E (M.scaleRow i s) (fun M' => M'.Shape n m) := by
  unfold Mat.scaleRow
  rw [h.cols]
  refine foldlM_range_spec (fun _ (M' : Mat F) => M'.Shape n m) h fun k M' hk hM' => ?_
  refine (hM'.get hi hk).bind fun x _ => ?_
  refine (Tame.mul s x).bind fun y _ => ?_
  exact hM'.set hi hk

theorem Shape.replaceRow (h : M.Shape n m) {s t : ℕ} {c : F} (hs : s < n) (ht : t < n) :
    Spec E (M.replaceRow s t c) (fun M' => M'.Shape n m) := by
  unfold Mat.replaceRow
  rw [h.cols]
  refine foldlM_range_spec (fun _ (M' : Mat F) => M'.Shape n m) h fun k M' hk hM' => ?_
  refine (hM'.get ht hk).bind fun x _ => ?_
  refine (hM'.get hs hk).bind fun y _ => ?_
  refine (Tame.mul y c).bind fun z _ => ?_
  refine (Tame.add x z).bind fun w _ => ?_
  exact hM'.set ht hk

end ops

theorem Shape.permuteRows (h : M.Shape n m) {E : Panic → Prop} {s t : ℕ} (hs : s < n) (ht : t < n) :
    Spec E (M.permuteRows s t) (fun M' => M'.Shape n m) := by
  unfold Mat.permuteRows
  rw [h.cols]
  refine foldlM_range_spec (fun _ (M' : Mat F) => M'.Shape n m) h fun k M' hk hM' => ?_
  refine (hM'.get hs hk).bind fun x hx => ?_
  refine (hM'.get ht hk).bind fun y hy => ?_
  refine (hM'.set hs hk).bind fun M₁ hM₁ => ?_
  exact hM₁.set ht hk

theorem Has.swap (h : M.Has n m a) {i j i' j' : ℕ} (hi : i < n) (hj : j < m)
    (hi' : i' < n) (hj' : j' < m) :
    ∃ M', M.swap (i, j) (i', j') = .ok M' ∧ M'.Has n m (fun x y =>
      if x = i' ∧ y = j' then a i j else if x = i ∧ y = j then a i' j' else a x y) := by
  obtain ⟨M₁, h1, hM₁⟩ := h.set hi hj (y := a i' j')
  obtain ⟨M₂, h2, hM₂⟩ := hM₁.set hi' hj' (y := a i j)
  refine ⟨M₂, ?_, hM₂⟩
  rw [Mat.set, hM₁.shape.offset hi' hj', bind_ok,
    if_pos (by rw [hM₁.len]; exact rowMajor_lt hi' hj')] at h2
  rw [Mat.set, h.shape.offset hi hj, bind_ok, if_pos (by rw [h.len]; exact rowMajor_lt hi hj)] at h1
  rw [Mat.swap, h.shape.offset hi hj, bind_ok, h.shape.offset hi' hj', bind_ok, Mat.swapList,
    h.entry i j hi hj, h.entry i' j' hi' hj']
  cases h1; cases h2
  rfl

theorem Has.permuteUnderDiagonal (h : M.Has n m a) {E : Panic → Prop} {s t : ℕ} (hs : s < n)
    (ht : t < n) (hsm : s ≤ m) :
    Spec E (M.permuteUnderDiagonal s t)
      (fun M' => M'.Has n m (fun i j => if j < s then a (Equiv.swap s t i) j else a i j)) := by
  unfold Mat.permuteUnderDiagonal
  refine foldlM_range_spec (fun k (M' : Mat F) => M'.Has n m
    (fun i j => if j < k then a (Equiv.swap s t i) j else a i j)) ?_ ?_
  · exact h.congr fun i' j _ _ => by simp
  · intro k M' hk hM'
    obtain ⟨M'', hsw, hM''⟩ := hM'.swap hs (show k < m by omega) ht (show k < m by omega)
    rw [hsw]
    refine hM''.congr fun i j hi hj => ?_
    by_cases hjk : j = k
    · subst hjk
      simp only [and_true, lt_irrefl, if_false, Nat.lt_succ_self, if_true]
      by_cases h1 : i = t
      · subst h1; simp
      · by_cases h2 : i = s
        · subst h2; simp [h1]
        · simp [h1, h2, Equiv.swap_apply_of_ne_of_ne h2 h1]
    · have : j < k ↔ j < k + 1 := by omega
      simp only [hjk, and_false, if_false, this]

/-! ### Pivot search -/

variable [EpsilonEquality F] [StabilityCmp F] {E : Panic → Prop} [Tame F E]

theorem getMaxIndex_tame (l : List F) (hl : l ≠ []) :
    Spec E (getMaxIndex l StabilityCmp.stabilityCmp) (fun i => i < l.length) := by
  obtain ⟨x, xs, rfl⟩ := List.exists_cons_of_ne_nil hl
  have hz : ((x :: xs).zipIdx.map fun (x, i) => (i, x)) =
      (0, x) :: (xs.zipIdx 1).map fun (x, i) => (i, x) := by simp [List.zipIdx_cons]
  unfold getMaxIndex
  rw [hz, maxBy]
  refine Spec.bind (P := fun o => ∃ b : ℕ × F, o = some b ∧ b.1 < (x :: xs).length) ?_ ?_
  · refine Spec.map ((foldlM_spec (fun _ (b : ℕ × F) => b.1 < (x :: xs).length) (by simp) ?_).imp
      fun b hb => ⟨b, rfl, hb⟩)
    rintro done ⟨i, y⟩ rest ⟨bi, bx⟩ heq h1
    have hi : (i, y) ∈ (xs.zipIdx 1).map fun (x, i) => (i, x) := by rw [heq]; simp
    have hil : i < (x :: xs).length := by
      simp only [List.mem_map, Prod.mk.injEq] at hi
      obtain ⟨⟨y', i'⟩, hm, rfl, rfl⟩ := hi
      have := List.snd_lt_of_mem_zipIdx hm
      simpa [Nat.add_comm] using this
    refine Spec.bind (P := fun _ => True) ?_ ?_
    · refine (Tame.stab bx y).bind ?_
      rintro (_ | r) hr
      · exact hr rfl
      · trivial
    · rintro (_ | _ | _) _
      · exact hil
      · exact hil
      · exact h1
  · rintro _ ⟨b, rfl, hb⟩
    exact hb

theorem Has.getStable (h : M.Has n m a) {c r : ℕ} (hc : c < m) (hr : r < n) :
    Spec E (M.getStable c r) (fun o => match o with
      | none => True
      | some (i, s) => r ≤ i ∧ i < n ∧ s = a i c ∧
          EpsilonEquality.epsilonEquals s (RField.zero : F) = .ok false) := by
  unfold Mat.getStable
  rw [h.getColIter hc, bind_ok]
  refine (getMaxIndex_tame _ ?_).bind fun k hk => ?_
  · rw [← List.length_pos_iff]; simp; omega
  · have hk' : k + r < n := by simp at hk; omega
    dsimp only
    rw [h.get hk' hc, bind_ok]
    cases hb : (EpsilonEquality.epsilonEquals (a (k + r) c) (RField.zero : F)) with
    | panic p => have := Tame.eps (E := E) (a (k + r) c) (RField.zero : F); rw [hb] at this; exact this
    | diverge => have := Tame.eps (E := E) (a (k + r) c) (RField.zero : F); rw [hb] at this; exact this
    | ok b =>
      rw [bind_ok]
      cases b with
      | true => trivial
      | false => exact ⟨by omega, hk', rfl, hb⟩

theorem Has.firstNonzero (h : M.Has n m a) {r : ℕ} (hr : r < n) :
    Spec E (M.firstNonzero r) (fun o => ∀ c, o = some c → c < m ∧
      EpsilonEquality.epsilonEquals (a r c) (RField.zero : F) = .ok false) := by
  unfold Mat.firstNonzero Mat.getRow
  rw [h.getRowIter hr, bind_ok]
  change Spec E (Mat.position _ ((List.range m).map fun j => a r j)) _
  have key : ∀ (l : List F), Spec E (Mat.position (fun x => do
      let b ← EpsilonEquality.epsilonEquals x (RField.zero : F); pure !b) l)
      (fun o => ∀ c, o = some c → ∃ x, l[c]? = some x ∧
        EpsilonEquality.epsilonEquals x (RField.zero : F) = .ok false) := by
    intro l
    induction l with
    | nil => intro c hc; cases hc
    | cons x xs ih =>
      rw [Mat.position]
      cases hb : (EpsilonEquality.epsilonEquals x (RField.zero : F)) with
      | panic p => have := Tame.eps (E := E) x (RField.zero : F); rw [hb] at this; exact this
      | diverge => have := Tame.eps (E := E) x (RField.zero : F); rw [hb] at this; exact this
      | ok b =>
        rw [bind_ok]
        cases b with
        | false => intro c hc; cases hc; exact ⟨x, rfl, hb⟩
        | true =>
          refine ih.bind fun o ho => ?_
          intro c hc
          cases o with
          | none => cases hc
          | some c' => cases hc; exact ho c' rfl
  refine (key _).imp fun o ho c hc => ?_
  obtain ⟨x, hx, hxe⟩ := ho c hc
  rw [List.getElem?_map] at hx
  by_cases hcm : c < m
  · simp [hcm] at hx; subst hx; exact ⟨hcm, hxe⟩
  · simp [hcm] at hx

theorem Has.zeroRows (h : M.Has n m a) : Spec E M.zeroRows (fun z => z ≤ n) := by
  unfold Mat.zeroRows
  rw [h.rows]
  refine foldlM_range_spec (fun k z => z ≤ k) le_rfl fun k z hk hz => ?_
  refine (h.firstNonzero hk).bind ?_
  rintro (_ | c) _
  · exact Nat.succ_le_succ hz
  · exact Nat.le_succ_of_le hz

end Mat

variable [EpsilonEquality F] [StabilityCmp F] {E : Panic → Prop} [Tame F E]

/-! ### `lu` -/

/-- What the loop of `lu` knows of its state when `r` pivots have been found: `l` is lower
triangular, its columns from `r` on are those of the identity matrix, and the entries of its diagonal
are the pivots. -/
structure LUInternal.Has (lu : LUInternal F) (n m r : ℕ) (π : ℕ → ℕ) (l : ℕ → ℕ → F) : Prop where
  p_len : lu.p.length = n
  p_get : ∀ i, i < n → lu.p[i]? = some (π i)
  perm : PermBelow n π
  l_has : lu.l.Has n n l
  u_shape : lu.u.Shape n m
  lower : ∀ i j, i < j → j < n → l i j = RField.zero
  right : ∀ i j, i < n → j < n → r ≤ j → l i j = if i = j then RField.one else RField.zero
  diag : ∀ i, i < r → i < n → EpsilonEquality.epsilonEquals (l i i) (RField.zero : F) = .ok false

theorem LUInternal.Has.step {lu : LUInternal F} {n m r s c : ℕ} {v : F} {π : ℕ → ℕ} {l : ℕ → ℕ → F}
    (h : lu.Has n m r π l) (hr : r < n) (hc : c < m) (hs : r ≤ s) (hsn : s < n)
    (hv : EpsilonEquality.epsilonEquals v (RField.zero : F) = .ok false) :
    Spec E (do
      let lu ← lu.permute r s
      let lu ← lu.scaleRow r v
      lu.replaceColUnderRow r c) (fun lu' => ∃ π' l', lu'.Has n m (r + 1) π' l') := by
  obtain ⟨p', h1, h2, h3⟩ := swapList_perm (l := lu.p) (i := r) (j := s) (by rw [h.p_len]; exact hr)
    (by rw [h.p_len]; exact hsn)
  refine Spec.bind (P := fun lu' : LUInternal F => lu'.Has n m r (fun i => π (Equiv.swap r s i))
    (fun i j => if j < r then l (Equiv.swap r s i) j else l i j)) ?_ ?_
  · unfold LUInternal.permute
    rw [h1, bind_ok]
    refine (h.u_shape.permuteRows hr hsn).bind fun u' hu' => ?_
    refine (h.l_has.permuteUnderDiagonal hr hsn (by omega)).bind fun l' hl' => ?_
    refine ⟨h2.trans h.p_len, fun i hi => (h3 i).trans (h.p_get _ (swap_lt hr hsn hi)),
      h.perm.swap hr hsn, hl', hu', fun i j hij hj => ?_, fun i j hi hj hrj => ?_, fun i hi hin => ?_⟩
    · split
      · rename_i hjr
        rw [swap_of_lt hs (by omega)]
        exact h.lower i j hij hj
      · exact h.lower i j hij hj
    · rw [if_neg (by omega)]; exact h.right i j hi hj hrj
    · rw [if_pos hi, swap_of_lt hs hi]; exact h.diag i hi hin
  · intro lu₁ h₁
    generalize hl₁ : (fun i j => if j < r then l (Equiv.swap r s i) j else l i j) = l₁ at h₁
    generalize hπ₁ : (fun i => π (Equiv.swap r s i)) = π₁ at h₁
    clear hl₁ hπ₁
    refine Spec.bind (P := fun lu' : LUInternal F => ∃ l', lu'.Has n m (r + 1) π₁ l' ) ?_ ?_
    · unfold LUInternal.scaleRow
      refine (h₁.l_has.set_spec hr hr).bind fun l' hl' => ?_
      refine (Tame.div RField.one v).bind fun w _ => ?_
      refine (h₁.u_shape.scaleRow hr).bind fun u' hu' => ?_
      refine ⟨_, h₁.p_len, h₁.p_get, h₁.perm, hl', hu', fun i j hij hj => ?_, fun i j hi hj hrj => ?_,
        fun i hi hin => ?_⟩
      · rw [if_neg (by omega)]; exact h₁.lower i j hij hj
      · rw [if_neg (by omega)]; exact h₁.right i j hi hj (by omega)
      · by_cases hir : i = r
        · rw [if_pos ⟨hir, hir⟩]; exact hv
        · rw [if_neg (by omega)]; exact h₁.diag i (by omega) hin
    · rintro lu₂ ⟨l₂, h₂⟩
      unfold LUInternal.replaceColUnderRow
      rw [h₂.u_shape.rows]
      refine (foldlM_range'_spec (fun _ (lu' : LUInternal F) => ∃ l', lu'.Has n m (r + 1) π₁ l')
        ⟨l₂, h₂⟩ ?_).imp fun lu' ⟨l', h'⟩ => ⟨π₁, l', h'⟩
      rintro k lu' hk hk' ⟨l', h'⟩
      refine (h'.u_shape.get (by omega) hc).bind fun x _ => ?_
      refine (Tame.sub RField.zero x).bind fun y _ => ?_
      refine (h'.u_shape.replaceRow hr (by omega)).bind fun u' hu' => ?_
      refine (h'.l_has.set_spec (show k < n by omega) hr).bind fun l'' hl'' => ?_
      refine ⟨_, h'.p_len, h'.p_get, h'.perm, hl'', hu', fun i j hij hj => ?_,
        fun i j hi hj hrj => ?_, fun i hi hin => ?_⟩
      · rw [if_neg (by omega)]; exact h'.lower i j hij hj
      · rw [if_neg (by omega)]; exact h'.right i j hi hj (by omega)
      · rw [if_neg (by omega)]; exact h'.diag i (by omega) hin

theorem Mat.luFor_tame {n m : ℕ} (k c r : ℕ) {lu : LUInternal F} {π : ℕ → ℕ} {l : ℕ → ℕ → F}
    (hcl : c + k ≤ m) (h : lu.Has n m r π l) (hrn : r ≤ n) :
    Spec E (Mat.luFor n (List.range' c k) r lu)
      (fun lu' => ∃ π' l' r', r' ≤ n ∧ lu'.Has n m r' π' l') := by
  induction k generalizing c lu l r π with
  | zero => exact ⟨π, l, r, hrn, h⟩
  | succ k ih =>
    rw [List.range'_succ, Mat.luFor]
    by_cases hrn' : r ≥ n
    · rw [if_pos hrn']
      exact ⟨π, l, r, hrn, h⟩
    · rw [if_neg hrn']
      push Not at hrn'
      have hc : c < m := by omega
      refine (h.u_shape.has.getStable hc hrn').bind ?_
      rintro (_ | ⟨s, v⟩) ho
      · exact ih (c + 1) r (by omega) h hrn
      · obtain ⟨hs, hsn, -, hne⟩ := ho
        have := (h.step (E := E) hrn' hc hs hsn hne).bind
          (f := fun lu => Mat.luFor n (List.range' (c + 1) k) (r + 1) lu)
          fun lu' ⟨π', l', h'⟩ => ih (c + 1) (r + 1) (by omega) h' hrn'
        simpa only [bind_assoc] using this

/-- `lu` of an `n × m` matrix, whatever the arithmetic. -/
theorem Mat.Shape.lu {M : Mat F} {n m : ℕ} (h : M.Shape n m) (hnn : n * n < 18446744073709551616) :
    Spec E M.lu (fun d => ∃ π l, PermBelow n π ∧
      d.p.Has n n (fun i j => if π i = j then RField.one else RField.zero) ∧ d.l.Has n n l ∧
      d.u.Shape n m ∧ (∀ i j, i < j → j < n → l i j = RField.zero) ∧
      ∀ i, i < n → l i i = RField.one ∨
        EpsilonEquality.epsilonEquals (l i i) (RField.zero : F) = .ok false) := by
  unfold Mat.lu
  rw [h.rows, h.cols, List.range_eq_range' (n := m)]
  refine (Mat.luFor_tame m 0 0 (m := m) (π := fun i => i)
    (l := fun i j => if i = j then RField.one else RField.zero) (by omega)
    ⟨by simp, fun i hi => by simp [hi], ⟨fun i hi => hi, fun i j _ _ h => h⟩,
      Mat.has_of_box h.rows_lt h.rows_lt hnn, h, fun i j hij _ => if_neg (by omega),
      fun i j _ _ _ => rfl, fun i hi => absurd hi (by omega)⟩ (by omega)).bind ?_
  rintro lu' ⟨π, l, r, hr, h'⟩
  refine ⟨π, l, h'.perm, ?_, h'.l_has, h'.u_shape, h'.lower, fun i hi => ?_⟩
  · unfold Mat.permutationFromVec
    rw [h'.p_len]
    refine (Mat.has_of_box h.rows_lt h.rows_lt hnn).congr fun i j hi _ => ?_
    simp only [h'.p_get i hi, Option.some.injEq]
  · by_cases hir : i < r
    · exact .inr (h'.diag i hir hi)
    · exact .inl (by rw [h'.right i i hi hi (by omega), if_pos rfl])

/-! ### Row equivalent forms -/

namespace Form
variable {f : Form F} {M : Mat F} {n m : ℕ}

/-- The shapes of the parts of a row-equivalent form. -/
structure Shape (f : Form F) (M : Mat F) (n m : ℕ) : Prop where
  original : f.original = M
  p_shape : f.p.Shape n n
  b_shape : f.b.Shape n m

theorem Shape.replaceStep (h : f.Shape M n m) {r c r2 : ℕ} (hr : r < n) (hr2 : r2 < n) (hc : c < m) :
    Spec E (f.replaceStep r c r2) (fun f' => f'.Shape M n m) := by
  unfold Form.replaceStep
  refine (h.b_shape.get hr2 hc).bind fun x _ => ?_
  refine (Tame.sub RField.zero x).bind fun y _ => ?_
  refine (h.p_shape.replaceRow hr hr2).bind fun p hp => ?_
  refine (Tame.sub RField.zero x).bind fun y _ => ?_
  refine (h.b_shape.replaceRow hr hr2).bind fun b hb => ?_
  exact ⟨h.original, hp, hb⟩

end Form

theorem Mat.rowEchelonFor_tame {M : Mat F} {n m : ℕ} (k c r : ℕ) {f : Form F}
    (hcl : c + k ≤ m) (h : f.Shape M n m) :
    Spec E (Mat.rowEchelonFor n (List.range' c k) r f) (fun f' => f'.Shape M n m) := by
  induction k generalizing c f r with
  | zero => exact h
  | succ k ih =>
    rw [List.range'_succ, Mat.rowEchelonFor]
    by_cases hrn : r ≥ n
    · rw [if_pos hrn]; exact h
    · rw [if_neg hrn]
      push Not at hrn
      have hc : c < m := by omega
      refine (h.b_shape.has.getStable hc hrn).bind ?_
      rintro (_ | ⟨s, v⟩) ho
      · exact ih (c + 1) r (by omega) h
      · obtain ⟨hs, hsn, -, hne⟩ := ho
        refine Spec.bind (P := fun f' : Form F => f'.Shape M n m) ?_ fun f₁ h₁ => ?_
        · unfold Form.permuteRows
          refine (h.p_shape.permuteRows hrn hsn).bind fun p hp => ?_
          refine (h.b_shape.permuteRows hrn hsn).bind fun b hb => ?_
          exact ⟨h.original, hp, hb⟩
        refine (Tame.div RField.one v).bind fun w _ => ?_
        refine Spec.bind (P := fun f' : Form F => f'.Shape M n m) ?_ fun f₂ h₂ => ?_
        · unfold Form.scaleRow
          refine (h₁.p_shape.scaleRow hrn).bind fun p hp => ?_
          refine (h₁.b_shape.scaleRow hrn).bind fun b hb => ?_
          exact ⟨h₁.original, hp, hb⟩
        refine Spec.bind (P := fun f' : Form F => f'.Shape M n m) ?_ fun f₃ h₃ => ?_
        · unfold Form.replaceColUnderRow
          rw [h₂.b_shape.rows]
          exact foldlM_range'_spec (fun _ (f' : Form F) => f'.Shape M n m) h₂ fun i f' hi hi' h' =>
            h'.replaceStep hrn (by omega) hc
        exact ih (c + 1) (r + 1) (by omega) h₃

theorem Mat.Shape.rowEchelon {M : Mat F} {n m : ℕ} (h : M.Shape n m)
    (hnn : n * n < 18446744073709551616) :
    Spec E M.rowEchelon (fun f => f.Shape M n m) := by
  unfold Mat.rowEchelon
  rw [h.rows, h.cols, List.range_eq_range' (n := m)]
  exact Mat.rowEchelonFor_tame m 0 0 (by omega)
    ⟨rfl, (Mat.has_of_box h.rows_lt h.rows_lt hnn).shape, h⟩

namespace Form
variable {f : Form F} {M : Mat F} {n m : ℕ}

theorem Shape.toRref (h : f.Shape M n m) : Spec E f.toRref (fun f' => f'.Shape M n m) := by
  unfold Form.toRref
  rw [h.b_shape.rows]
  refine foldlM_range'_rev_spec (fun _ (f' : Form F) => f'.Shape M n m) h fun r f' hr hrn h' => ?_
  refine (h'.b_shape.has.firstNonzero (by omega)).bind ?_
  rintro (_ | c) hc
  · exact h'
  · unfold Form.replaceColAboveRow
    refine foldlM_range_spec (fun _ (f' : Form F) => f'.Shape M n m) h' fun i f'' hi h'' => ?_
    exact h''.replaceStep (by omega) (by omega) (hc c rfl).1

theorem Shape.rank (h : f.Shape M n m) : Spec E f.rank (fun k => k ≤ n) := by
  unfold Form.rank
  refine h.b_shape.has.zeroRows.bind fun z hz => ?_
  unfold Usize.sub
  rw [h.b_shape.rows, if_pos hz]
  exact Nat.sub_le _ _

theorem Shape.boundVariables (h : f.Shape M n m) :
    Spec E f.boundVariables (fun l => l.Nodup ∧ ∀ c ∈ l, c < m) := by
  unfold Form.boundVariables
  rw [h.b_shape.rows]
  refine (mapM_spec (P := fun _ o => ∀ c, o = some c → c < m) fun r hr =>
    (h.b_shape.has.firstNonzero (by simpa using hr)).imp fun o ho c hc => (ho c hc).1).bind
      fun l hl => ?_
  refine ⟨List.nodup_dedup _, fun c hc => ?_⟩
  rw [List.mem_dedup, List.mem_filterMap] at hc
  obtain ⟨o, ho, rfl⟩ := hc
  obtain ⟨i, hi⟩ := List.getElem?_of_mem ho
  rw [List.forall₂_iff_get] at hl
  obtain ⟨hi', he⟩ := List.getElem?_eq_some_iff.mp hi
  exact hl.2 i (by rw [hl.1]; exact hi') hi' c he

theorem Shape.computeKernel (h : f.Shape M n m) :
    Spec E f.computeKernel (fun vs => ∀ v ∈ vs, v.Shape m 1) := by
  unfold Form.computeKernel
  refine h.boundVariables.bind fun bound _ => ?_
  rw [h.b_shape.rows, h.b_shape.cols]
  have hm := h.b_shape.cols_lt
  refine (mapM_spec (P := fun _ (v : Mat F) => v.Shape m 1) fun c hc => ?_).imp fun l hl v hv => ?_
  · have hcm : c < m := by
      rw [List.mem_filter] at hc; simpa using hc.1
    refine foldlM_range_spec (fun _ (v : Mat F) => v.Shape m 1)
      ⟨rfl, rfl, by simp [Mat.e, Mat.new], hm, by norm_num, by omega⟩ fun r v hr hv => ?_
    refine (h.b_shape.has.firstNonzero hr).bind ?_
    rintro (_ | c2) hc2
    · exact hv
    · dsimp only
      split
      · refine (h.b_shape.get hr hcm).bind fun x _ => ?_
        refine (Tame.sub RField.zero x).bind fun y _ => ?_
        exact hv.set (hc2 c2 rfl).1 (by omega)
      · exact hv
  · obtain ⟨i, hi⟩ := List.getElem?_of_mem hv
    rw [List.forall₂_iff_get] at hl
    obtain ⟨hi', he⟩ := List.getElem?_eq_some_iff.mp hi
    have := hl.2 i (by rw [hl.1]; exact hi') hi'
    simp only [List.get_eq_getElem] at this
    rwa [he] at this

theorem Shape.computeRange (h : f.Shape M n m) (hM : M.Shape n m) (order : List ℕ → List ℕ)
    (ho : ∀ l, (order l).Perm l) :
    Spec E (f.computeRange order) (fun vs => ∀ v ∈ vs, v.Shape n 1) := by
  unfold Form.computeRange
  refine h.boundVariables.bind fun bound hb => ?_
  rw [h.original]
  refine (mapM_spec (P := fun _ (v : Mat F) => v.Shape n 1) fun c hc =>
    hM.getCol (hb.2 c ((ho bound).mem_iff.mp hc))).imp fun l hl v hv => ?_
  obtain ⟨i, hi⟩ := List.getElem?_of_mem hv
  rw [List.forall₂_iff_get] at hl
  obtain ⟨hi', he⟩ := List.getElem?_eq_some_iff.mp hi
  have := hl.2 i (by rw [hl.1]; exact hi') hi'
  simp only [List.get_eq_getElem] at this
  rwa [he] at this

end Form
end Verif
