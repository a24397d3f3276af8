import Verif.LinAlg.Mat
import Verif.Proofs.Divide
import Mathlib.Algebra.BigOperators.Intervals

/-!
# Matrices as functions: what the cells of a `Mat` hold

`M.Is n m a`: `M` is a well-formed `n × m` matrix whose entry `(i, j)` represents `a i j : K`.
-/

namespace Verif
open Res LawfulRField LinAlg

/-! ### Loops over ranges -/

theorem foldlM_range'_spec {β : Type} {E : Panic → Prop} {f : β → ℕ → Res β} {s n : ℕ} {b : β}
    (Inv : ℕ → β → Prop) (h0 : Inv s b)
    (hstep : ∀ k c, s ≤ k → k < s + n → Inv k c → Spec E (f c k) (Inv (k + 1))) :
    Spec E ((List.range' s n).foldlM f b) (Inv (s + n)) := by
  induction n generalizing s b with
  | zero => simpa using h0
  | succ n ih =>
    rw [List.range'_succ, List.foldlM_cons]
    refine (hstep s b le_rfl (by omega) h0).bind fun c hc => ?_
    have := ih (s := s + 1) (b := c) hc fun k c hk hk' => hstep k c (by omega) (by omega)
    rwa [show s + (n + 1) = s + 1 + n by omega]

theorem foldlM_range_spec {β : Type} {E : Panic → Prop} {f : β → ℕ → Res β} {n : ℕ} {b : β}
    (Inv : ℕ → β → Prop) (h0 : Inv 0 b)
    (hstep : ∀ k c, k < n → Inv k c → Spec E (f c k) (Inv (k + 1))) :
    Spec E ((List.range n).foldlM f b) (Inv n) := by
  rw [List.range_eq_range']
  have := foldlM_range'_spec (s := 0) (n := n) Inv h0 fun k c _ hk => hstep k c (by omega)
  rwa [Nat.zero_add] at this

/-- A loop over `(s..s+n).rev()`; `Inv k` holds when the indices from `k` on are done. -/
theorem foldlM_range'_rev_spec {β : Type} {E : Panic → Prop} {f : β → ℕ → Res β} {s n : ℕ} {b : β}
    (Inv : ℕ → β → Prop) (h0 : Inv (s + n) b)
    (hstep : ∀ k c, s ≤ k → k < s + n → Inv (k + 1) c → Spec E (f c k) (Inv k)) :
    Spec E ((List.range' s n).reverse.foldlM f b) (Inv s) := by
  induction n generalizing b with
  | zero => simpa using h0
  | succ n ih =>
    rw [List.range'_1_concat, List.reverse_append, List.reverse_singleton, List.singleton_append,
      List.foldlM_cons]
    refine (hstep (s + n) b (by omega) (by omega) h0).bind fun c hc => ?_
    exact ih hc fun k c hk hk' => hstep k c hk (by omega)

/-! ### Row-major order -/

theorem rowMajor_lt {n m i j : ℕ} (hi : i < n) (hj : j < m) : i * m + j < n * m := by
  calc i * m + j < i * m + m := by omega
    _ = (i + 1) * m := by ring
    _ ≤ n * m := Nat.mul_le_mul_right m hi

theorem rowMajor_inj {m i j i' j' : ℕ} (hj : j < m) (hj' : j' < m) (h : i * m + j = i' * m + j') :
    i = i' ∧ j = j' := by
  have hm : 0 < m := by omega
  have h1 : (i * m + j) / m = i := by rw [Nat.mul_comm, Nat.mul_add_div hm, Nat.div_eq_of_lt hj]; rfl
  have h2 : (i' * m + j') / m = i' := by
    rw [Nat.mul_comm, Nat.mul_add_div hm, Nat.div_eq_of_lt hj']; rfl
  have : i = i' := by rw [← h1, ← h2, h]
  subst this
  exact ⟨rfl, by omega⟩

theorem boxIter_length (n m : ℕ) : (boxIter n m).length = n * m := by
  simp [boxIter, List.length_flatMap]

theorem boxIter_get {n m i j : ℕ} (hi : i < n) (hj : j < m) :
    (boxIter n m)[i * m + j]? = some (i, j) := by
  induction n with
  | zero => omega
  | succ n ih =>
    have hs : boxIter (n + 1) m = boxIter n m ++ (List.range m).map fun c => (n, c) := by
      simp [boxIter, List.range_succ, List.flatMap_append]
    rw [hs]
    by_cases h : i < n
    · rw [List.getElem?_append_left (by rw [boxIter_length]; exact rowMajor_lt h hj)]
      exact ih h
    · have : i = n := by omega
      subst this
      rw [List.getElem?_append_right (by rw [boxIter_length]; omega), boxIter_length]
      simp [hj]

theorem mem_boxIter {n m : ℕ} {p : ℕ × ℕ} : p ∈ boxIter n m ↔ p.1 < n ∧ p.2 < m := by
  obtain ⟨r, c⟩ := p
  simp [boxIter]

theorem forall₂_get {α β : Type} {P : α → β → Prop} {l : List α} {l' : List β}
    (h : List.Forall₂ P l l') {k : ℕ} {a : α} (ha : l[k]? = some a) : ∃ b, l'[k]? = some b ∧ P a b := by
  induction h generalizing k with
  | nil => simp at ha
  | cons h _ ih =>
    cases k with
    | zero => simp at ha; subst ha; exact ⟨_, rfl, h⟩
    | succ k => simpa using ih (by simpa using ha)

/-! ### `usize` arithmetic without overflow -/

theorem Usize.norm_eq {b : Build} {x : ℕ} (h : x < 18446744073709551616) : Usize.norm b x = .ok x := by
  unfold Usize.norm; rw [if_pos h]

variable {F : Type} [RField F] {K : Type} [Field K] [LawfulRField F K]

namespace Mat

/-- `M` is a well-formed `n × m` matrix whose entry `(i, j)` represents `a i j`. -/
structure Is (M : Mat F) (n m : ℕ) (a : ℕ → ℕ → K) : Prop where
  rows : M.rows = n
  cols : M.cols = m
  len : M.entries.length = n * m
  rows_lt : n < 18446744073709551616
  cols_lt : m < 18446744073709551616
  len_lt : n * m < 18446744073709551616
  entry : ∀ i j, i < n → j < m → ∃ x : F, M.entries[i * m + j]? = some x ∧ wf x ∧ val x = a i j

variable {M : Mat F} {n m : ℕ} {a : ℕ → ℕ → K}

theorem Is.congr (h : M.Is n m a) {a' : ℕ → ℕ → K} (ha : ∀ i j, i < n → j < m → a i j = a' i j) :
    M.Is n m a' := by
  refine { h with entry := fun i j hi hj => ?_ }
  obtain ⟨x, h1, h2, h3⟩ := h.entry i j hi hj
  exact ⟨x, h1, h2, h3.trans (ha i j hi hj)⟩

theorem Is.offset (h : M.Is n m a) {i j : ℕ} (hi : i < n) (hj : j < m) :
    M.offset i j = .ok (i * m + j) := by
  have := rowMajor_lt hi hj
  have hl := h.len_lt
  unfold Mat.offset Usize.mul Usize.add
  rw [h.cols, Usize.norm_eq (by omega), bind_ok, Usize.norm_eq (by omega)]

theorem Is.get (h : M.Is n m a) {i j : ℕ} (hi : i < n) (hj : j < m) :
    ∃ x, M.get i j = .ok x ∧ wf x ∧ val x = a i j := by
  obtain ⟨x, h1, h2⟩ := h.entry i j hi hj
  refine ⟨x, ?_, h2⟩
  rw [Mat.get, h.offset hi hj, bind_ok, h1]; rfl

theorem Is.get_spec (h : M.Is n m a) {E : Panic → Prop} {i j : ℕ} (hi : i < n) (hj : j < m) :
    Spec E (M.get i j) (fun x => wf x ∧ val x = a i j) := by
  obtain ⟨x, h1, h2⟩ := h.get hi hj
  rw [h1]; exact h2

/-- The function `a` with `v` at `(i, j)`. -/
def upd (a : ℕ → ℕ → K) (i j : ℕ) (v : K) : ℕ → ℕ → K :=
  fun i' j' => if i' = i ∧ j' = j then v else a i' j'

theorem Is.set (h : M.Is n m a) {i j : ℕ} {y : F} (hi : i < n) (hj : j < m) (hy : wf y) :
    ∃ M', M.set i j y = .ok M' ∧ M'.Is n m (upd a i j (val y)) := by
  refine ⟨{ M with entries := M.entries.set (i * m + j) y }, ?_, ?_⟩
  · rw [Mat.set, h.offset hi hj, bind_ok, if_pos (by rw [h.len]; exact rowMajor_lt hi hj)]; rfl
  · refine { h with len := by simp [h.len], entry := fun i' j' hi' hj' => ?_ }
    dsimp only
    by_cases he : i' = i ∧ j' = j
    · obtain ⟨rfl, rfl⟩ := he
      refine ⟨y, ?_, hy, by simp [upd]⟩
      rw [List.getElem?_set_self (by rw [h.len]; exact rowMajor_lt hi hj)]
    · obtain ⟨x, h1, h2, h3⟩ := h.entry i' j' hi' hj'
      refine ⟨x, ?_, h2, by rw [h3, upd, if_neg he]⟩
      rw [List.getElem?_set_ne, h1]
      intro heq
      obtain ⟨e1, e2⟩ := rowMajor_inj hj hj' heq
      exact he ⟨e1.symm, e2.symm⟩

theorem Is.set_spec (h : M.Is n m a) {E : Panic → Prop} {i j : ℕ} {y : F} (hi : i < n) (hj : j < m)
    (hy : wf y) : Spec E (M.set i j y) (fun M' => M'.Is n m (upd a i j (val y))) := by
  obtain ⟨M', h1, h2⟩ := h.set hi hj hy
  rw [h1]; exact h2

/-! ### Building matrices from `get_box_iter` -/

theorem is_of_box {n m : ℕ} {f : ℕ × ℕ → F} (hn : n < 18446744073709551616)
    (hm : m < 18446744073709551616) (hnm : n * m < 18446744073709551616)
    (hf : ∀ i j, i < n → j < m → wf (f (i, j))) :
    (Mat.new n m ((boxIter n m).map f)).Is n m (fun i j => val (f (i, j))) where
  rows := rfl
  cols := rfl
  len := by simp [Mat.new, boxIter_length]
  rows_lt := hn
  cols_lt := hm
  len_lt := hnm
  entry i j hi hj := ⟨f (i, j), by simp [Mat.new, boxIter_get hi hj], hf i j hi hj, rfl⟩

theorem is_of_box_mapM {n m : ℕ} {E : Panic → Prop} {f : ℕ × ℕ → Res F}
    (hn : n < 18446744073709551616)
    (hm : m < 18446744073709551616) (hnm : n * m < 18446744073709551616)
    (hf : ∀ i j, i < n → j < m → Spec E (f (i, j)) (fun x => wf x ∧ val x = a i j)) :
    Spec E ((boxIter n m).mapM f >>= fun entries => (pure (Mat.new n m entries) : Res (Mat F)))
      (fun M => M.Is n m a) := by
  refine (mapM_spec (P := fun p x => wf x ∧ val x = a p.1 p.2) ?_).bind fun entries he => ?_
  · rintro ⟨i, j⟩ hp
    obtain ⟨hi, hj⟩ := mem_boxIter.mp hp
    exact hf i j hi hj
  · refine ⟨rfl, rfl, ?_, hn, hm, hnm, fun i j hi hj => ?_⟩
    · simp [Mat.new, ← he.length_eq, boxIter_length]
    · obtain ⟨x, h1, h2⟩ := forall₂_get he (boxIter_get hi hj)
      exact ⟨x, h1, h2⟩

theorem is_of_mapM_vec {n : ℕ} {E : Panic → Prop} {f : ℕ → Res F} {v : ℕ → K}
    (hn : n < 18446744073709551616) (hf : ∀ i, i < n → Spec E (f i) (fun x => wf x ∧ val x = v i)) :
    Spec E ((List.range n).mapM f >>= fun l => (pure (Mat.fromIter l) : Res (Mat F)))
      (fun M => M.Is n 1 (fun i _ => v i)) := by
  refine (mapM_spec (P := fun i x => wf x ∧ val x = v i) ?_).bind fun entries he => ?_
  · intro i hi; exact hf i (by simpa using hi)
  · refine ⟨by simp [Mat.fromIter, ← he.length_eq], rfl, by simp [Mat.fromIter, ← he.length_eq], hn,
      by norm_num, by omega, fun i j hi hj => ?_⟩
    have : j = 0 := by omega
    subst this
    obtain ⟨x, h1, h2⟩ := forall₂_get he (k := i) (a := i) (by simp [hi])
    exact ⟨x, by simpa [Mat.fromIter] using h1, h2⟩

/-! ### Row and column iterators -/

theorem Is.getRowIter (h : M.Is n m a) {r : ℕ} (hr : r < n) :
    ∃ l, M.getRowIter r = .ok l ∧ l.length = m ∧
      ∀ j, j < m → ∃ x, l[j]? = some x ∧ M.entries[r * m + j]? = some x ∧ wf x ∧ val x = a r j := by
  have h1 : r * m ≤ (r + 1) * m := Nat.mul_le_mul_right m (by omega)
  have h2 : (r + 1) * m ≤ n * m := Nat.mul_le_mul_right m hr
  have h3 := h.len_lt
  have h4 := h.rows_lt
  have h5 : (r + 1) * m - r * m = m := by rw [Nat.succ_mul]; omega
  refine ⟨(M.entries.drop (r * m)).take m, ?_, ?_, fun j hj => ?_⟩
  · unfold Mat.getRowIter Usize.mul Usize.add
    rw [h.cols, Usize.norm_eq (by omega), bind_ok, Usize.norm_eq (by omega), bind_ok,
      Usize.norm_eq (by omega), bind_ok, if_pos ⟨h1, by rw [h.len]; exact h2⟩, h5]
    rfl
  · rw [List.length_take, List.length_drop, h.len]
    rw [Nat.succ_mul] at h2; omega
  · obtain ⟨x, hx, hw, hv⟩ := h.entry r j hr hj
    exact ⟨x, by rw [List.getElem?_take_of_lt hj, List.getElem?_drop, hx], hx, hw, hv⟩

theorem Is.getColIter (h : M.Is n m a) {E : Panic → Prop} {c : ℕ} (hc : c < m) :
    Spec E (M.getColIter c) (fun l => l.length = n ∧
      ∀ i, i < n → ∃ x, l[i]? = some x ∧ M.get i c = .ok x ∧ wf x ∧ val x = a i c) := by
  unfold Mat.getColIter
  rw [h.rows]
  refine (mapM_spec (P := fun i x => M.get i c = .ok x ∧ wf x ∧ val x = a i c) ?_).imp fun l hl => ?_
  · intro i hi
    obtain ⟨x, h1, h2⟩ := h.get (by simpa using hi) hc
    rw [h1]; exact ⟨rfl, h2⟩
  · refine ⟨by simp [← hl.length_eq], fun i hi => ?_⟩
    exact forall₂_get hl (k := i) (a := i) (by simp [hi])

theorem Is.getCol (h : M.Is n m a) {E : Panic → Prop} {c : ℕ} (hc : c < m) :
    Spec E (M.getCol c) (fun v => v.Is n 1 (fun i _ => a i c)) := by
  unfold Mat.getCol Mat.getColIter
  rw [h.rows]
  exact is_of_mapM_vec h.rows_lt fun i hi => h.get_spec hi hc

/-! ### Row operations -/

theorem Is.scaleRow (h : M.Is n m a) {i : ℕ} {s : F} (hi : i < n) (hs : wf s) :
    Spec (allowed F) (M.scaleRow i s)
      (fun M' => M'.Is n m (fun i' j => if i' = i then val s * a i j else a i' j)) := by
  unfold Mat.scaleRow
  rw [h.cols]
  refine (foldlM_range_spec (fun k M' => M'.Is n m
    (fun i' j => if i' = i ∧ j < k then val s * a i j else a i' j)) ?_ ?_).imp fun M' hM' => ?_
  · exact h.congr fun i' j _ _ => by simp
  · intro k M' hk hM'
    refine (hM'.get_spec hi hk).bind fun x hx => ?_
    refine (mul_spec s x hs hx.1).bind fun y hy => ?_
    refine (hM'.set_spec hi hk hy.1).imp fun M'' hM'' => hM''.congr fun i' j hi' hj => ?_
    rw [hy.2, hx.2]
    unfold upd
    simp only [lt_irrefl, and_false, if_false]
    split_ifs with h1 h2 h3 <;> try rfl
    all_goals first | omega | (obtain ⟨rfl, rfl⟩ := h1; simp)
  · refine hM'.congr fun i' j hi' hj => ?_
    split_ifs with h1 h2 <;> first | rfl | omega

theorem Is.permuteRows (h : M.Is n m a) {E : Panic → Prop} {s t : ℕ} (hs : s < n) (ht : t < n) :
    Spec E (M.permuteRows s t) (fun M' => M'.Is n m (fun i j => a (Equiv.swap s t i) j)) := by
  unfold Mat.permuteRows
  rw [h.cols]
  refine (foldlM_range_spec (fun k M' => M'.Is n m
    (fun i j => if j < k then a (Equiv.swap s t i) j else a i j)) ?_ ?_).imp fun M' hM' => ?_
  · exact h.congr fun i' j _ _ => by simp
  · intro k M' hk hM'
    refine (hM'.get_spec hs hk).bind fun x hx => ?_
    refine (hM'.get_spec ht hk).bind fun y hy => ?_
    refine (hM'.set_spec hs hk hy.1).bind fun M₁ hM₁ => ?_
    refine (hM₁.set_spec ht hk hx.1).imp fun M₂ hM₂ => hM₂.congr fun i j hi hj => ?_
    rw [hx.2, hy.2]
    unfold upd
    simp only [lt_irrefl, if_false]
    by_cases hjk : j = k
    · subst hjk
      by_cases h1 : i = t
      · subst h1; simp
      · by_cases h2 : i = s
        · subst h2; simp [h1]
        · simp [h1, h2, Equiv.swap_apply_of_ne_of_ne h2 h1]
    · have : j < k ↔ j < k + 1 := by omega
      simp [hjk, this]
  · refine hM'.congr fun i' j hi' hj => ?_
    rw [if_pos hj]

theorem Is.replaceRow (h : M.Is n m a) {s t : ℕ} {c : F} (hs : s < n) (ht : t < n) (hc : wf c) :
    Spec (allowed F) (M.replaceRow s t c)
      (fun M' => M'.Is n m (fun i j => if i = t then a t j + a s j * val c else a i j)) := by
  unfold Mat.replaceRow
  rw [h.cols]
  refine (foldlM_range_spec (fun k M' => M'.Is n m
    (fun i j => if i = t ∧ j < k then a t j + a s j * val c else a i j)) ?_ ?_).imp fun M' hM' => ?_
  · exact h.congr fun i' j _ _ => by simp
  · intro k M' hk hM'
    refine (hM'.get_spec ht hk).bind fun x hx => ?_
    refine (hM'.get_spec hs hk).bind fun y hy => ?_
    refine (mul_spec y c hy.1 hc).bind fun z hz => ?_
    refine (add_spec x z hx.1 hz.1).bind fun w hw => ?_
    refine (hM'.set_spec ht hk hw.1).imp fun M'' hM'' => hM''.congr fun i' j hi' hj => ?_
    rw [hw.2, hz.2, hx.2, hy.2]
    unfold upd
    simp only [lt_irrefl, and_false, if_false]
    split_ifs with h1 h2 h3 <;> try rfl
    all_goals first | omega | (obtain ⟨rfl, rfl⟩ := h1; simp)
  · refine hM'.congr fun i' j hi' hj => ?_
    split_ifs with h1 h2 <;> first | rfl | omega

theorem Is.swap (h : M.Is n m a) {E : Panic → Prop} {i j i' j' : ℕ} (hi : i < n) (hj : j < m)
    (hi' : i' < n) (hj' : j' < m) :
    Spec E (M.swap (i, j) (i', j'))
      (fun M' => M'.Is n m (upd (upd a i j (a i' j')) i' j' (a i j))) := by
  obtain ⟨x, hx, hxw, hxv⟩ := h.entry i j hi hj
  obtain ⟨y, hy, hyw, hyv⟩ := h.entry i' j' hi' hj'
  obtain ⟨M₁, h1, hM₁⟩ := h.set hi hj hyw
  obtain ⟨M₂, h2, hM₂⟩ := hM₁.set hi' hj' hxw
  rw [hxv, hyv] at hM₂
  have : M.swap (i, j) (i', j') = .ok M₂ := by
    rw [Mat.set, hM₁.offset hi' hj', bind_ok, if_pos (by rw [hM₁.len]; exact rowMajor_lt hi' hj')] at h2
    rw [Mat.set, h.offset hi hj, bind_ok, if_pos (by rw [h.len]; exact rowMajor_lt hi hj)] at h1
    rw [Mat.swap, h.offset hi hj, bind_ok, h.offset hi' hj', bind_ok, Mat.swapList, hx, hy]
    cases h1; cases h2
    rfl
  rw [this]; exact hM₂

/-! ### Constructors -/

theorem is_identity (hn : n < 18446744073709551616) (hnn : n * n < 18446744073709551616) :
    (Mat.identity n : Mat F).Is n n (fun i j => if i = j then (1 : K) else 0) := by
  refine (is_of_box hn hn hnn ?_).congr ?_
  · intro i j _ _; dsimp only; split
    · exact wf_one
    · exact wf_zero
  · intro i j _ _
    dsimp only
    split
    · exact val_one
    · exact val_zero

theorem is_e {k : ℕ} (hn : n < 18446744073709551616) :
    (Mat.e k n : Mat F).Is n 1 (fun i _ => if i = k then (1 : K) else 0) := by
  refine ⟨rfl, rfl, by simp [Mat.e, Mat.new], hn, by norm_num, by omega, fun i j hi hj => ?_⟩
  have : j = 0 := by omega
  subst this
  refine ⟨if i = k then RField.one else RField.zero, ?_, ?_, ?_⟩
  · simp [Mat.e, Mat.new, hi]
  · split
    · exact wf_one
    · exact wf_zero
  · split
    · exact val_one
    · exact val_zero

end Mat
end Verif
