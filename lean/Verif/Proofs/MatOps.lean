import Verif.Proofs.Represents
import Mathlib.LinearAlgebra.Matrix.DotProduct

/-!
# Matrix operators
-/

set_option linter.unusedSectionVars false

namespace Verif

open Res LawfulRField LinAlg

variable {F : Type} [RField F] {K : Type} [Field K] [LawfulRField F K]

theorem sum_range_list {R : Type} [AddCommMonoid R] (n : ℕ) (f : ℕ → R) : ((List.range n).map f).sum = ∑ i ∈ Finset.range n, f i := by
  rw [← List.sum_toFinset _ List.nodup_range, List.toFinset_range]

theorem sum_boxIter {R : Type} [AddCommMonoid R] (n m : ℕ) (f : ℕ × ℕ → R) :
    ((boxIter n m).map f).sum = ∑ i ∈ Finset.range n, ∑ j ∈ Finset.range m, f (i, j) := by
  rw [boxIter, List.map_flatMap, List.flatMap_def]
  rw [List.sum_flatten, List.map_map, ← sum_range_list]
  congr 1
  refine List.map_congr_left fun i _ => ?_
  simp only [Function.comp, List.map_map]
  rw [← sum_range_list]
  rfl

theorem foldlM_sum {α : Type} {l : List α} {g : α → K} {f : F → α → Res F} {acc : F} (hacc : wf acc)
    (hf : ∀ acc, wf acc → ∀ x ∈ l, Spec (allowed F) (f acc x)
      (fun c => wf c ∧ val c = val acc + g x)) :
    Spec (allowed F) (l.foldlM f acc) (fun c => wf c ∧ val c = val acc + (l.map g).sum) := by
  induction l generalizing acc with
  | nil => exact ⟨hacc, by simp⟩
  | cons x xs ih =>
    rw [List.foldlM_cons]
    refine (hf acc hacc x (by simp)).bind fun c hc => ?_
    refine (ih hc.1 fun acc h y hy => hf acc h y (by simp [hy])).imp fun d hd => ⟨hd.1, ?_⟩
    rw [hd.2, hc.2, List.map_cons, List.sum_cons, add_assoc]

theorem allM_spec {α : Type} {E : Panic → Prop} {l : List α} {p : α → Res Bool} {P : α → Prop}
    (h : ∀ x ∈ l, Spec E (p x) (fun b => b = true ↔ P x)) :
    Spec E (l.allM p) (fun b => b = true ↔ ∀ x ∈ l, P x) := by
  induction l with
  | nil => change (true = true ↔ _); simp
  | cons x xs ih =>
    rw [List.allM]
    refine (h x (by simp)).bind fun b hb => ?_
    cases b
    · change (false = true ↔ _)
      simp only [Bool.false_eq_true, false_iff] at hb ⊢
      exact fun h => hb (h x (by simp))
    · refine (ih fun y hy => h y (by simp [hy])).imp fun b' hb' => hb'.trans ?_
      rw [List.forall_mem_cons]
      exact ⟨fun h => ⟨hb.mp rfl, h⟩, fun h => h.2⟩

theorem rowMajor_divMod {n m k : ℕ} (hk : k < n * m) : k / m < n ∧ k % m < m ∧ k / m * m + k % m = k := by
  have hm : 0 < m := by
    rcases Nat.eq_zero_or_pos m with rfl | h
    · omega
    · exact h
  exact ⟨Nat.div_lt_of_lt_mul (by rwa [Nat.mul_comm]), Nat.mod_lt _ hm, Nat.div_add_mod' k m⟩

namespace Mat
variable {M N : Mat F} {n m q : ℕ} {a b : ℕ → ℕ → K}

theorem Is.entries (h : M.Is n m a) {k : ℕ} (hk : k < n * m) :
    ∃ x, M.entries[k]? = some x ∧ wf x ∧ val x = a (k / m) (k % m) := by
  obtain ⟨h1, h2, h3⟩ := rowMajor_divMod hk
  have := h.entry _ _ h1 h2
  rwa [h3] at this

theorem Is.wf_entries (h : M.Is n m a) : ∀ x ∈ M.entries, wf x := by
  intro x hx
  obtain ⟨k, hk⟩ := List.getElem?_of_mem hx
  have hlt : k < n * m := by rw [← h.len]; exact (List.getElem?_eq_some_iff.mp hk).1
  obtain ⟨y, hy, hw, _⟩ := h.entries hlt
  rw [hk] at hy; cases hy
  exact hw

theorem boxIter_getElem? {k : ℕ} (hk : k < n * m) : (boxIter n m)[k]? = some (k / m, k % m) := by
  obtain ⟨h1, h2, h3⟩ := rowMajor_divMod hk
  have := boxIter_get h1 h2
  rwa [h3] at this

theorem Is.map_entries (h : M.Is n m a) (g : K → K) :
    M.entries.map (fun x => g (val x)) = (boxIter n m).map fun p => g (a p.1 p.2) := by
  apply List.ext_getElem?
  intro k
  by_cases hk : k < n * m
  · obtain ⟨x, hx, _, hv⟩ := h.entries hk
    rw [List.getElem?_map, List.getElem?_map, hx, boxIter_getElem? hk]
    simp [hv]
  · rw [List.getElem?_eq_none (by rw [List.length_map, h.len]; omega),
      List.getElem?_eq_none (by rw [List.length_map, boxIter_length]; omega)]

theorem is_of_entries {entries : List F} (hlen : entries.length = n * m) (h1 : n < 18446744073709551616)
    (h2 : m < 18446744073709551616) (h3 : n * m < 18446744073709551616)
    (he : ∀ k, k < n * m → ∃ x, entries[k]? = some x ∧ wf x ∧ val x = a (k / m) (k % m)) :
    (⟨entries, n, m⟩ : Mat F).Is n m a := by
  refine ⟨rfl, rfl, hlen, h1, h2, h3, fun i j hi hj => ?_⟩
  obtain ⟨x, hx, hw, hv⟩ := he (i * m + j) (rowMajor_lt hi hj)
  have hm : 0 < m := by omega
  have e1 : (i * m + j) / m = i := by
    rw [Nat.mul_comm, Nat.mul_add_div hm, Nat.div_eq_of_lt hj]; rfl
  have e2 : (i * m + j) % m = j := by
    rw [Nat.mul_comm, Nat.mul_add_mod, Nat.mod_eq_of_lt hj]
  rw [e1, e2] at hv
  exact ⟨x, hx, hw, hv⟩

theorem Is.map_spec (h : M.Is n m a) {f : F → Res F} {g : K → K}
    (hf : ∀ x, wf x → Spec (allowed F) (f x) (fun c => wf c ∧ val c = g (val x))) :
    Spec (allowed F) (M.entries.mapM f) (fun l => (⟨l, n, m⟩ : Mat F).Is n m (fun i j => g (a i j))) := by
  refine (mapM_spec (P := fun x c => wf c ∧ val c = g (val x)) fun x hx => hf x (h.wf_entries x hx)).imp
    fun l hl => is_of_entries (hl.length_eq.symm.trans h.len) h.rows_lt h.cols_lt h.len_lt
      fun k hk => ?_
  obtain ⟨x, hx, _, hv⟩ := h.entries hk
  obtain ⟨c, hc, hcw, hcv⟩ := forall₂_get hl hx
  exact ⟨c, hc, hcw, by rw [hcv, hv]⟩

theorem Is.smul (h : M.Is n m a) {s : F} (hs : wf s) :
    Spec (allowed F) (M.smul s) (fun M' => M'.Is n m (fun i j => a i j * val s)) := by
  unfold Mat.smul
  refine (h.map_spec (f := fun x => RField.mul x s) (g := fun x => x * val s)
    fun x hx => mul_spec x s hx hs).bind fun l hl => ?_
  rw [h.rows, h.cols]
  exact hl

theorem Is.scale (h : M.Is n m a) {s : F} (hs : wf s) :
    Spec (allowed F) (M.scale s) (fun M' => M'.Is n m (fun i j => a i j * val s)) := by
  unfold Mat.scale
  refine (h.map_spec (f := fun x => RField.mul x s) (g := fun x => x * val s)
    fun x hx => mul_spec x s hx hs).bind fun l hl => ?_
  rw [h.rows, h.cols]
  exact hl

theorem Is.add (h : M.Is n m a) (h' : N.Is n m b) :
    Spec (allowed F) (M.add N) (fun M' => M'.Is n m (fun i j => a i j + b i j)) := by
  unfold Mat.add
  rw [if_neg (by rw [h.rows, h.cols, h'.rows, h'.cols]; simp)]
  have hmem : ∀ p ∈ M.entries.zip N.entries, wf p.1 ∧ wf p.2 := fun p hp =>
    ⟨h.wf_entries _ (List.of_mem_zip hp).1, h'.wf_entries _ (List.of_mem_zip hp).2⟩
  refine (mapM_spec (P := fun p c => wf c ∧ val c = val p.1 + val p.2)
    fun p hp => add_spec p.1 p.2 (hmem p hp).1 (hmem p hp).2).bind fun l hl => ?_
  rw [h.rows, h.cols]
  refine is_of_entries ?_ h.rows_lt h.cols_lt h.len_lt fun k hk => ?_
  · rw [← hl.length_eq, List.length_zip, h.len, h'.len, Nat.min_self]
  · obtain ⟨x, hx, _, hv⟩ := h.entries hk
    obtain ⟨y, hy, _, hv'⟩ := h'.entries hk
    have hz : (M.entries.zip N.entries)[k]? = some (x, y) := by
      rw [List.getElem?_zip_eq_some]; exact ⟨hx, hy⟩
    obtain ⟨c, hc, hcw, hcv⟩ := forall₂_get hl hz
    exact ⟨c, hc, hcw, by rw [hcv, hv, hv']⟩

theorem Is.mul (h : M.Is n m a) (h' : N.Is m q b) (hnq : n * q < 18446744073709551616) :
    Spec (allowed F) (M.mul N)
      (fun M' => M'.Is n q (fun i j => ∑ k ∈ Finset.range m, a i k * b k j)) := by
  unfold Mat.mul
  rw [if_neg (by rw [h.cols, h'.rows]; simp), h.rows, h'.cols, h'.rows]
  refine is_of_box_mapM h.rows_lt h'.cols_lt hnq fun i j hi hj => ?_
  obtain ⟨l, hl, hlen, hx⟩ := h.getRowIter hi
  dsimp only
  rw [hl, bind_ok]
  have hz : (l.zip (List.range m)).map (fun p => val p.1 * b p.2 j) =
      (List.range m).map fun k => a i k * b k j := by
    apply List.ext_getElem?
    intro k
    by_cases hk : k < m
    · obtain ⟨x, h1, _, _, h2⟩ := hx k hk
      have : (l.zip (List.range m))[k]? = some (x, k) := by
        rw [List.getElem?_zip_eq_some]; exact ⟨h1, by simp [hk]⟩
      rw [List.getElem?_map, List.getElem?_map, this]
      simp [h2, hk]
    · rw [List.getElem?_eq_none (by simp; omega), List.getElem?_eq_none (by simp; omega)]
  refine (foldlM_sum (g := fun p : F × ℕ => val p.1 * b p.2 j) wf_zero ?_).imp fun c hc => ⟨hc.1, ?_⟩
  · rintro acc hacc ⟨x, k⟩ hxk
    have hk : k < m := by simpa using (List.of_mem_zip hxk).2
    have hxw : wf x := by
      obtain ⟨k', hk'⟩ := List.getElem?_of_mem (List.of_mem_zip hxk).1
      have : k' < m := by rw [← hlen]; exact (List.getElem?_eq_some_iff.mp hk').1
      obtain ⟨y, hy, _, hw, _⟩ := hx k' this
      rw [hk'] at hy; cases hy
      exact hw
    refine (h'.get_spec hk hj).bind fun y hy => ?_
    refine (mul_spec x y hxw hy.1).bind fun z hz => ?_
    refine (add_spec acc z hacc hz.1).imp fun w hw => ⟨hw.1, ?_⟩
    rw [hw.2, hz.2, hy.2]
  · rw [hc.2, hz, val_zero, zero_add, sum_range_list]

theorem Is.transpose (h : M.Is n m a) {E : Panic → Prop} :
    Spec E M.transpose (fun M' => M'.Is m n (fun i j => a j i)) := by
  unfold Mat.transpose
  rw [h.rows, h.cols]
  exact is_of_box_mapM h.cols_lt h.rows_lt (by have := h.len_lt; rwa [Nat.mul_comm])
    fun i j hi hj => h.get_spec hj hi

theorem Is.frobeniusNorm (h : M.Is n m a) :
    Spec (allowed F) M.frobeniusNorm (fun c => wf c ∧
      val c = ∑ i ∈ Finset.range n, ∑ j ∈ Finset.range m, a i j * a i j) := by
  unfold Mat.frobeniusNorm
  refine (foldlM_sum (g := fun x : F => val x * val x) wf_zero ?_).imp fun c hc => ⟨hc.1, ?_⟩
  · intro acc hacc x hx
    have hxw := h.wf_entries x hx
    refine (mul_spec x x hxw hxw).bind fun z hz => ?_
    refine (add_spec acc z hacc hz.1).imp fun w hw => ⟨hw.1, ?_⟩
    rw [hw.2, hz.2]
  · rw [hc.2, val_zero, zero_add, h.map_entries (fun x => x * x), sum_boxIter]

theorem Is.dot (h : M.Is n m a) (h' : N.Is n m b) :
    Spec (allowed F) (M.dot N) (fun c => wf c ∧
      val c = ∑ i ∈ Finset.range n, ∑ j ∈ Finset.range m, a i j * b i j) := by
  unfold Mat.dot
  refine (foldlM_sum (g := fun p : F × F => val p.1 * val p.2) wf_zero ?_).imp fun c hc => ⟨hc.1, ?_⟩
  · rintro acc hacc ⟨x, y⟩ hxy
    have hxw := h.wf_entries x (List.of_mem_zip hxy).1
    have hyw := h'.wf_entries y (List.of_mem_zip hxy).2
    refine (mul_spec x y hxw hyw).bind fun z hz => ?_
    refine (add_spec acc z hacc hz.1).imp fun w hw => ⟨hw.1, ?_⟩
    rw [hw.2, hz.2]
  · rw [hc.2, val_zero, zero_add, ← sum_boxIter n m (fun p => a p.1 p.2 * b p.1 p.2)]
    congr 1
    apply List.ext_getElem?
    intro k
    by_cases hk : k < n * m
    · obtain ⟨x, hx, _, hv⟩ := h.entries hk
      obtain ⟨y, hy, _, hv'⟩ := h'.entries hk
      have hz : (M.entries.zip N.entries)[k]? = some (x, y) := by
        rw [List.getElem?_zip_eq_some]; exact ⟨hx, hy⟩
      rw [List.getElem?_map, List.getElem?_map, hz, boxIter_getElem? hk]
      simp [hv, hv']
    · rw [List.getElem?_eq_none (by simp [h.len]; omega),
        List.getElem?_eq_none (by rw [List.length_map, boxIter_length]; omega)]

theorem is_zero (h1 : n < 18446744073709551616) (h2 : m < 18446744073709551616)
    (h3 : n * m < 18446744073709551616) : (Mat.zero n m : Mat F).Is n m (fun _ _ => (0 : K)) :=
  (is_of_box h1 h2 h3 fun _ _ _ _ => wf_zero).congr fun _ _ _ _ => val_zero

theorem is_scaleMat {i : ℕ} {s : F} (h1 : n < 18446744073709551616)
    (h3 : n * n < 18446744073709551616) (hs : wf s) : (Mat.scaleMat n i s : Mat F).Is n n
      (fun r c => if r = c ∧ r = i then val s else if r = c then (1 : K) else 0) := by
  refine (is_of_box h1 h1 h3 fun r c _ _ => ?_).congr fun r c _ _ => ?_
  · dsimp only; split
    · exact hs
    · split
      · exact wf_one
      · exact wf_zero
  · dsimp only; split
    · rfl
    · split
      · exact val_one
      · exact val_zero

theorem is_permutation {s t : ℕ} (h1 : n < 18446744073709551616)
    (h3 : n * n < 18446744073709551616) : (Mat.permutation n s t : Mat F).Is n n
      (fun r c => if Equiv.swap s t r = c then (1 : K) else 0) := by
  refine (is_of_box h1 h1 h3 fun r c _ _ => ?_).congr fun r c _ _ => ?_
  · dsimp only; split
    · exact wf_one
    · exact wf_zero
  · have : ((r = s ∧ c = t) ∨ (c = s ∧ r = t) ∨ (r = c ∧ r ≠ s ∧ c ≠ t)) ↔ Equiv.swap s t r = c := by
      by_cases hrs : r = s
      · subst hrs; rw [Equiv.swap_apply_left]; constructor
        · rintro (h | h | h)
          · exact h.2.symm
          · omega
          · exact absurd rfl h.2.1
        · intro h; exact Or.inl ⟨rfl, h.symm⟩
      · by_cases hrt : r = t
        · subst hrt; rw [Equiv.swap_apply_right]; constructor
          · rintro (h | h | h)
            · omega
            · exact h.1.symm
            · omega
          · intro h; exact Or.inr (Or.inl ⟨h.symm, rfl⟩)
        · rw [Equiv.swap_apply_of_ne_of_ne hrs hrt]; constructor
          · rintro (h | h | h)
            · omega
            · omega
            · exact h.1
          · intro h; exact Or.inr (Or.inr ⟨h, hrs, fun h' => hrt (h.trans h')⟩)
    dsimp only
    simp only [this]
    split
    · exact val_one
    · exact val_zero

theorem is_replacement {s t : ℕ} {x : F} (h1 : n < 18446744073709551616)
    (h3 : n * n < 18446744073709551616) (hx : wf x) : (Mat.replacement n s t x : Mat F).Is n n
      (fun r c => if c = s ∧ r = t then val x else if r = c then (1 : K) else 0) := by
  refine (is_of_box h1 h1 h3 fun r c _ _ => ?_).congr fun r c _ _ => ?_
  · dsimp only; split
    · exact hx
    · split
      · exact wf_one
      · exact wf_zero
  · dsimp only; split
    · rfl
    · split
      · exact val_one
      · exact val_zero

theorem Is.beq_zero (h : M.Is n m a) {i j : ℕ} (hi : i < n) (hj : j < m) :
    Spec (allowed F) (do let x ← M.get i j; (pure (RField.beq x RField.zero) : Res Bool))
      (fun b => b = true ↔ a i j = 0) := by
  refine (h.get_spec hi hj).bind fun x hx => ?_
  change RField.beq x RField.zero = true ↔ a i j = 0
  rw [← hx.2]
  exact ⟨fun h => (val_eq_of_beq _ _ h).trans val_zero, fun h => LawfulRField.beq_zero x hx.1 h⟩

theorem Is.isUpperTriangular (h : M.Is n m a) :
    Spec (allowed F) M.isUpperTriangular (fun b => b = true ↔
      ∀ i j, i < n → j < m → j < i → a i j = 0) := by
  unfold Mat.isUpperTriangular
  rw [h.rows, h.cols]
  refine (allM_spec (P := fun p => a p.1 p.2 = 0) ?_).imp fun b hb => hb.trans ?_
  · rintro ⟨i, j⟩ hp
    simp only [List.mem_flatMap, List.mem_range, List.mem_map, Prod.mk.injEq] at hp
    obtain ⟨r, hr, c, hc, rfl, rfl⟩ := hp
    exact h.beq_zero hr (by omega)
  · constructor
    · intro hp i j hi hj hji
      refine hp (i, j) ?_
      simp only [List.mem_flatMap, List.mem_range, List.mem_map, Prod.mk.injEq]
      exact ⟨i, hi, j, by omega, rfl, rfl⟩
    · rintro hp ⟨i, j⟩ hm
      simp only [List.mem_flatMap, List.mem_range, List.mem_map, Prod.mk.injEq] at hm
      obtain ⟨r, hr, c, hc, rfl, rfl⟩ := hm
      exact hp r c hr (by omega) (by omega)

theorem Is.isLowerTriangular (h : M.Is n m a) :
    Spec (allowed F) M.isLowerTriangular (fun b => b = true ↔
      ∀ i j, i < n → j < m → i < j → a i j = 0) := by
  unfold Mat.isLowerTriangular
  rw [h.rows, h.cols]
  refine (allM_spec (P := fun p => a p.1 p.2 = 0) ?_).imp fun b hb => hb.trans ?_
  · rintro ⟨i, j⟩ hp
    simp only [List.mem_flatMap, List.mem_range, List.mem_range'_1, List.mem_map, Prod.mk.injEq] at hp
    obtain ⟨r, hr, c, hc, rfl, rfl⟩ := hp
    exact h.beq_zero hr (by omega)
  · constructor
    · intro hp i j hi hj hji
      refine hp (i, j) ?_
      simp only [List.mem_flatMap, List.mem_range, List.mem_range'_1, List.mem_map, Prod.mk.injEq]
      exact ⟨i, hi, j, by omega, rfl, rfl⟩
    · rintro hp ⟨i, j⟩ hm
      simp only [List.mem_flatMap, List.mem_range, List.mem_range'_1, List.mem_map, Prod.mk.injEq] at hm
      obtain ⟨r, hr, c, hc, rfl, rfl⟩ := hm
      exact hp r c hr (by omega) (by omega)

end Mat
end Verif
