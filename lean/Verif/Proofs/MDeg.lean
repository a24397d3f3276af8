import Verif.Poly.MDeg
import Mathlib.Data.List.DropRight
import Mathlib.Data.List.GetD
import Mathlib.Tactic.Linarith
import Mathlib.Algebra.BigOperators.Group.List.Basic

/-! # Lemmas about multidegrees -/

namespace Verif
open Res

theorem U8.norm_spec (x : Nat) :
    Spec (fun p => p = .overflowU8 ∧ 256 ≤ x) (U8.norm .debug x) (fun y => y = x ∧ x < 256) := by
  unfold U8.norm
  split
  · exact ⟨rfl, by assumption⟩
  · exact ⟨rfl, by omega⟩

namespace MDeg

/-- Canonical multidegrees: entries are `u8` values, and there is no trailing zero. -/
structure Clean (m : MDeg) : Prop where
  lt : ∀ d ∈ m, d < 256
  last : m.getLast? ≠ some 0

instance (m : MDeg) : Decidable (Clean m) :=
  decidable_of_iff ((∀ d ∈ m, d < 256) ∧ m.getLast? ≠ some 0)
    ⟨fun h => ⟨h.1, h.2⟩, fun h => ⟨h.1, h.2⟩⟩

/-- The exponent of variable `i`. -/
def deg (m : MDeg) (i : Nat) : Nat := m.getD i 0

@[simp] theorem deg_nil (i : Nat) : deg [] i = 0 := by simp [deg]
@[simp] theorem deg_cons_zero (a : Nat) (m : List Nat) : deg (a :: m) 0 = a := by simp [deg]
@[simp] theorem deg_cons_succ (a : Nat) (m : List Nat) (i : Nat) :
    deg (a :: m) (i + 1) = deg m i := by simp [deg]

theorem deg_of_length_le {m : MDeg} {i : Nat} (h : m.length ≤ i) : deg m i = 0 := by
  simp [deg, List.getD_eq_getElem?_getD, List.getElem?_eq_none h]

theorem deg_lt {m : MDeg} (h : ∀ d ∈ m, d < 256) (i : Nat) : deg m i < 256 := by
  by_cases hi : i < m.length
  · rw [deg, List.getD_eq_getElem _ _ hi]; exact h _ (List.getElem_mem hi)
  · rw [deg_of_length_le (by omega)]; omega

theorem deg_last {m : MDeg} (h : m.getLast? ≠ some 0) (hne : m ≠ []) :
    deg m (m.length - 1) ≠ 0 := by
  have hl : m.length - 1 < m.length := by
    have := List.length_pos_of_ne_nil hne; omega
  rw [deg, List.getD_eq_getElem _ _ hl]
  rw [List.getLast?_eq_getElem?, List.getElem?_eq_getElem hl] at h
  intro h0; exact h (by rw [h0])

theorem length_le_of_deg {a b : MDeg} (ha : a.getLast? ≠ some 0)
    (h : ∀ i, deg a i ≠ 0 → deg b i ≠ 0) : a.length ≤ b.length := by
  by_contra hc
  have hne : a ≠ [] := by rintro rfl; simp at hc
  have h1 := h _ (deg_last ha hne)
  exact h1 (deg_of_length_le (by omega))

/-- Canonical multidegrees are determined by their exponents. -/
theorem ext_deg {a b : MDeg} (ha : a.getLast? ≠ some 0) (hb : b.getLast? ≠ some 0)
    (h : ∀ i, deg a i = deg b i) : a = b := by
  have h1 := length_le_of_deg ha (b := b) (fun i hi => by rwa [← h i])
  have h2 := length_le_of_deg hb (b := a) (fun i hi => by rwa [h i])
  refine List.ext_getElem (by omega) ?_
  intro i hi hi'
  have := h i
  rwa [deg, deg, List.getD_eq_getElem _ _ hi, List.getD_eq_getElem _ _ hi'] at this

theorem length_le_iff {a : MDeg} (ha : a.getLast? ≠ some 0) (n : Nat) :
    a.length ≤ n ↔ ∀ i, n ≤ i → deg a i = 0 := by
  constructor
  · intro h i hi; exact deg_of_length_le (by omega)
  · intro h
    by_contra hc
    have hne : a ≠ [] := by rintro rfl; simp at hc
    exact deg_last ha hne (h _ (by omega))

/-! ### `from_vec`, `trim_zeros`, `var` -/

theorem rposition_append (p : Nat → Bool) (l : List Nat) (x : Nat) :
    rposition p (l ++ [x]) = if p x then some l.length else rposition p l := by
  induction l with
  | nil => cases h : p x <;> simp [rposition, h]
  | cons a l ih =>
    rw [List.cons_append, rposition, ih]
    cases h : p x <;> simp [rposition]

theorem fromVec_append_zero (l : List Nat) : fromVec (l ++ [0]) = fromVec l := by
  unfold fromVec
  rw [rposition_append]
  simp only [bne_self_eq_false, Bool.false_eq_true, if_false]
  split
  · rename_i idx h
    have : idx < l.length := by
      clear * - h
      induction l generalizing idx with
      | nil => simp [rposition] at h
      | cons a l ih =>
        rw [rposition] at h
        split at h
        · rename_i j hj
          have := ih j hj
          simp at h; simp; omega
        · split at h <;> simp at h; subst h; simp
    rw [List.take_append_of_le_length (by omega)]
  · rfl

theorem fromVec_append_ne (l : List Nat) (x : Nat) (hx : x ≠ 0) : fromVec (l ++ [x]) = l ++ [x] := by
  unfold fromVec
  rw [rposition_append]
  simp only [bne_iff_ne, ne_eq, hx, not_false_eq_true, if_true]
  rw [List.take_of_length_le (by simp)]

@[simp] theorem fromVec_nil : fromVec [] = [] := rfl

theorem fromVec_last (l : List Nat) : (fromVec l).getLast? ≠ some 0 := by
  induction l using List.reverseRecOn with
  | nil => simp
  | append_singleton l x ih =>
    by_cases hx : x = 0
    · subst hx; rwa [fromVec_append_zero]
    · rw [fromVec_append_ne l x hx]; simpa using hx

theorem deg_append (l : List Nat) (x i : Nat) :
    deg (l ++ [x]) i = if i < l.length then deg l i else if i = l.length then x else 0 := by
  unfold deg
  split
  · rename_i h; rw [List.getD_append _ _ _ _ h]
  · rename_i h
    rw [List.getD_append_right _ _ _ _ (by omega)]
    split
    · rename_i h'; subst h'; simp
    · rw [List.getD_eq_default]; simp; omega

theorem deg_fromVec (l : List Nat) (i : Nat) : deg (fromVec l) i = deg l i := by
  induction l using List.reverseRecOn with
  | nil => simp
  | append_singleton l x ih =>
    by_cases hx : x = 0
    · subst hx; rw [fromVec_append_zero, ih, deg_append]
      split
      · rfl
      · rw [deg_of_length_le (by omega)]; simp
    · rw [fromVec_append_ne l x hx]

theorem fromVec_subset (l : List Nat) : ∀ d ∈ fromVec l, d ∈ l := by
  unfold fromVec
  split
  · exact fun d h => List.mem_of_mem_take h
  · intro d h; simp [zero] at h

theorem fromVec_clean {l : List Nat} (h : ∀ d ∈ l, d < 256) : Clean (fromVec l) :=
  ⟨fun d hd => h d (fromVec_subset l d hd), fromVec_last l⟩

theorem fromVec_of_clean {m : MDeg} (h : m.getLast? ≠ some 0) : fromVec m = m := by
  induction m using List.reverseRecOn with
  | nil => rfl
  | append_singleton l x ih => exact fromVec_append_ne l x (by simpa using h)

theorem trimZeros_eq (m : MDeg) : trimZeros m = if ∀ d ∈ m, d = 0 then m else fromVec m := by
  have key : rposition (fun d => d != 0) m = none ↔ ∀ d ∈ m, d = 0 := by
    induction m using List.reverseRecOn with
    | nil => simp [rposition]
    | append_singleton l x ih =>
      rw [rposition_append]
      by_cases hx : x = 0
      · subst hx
        simp only [bne_self_eq_false, Bool.false_eq_true, if_false, ih, List.mem_append,
          List.mem_singleton]
        exact ⟨fun h d hd => hd.elim (h d) id, fun h d hd => h d (Or.inl hd)⟩
      · simp [hx]
  unfold trimZeros fromVec
  split
  · rename_i idx h
    rw [if_neg]; rw [← key, h]; simp
  · rename_i h; rw [if_pos (key.mp h)]

theorem zero_clean : Clean zero := ⟨by simp [zero], by simp [zero]⟩

theorem var_clean (idx d : Nat) (hd : d < 256) : Clean (var idx d) := by
  unfold var
  split
  · exact zero_clean
  · rename_i h
    refine ⟨?_, by simpa using h⟩
    intro e he
    rcases List.mem_append.mp he with h1 | h1
    · rw [List.eq_of_mem_replicate h1]; omega
    · rw [List.mem_singleton.mp h1]; exact hd

theorem deg_var (idx d i : Nat) : deg (var idx d) i = if i = idx then d else 0 := by
  unfold var
  split
  · rename_i h; subst h; simp [zero]
  · rw [deg_append]
    simp only [List.length_replicate]
    split
    · rename_i h
      rw [if_neg (by omega)]
      simp [deg, List.getD_eq_getElem?_getD, h]
    · rfl

/-! ### Addition -/

/-- Entrywise combination over `zip_longest`. -/
def zipWithLongest (f : Nat → Nat → Nat) (a b : MDeg) : List Nat :=
  (zipLongest a b).map fun
    | .both a b => f a b
    | .left a => f a 0
    | .right b => f 0 b

@[simp] theorem zipLongest_nil_left (b : MDeg) : zipLongest [] b = b.map .right := by
  cases b <;> rfl
@[simp] theorem zipLongest_nil_right (a : MDeg) : zipLongest a [] = a.map .left := by
  cases a <;> rfl

theorem deg_zipWithLongest {f : Nat → Nat → Nat} (h0 : f 0 0 = 0) (a b : MDeg) (i : Nat) :
    deg (zipWithLongest f a b) i = f (deg a i) (deg b i) := by
  unfold zipWithLongest
  induction a generalizing b i with
  | nil =>
    induction b generalizing i with
    | nil => simp [h0]
    | cons b bs ihb => cases i with
      | zero => simp
      | succ i => simpa using ihb i
  | cons a as ih =>
    cases b with
    | nil =>
      clear ih
      simp only [zipLongest_nil_right, List.map_map, deg_nil]
      induction as generalizing a i with
      | nil => cases i with
        | zero => simp
        | succ i => simp [h0]
      | cons c cs ihc => cases i with
        | zero => simp
        | succ i => simpa using ihc c i
    | cons b bs => cases i with
      | zero => simp [zipLongest]
      | succ i => simpa [zipLongest] using ih bs i

/-- What one `zip_longest` item contributes to a sum. -/
def itemSum : EitherOrBoth Nat → Nat
  | .both a b => a + b
  | .left a => a
  | .right b => b

theorem fromVec_append_left (l r : List Nat) (h : fromVec r ≠ []) :
    fromVec (l ++ r) = l ++ fromVec r := by
  induction r using List.reverseRecOn with
  | nil => simp at h
  | append_singleton r x ih =>
    by_cases hx : x = 0
    · subst hx
      rw [fromVec_append_zero] at h
      rw [← List.append_assoc, fromVec_append_zero, fromVec_append_zero, ih h]
    · rw [← List.append_assoc, fromVec_append_ne _ _ hx, fromVec_append_ne _ _ hx,
        List.append_assoc]

theorem fromVec_replicate (n : Nat) : fromVec (List.replicate n 0) = [] := by
  induction n with
  | zero => rfl
  | succ n ih => rw [List.replicate_succ', fromVec_append_zero, ih]

theorem fromVec_cons_ne (x : Nat) (hx : x ≠ 0) (l : List Nat) :
    fromVec (x :: l) = x :: fromVec l := by
  by_cases h : fromVec l = []
  · rw [h]
    have : ∀ l : List Nat, fromVec l = [] → fromVec (x :: l) = [x] := by
      intro l
      induction l using List.reverseRecOn with
      | nil => intro _; exact fromVec_append_ne [] x hx
      | append_singleton l y ih =>
        intro h
        by_cases hy : y = 0
        · subst hy
          rw [fromVec_append_zero] at h
          rw [← List.cons_append, fromVec_append_zero, ih h]
        · rw [fromVec_append_ne _ _ hy] at h; simp at h
    exact this l h
  · exact fromVec_append_left [x] l h

theorem fromVec_zeros_cons (z x : Nat) (hx : x ≠ 0) (l : List Nat) :
    fromVec (List.replicate z 0 ++ x :: l) = List.replicate z 0 ++ x :: fromVec l := by
  rw [fromVec_append_left _ _ (by rw [fromVec_cons_ne x hx]; simp), fromVec_cons_ne x hx]

/-- The loop of `Add` in a checked build: the sums with trailing zeros dropped. -/
theorem addLoop_eq (items : List (EitherOrBoth Nat)) (z : Nat) (degs : List Nat)
    (hl : ∀ x ∈ items, match x with | .both _ _ => True | .left a => a < 256 | .right b => b < 256) :
    addLoop .debug items z degs =
      if ∀ x ∈ items, itemSum x < 256 then
        .ok (degs ++ fromVec (List.replicate z 0 ++ items.map itemSum))
      else .panic .overflowU8 := by
  induction items generalizing z degs with
  | nil => simp [addLoop, fromVec_replicate]
  | cons x items ih =>
    have ih := fun z degs => ih z degs (fun y hy => hl y (by simp [hy]))
    have hx := hl x (by simp)
    have zero_case : itemSum x = 0 →
        (addLoop .debug items (z + 1) degs =
          if ∀ y ∈ x :: items, itemSum y < 256 then
            .ok (degs ++ fromVec (List.replicate z 0 ++ (x :: items).map itemSum))
          else .panic .overflowU8) := by
      intro h0
      rw [ih]
      have : List.replicate (z + 1) 0 ++ items.map itemSum =
          List.replicate z 0 ++ (x :: items).map itemSum := by
        rw [List.replicate_succ', List.map_cons, h0]; simp
      rw [this]
      refine if_congr ?_ rfl rfl
      simp [h0]
    have pos_case : itemSum x ≠ 0 → itemSum x < 256 →
        (addLoop .debug items 0 (degs ++ List.replicate z 0 ++ [itemSum x]) =
          if ∀ y ∈ x :: items, itemSum y < 256 then
            .ok (degs ++ fromVec (List.replicate z 0 ++ (x :: items).map itemSum))
          else .panic .overflowU8) := by
      intro h0 h1
      rw [ih, List.map_cons, fromVec_zeros_cons z _ h0]
      have : degs ++ List.replicate z 0 ++ [itemSum x] ++
          fromVec (List.replicate 0 0 ++ items.map itemSum) =
          degs ++ (List.replicate z 0 ++ itemSum x :: fromVec (items.map itemSum)) := by simp
      rw [this]
      refine if_congr ?_ rfl rfl
      simp [h1]
    match x, hx with
    | .both 0 0, _ => exact zero_case rfl
    | .left 0, _ => exact zero_case rfl
    | .right 0, _ => exact zero_case rfl
    | .left (a + 1), h => exact pos_case (by simp [itemSum]) h
    | .right (a + 1), h => exact pos_case (by simp [itemSum]) h
    | .both (a + 1) b, _ =>
      rw [addLoop]
      · unfold U8.norm
        by_cases hlt : a + 1 + b < 256
        · rw [if_pos hlt]; exact pos_case (by simp [itemSum]) hlt
        · rw [if_neg hlt, if_neg]
          · rfl
          · intro h; exact hlt (h (.both (a + 1) b) (by simp))
      · intro h; simp at h
    | .both 0 (b + 1), _ =>
      rw [addLoop]
      · unfold U8.norm
        by_cases hlt : 0 + (b + 1) < 256
        · rw [if_pos hlt]; exact pos_case (by simp [itemSum]) hlt
        · rw [if_neg hlt, if_neg]
          · rfl
          · intro h; exact hlt (h (.both 0 (b + 1)) (by simp))
      · intro _ h; simp at h

theorem zipLongest_items {a b : MDeg} (ha : ∀ d ∈ a, d < 256) (hb : ∀ d ∈ b, d < 256) :
    ∀ x ∈ zipLongest a b,
      match x with | .both _ _ => True | .left a => a < 256 | .right b => b < 256 := by
  induction a generalizing b with
  | nil =>
    intro x hx
    simp only [zipLongest_nil_left, List.mem_map] at hx
    obtain ⟨d, hd, rfl⟩ := hx
    exact hb d hd
  | cons a as ih =>
    cases b with
    | nil =>
      intro x hx
      simp only [zipLongest_nil_right, List.mem_map] at hx
      obtain ⟨d, hd, rfl⟩ := hx
      exact ha d hd
    | cons b bs =>
      intro x hx
      simp only [zipLongest, List.mem_cons] at hx
      rcases hx with rfl | hx
      · trivial
      · exact ih (fun d hd => ha d (by simp [hd])) (fun d hd => hb d (by simp [hd])) x hx

theorem zipWithLongest_add (a b : MDeg) :
    zipWithLongest (· + ·) a b = (zipLongest a b).map itemSum := by
  unfold zipWithLongest
  refine List.map_congr_left ?_
  intro x _
  cases x <;> simp [itemSum]

theorem forall_mem_iff_deg {l : List Nat} (P : Nat → Prop) (h0 : P 0) :
    (∀ d ∈ l, P d) ↔ ∀ i, P (deg l i) := by
  constructor
  · intro h i
    by_cases hi : i < l.length
    · rw [deg, List.getD_eq_getElem _ _ hi]; exact h _ (List.getElem_mem hi)
    · rw [deg_of_length_le (by omega)]; exact h0
  · intro h d hd
    obtain ⟨i, hi, rfl⟩ := List.getElem_of_mem hd
    have := h i
    rwa [deg, List.getD_eq_getElem _ _ hi] at this

open scoped Classical in
/-- `Add` in a checked build, completely. -/
theorem add_eq {a b : MDeg} (ha : ∀ d ∈ a, d < 256) (hb : ∀ d ∈ b, d < 256) :
    add .debug a b =
      if ∀ i, deg a i + deg b i < 256 then .ok (fromVec (zipWithLongest (· + ·) a b))
      else .panic .overflowU8 := by
  unfold add
  rw [addLoop_eq _ _ _ (zipLongest_items ha hb)]
  simp only [List.replicate_zero, List.nil_append, ← zipWithLongest_add]
  refine if_congr ?_ rfl rfl
  have : (∀ x ∈ zipLongest a b, itemSum x < 256) ↔
      ∀ d ∈ zipWithLongest (· + ·) a b, d < 256 := by
    rw [zipWithLongest_add]; simp
  rw [this, forall_mem_iff_deg (· < 256) (by omega)]
  refine forall_congr' fun i => ?_
  rw [deg_zipWithLongest (by rfl)]

theorem add_spec {a b : MDeg} (ha : Clean a) (hb : Clean b) :
    Spec (fun p => p = .overflowU8 ∧ ∃ i, 256 ≤ deg a i + deg b i) (add .debug a b)
      (fun c => Clean c ∧ ∀ i, deg c i = deg a i + deg b i) := by
  rw [add_eq ha.lt hb.lt]
  split
  · rename_i h
    refine ⟨fromVec_clean ?_, fun i => ?_⟩
    · rw [forall_mem_iff_deg (· < 256) (by omega)]
      intro i; rw [deg_zipWithLongest (by rfl)]; exact h i
    · rw [deg_fromVec, deg_zipWithLongest (by rfl)]
  · rename_i h
    refine ⟨rfl, ?_⟩
    by_contra hc
    exact h fun i => by
      by_contra hi; exact hc ⟨i, by omega⟩

/-! ### Subtraction and divisibility -/

theorem isSucc_iff {a b : MDeg} (ha : a.getLast? ≠ some 0) :
    isSucc a b = true ↔ ∀ i, deg a i ≤ deg b i := by
  have hzip : ∀ a b : MDeg, a.length ≤ b.length →
      (((a.zip b).all fun (x, y) => !decide (x > y)) = true ↔ ∀ i, deg a i ≤ deg b i) := by
    intro a
    induction a with
    | nil => intro b _; simp
    | cons x xs ih =>
      intro b hb
      cases b with
      | nil => simp at hb
      | cons y ys =>
        simp only [List.zip_cons_cons, List.all_cons, Bool.and_eq_true]
        rw [ih ys (by simpa using hb)]
        constructor
        · rintro ⟨h1, h2⟩ i
          cases i with
          | zero => simpa using h1
          | succ i => simpa using h2 i
        · intro h
          exact ⟨by simpa using h 0, fun i => by simpa using h (i + 1)⟩
  unfold isSucc len
  split
  · rename_i h
    simp only [Bool.false_eq_true, false_iff]
    intro hc
    have := length_le_of_deg ha (b := b) (fun i hi => by have := hc i; omega)
    omega
  · exact hzip a b (by omega)

theorem checkedSubLoop_spec (a b : MDeg) (hb : b = [] ∨ b.getLast? ≠ some 0)
    (ha : a = [] ∨ a.getLast? ≠ some 0) (z : Nat) (degs : List Nat)
    (hd : degs.getLast? ≠ some 0) :
    match checkedSubLoop (zipLongest a b) z degs with
    | none => ∃ i, deg a i < deg b i
    | some c => (∀ i, deg b i ≤ deg a i) ∧ c.getLast? ≠ some 0 ∧
        ∀ i, deg c i = deg (degs ++ List.replicate z 0 ++ zipWithLongest (· - ·) a b) i := by
  have push : ∀ (degs : List Nat) z x l, degs ++ List.replicate z 0 ++ x :: l =
      (degs ++ List.replicate z 0 ++ [x]) ++ List.replicate 0 0 ++ l := by simp
  induction a generalizing b z degs with
  | nil =>
    cases b with
    | nil =>
      simp only [zipLongest_nil_left, List.map_nil, checkedSubLoop]
      refine ⟨by simp, hd, fun i => ?_⟩
      have : zipWithLongest (· - ·) [] [] = [] := rfl
      rw [this, List.append_nil]
      clear hd
      induction z with
      | zero => simp
      | succ z ih =>
        rw [List.replicate_succ', ← List.append_assoc, deg_append, ← ih]
        split
        · rfl
        · rename_i h
          rw [deg_of_length_le (by simp at h; omega)]; simp
    | cons b bs =>
      simp only [zipLongest_nil_left, List.map_cons, checkedSubLoop]
      have hb : (b :: bs).getLast? ≠ some 0 := by simpa using hb
      refine ⟨(b :: bs).length - 1, ?_⟩
      have := deg_last hb (by simp)
      simp only [deg_nil]; omega
  | cons x xs ih =>
    have ha : (x :: xs).getLast? ≠ some 0 := by simpa using ha
    have hxs : xs = [] ∨ xs.getLast? ≠ some 0 := by
      cases xs with
      | nil => left; rfl
      | cons y ys => right; simpa [List.getLast?_cons_cons] using ha
    cases b with
    | nil =>
      have e : zipLongest (x :: xs) ([] : MDeg) = .left x :: zipLongest xs [] := by simp
      have e2 : zipWithLongest (· - ·) (x :: xs) [] = x :: zipWithLongest (· - ·) xs [] := by
        simp [zipWithLongest]
      rw [e, checkedSubLoop, e2, push degs z x (zipWithLongest (· - ·) xs [])]
      by_cases hx0 : xs = []
      · subst hx0
        have hx : x ≠ 0 := by simpa using ha
        have := ih [] (Or.inl rfl) (Or.inl rfl) 0 (degs ++ List.replicate z 0 ++ [x]) (by simpa using hx)
        simp only [zipLongest_nil_left, List.map_nil, checkedSubLoop] at this ⊢
        refine ⟨by simp, this.2.1, this.2.2⟩
      · -- only left items remain
        have key : ∀ (xs : MDeg) (acc : List Nat),
            checkedSubLoop (zipLongest xs []) 0 acc = some (acc ++ xs) := by
          intro xs
          induction xs with
          | nil => intro acc; simp [checkedSubLoop]
          | cons y ys ih =>
            intro acc
            have e : zipLongest (y :: ys) ([] : MDeg) = .left y :: zipLongest ys [] := by simp
            rw [e, checkedSubLoop, ih]; simp
        rw [key]
        refine ⟨by simp, ?_, fun i => ?_⟩
        · rw [List.getLast?_append_of_ne_nil _ hx0]
          exact hxs.resolve_left hx0
        · have : zipWithLongest (· - ·) xs [] = xs := by
            simp [zipWithLongest, Function.comp_def]
          rw [this]; simp
    | cons b bs =>
      have hbs : bs = [] ∨ bs.getLast? ≠ some 0 := by
        cases bs with
        | nil => left; rfl
        | cons y ys => right; simpa [List.getLast?_cons_cons] using hb
      have e : zipLongest (x :: xs) (b :: bs) = .both x b :: zipLongest xs bs := rfl
      have e2 : zipWithLongest (· - ·) (x :: xs) (b :: bs) =
          (x - b) :: zipWithLongest (· - ·) xs bs := by simp [zipWithLongest, zipLongest]
      rw [e, checkedSubLoop, e2]
      have lift : ∀ {z' degs'}, degs'.getLast? ≠ some 0 → b ≤ x →
          (∀ i, deg (degs' ++ List.replicate z' 0 ++ zipWithLongest (· - ·) xs bs) i =
            deg (degs ++ List.replicate z 0 ++ (x - b) :: zipWithLongest (· - ·) xs bs) i) →
          match checkedSubLoop (zipLongest xs bs) z' degs' with
          | none => ∃ i, deg (x :: xs) i < deg (b :: bs) i
          | some c => (∀ i, deg (b :: bs) i ≤ deg (x :: xs) i) ∧ c.getLast? ≠ some 0 ∧
            ∀ i, deg c i = deg (degs ++ List.replicate z 0 ++
              (x - b) :: zipWithLongest (· - ·) xs bs) i := by
        intro z' degs' hd' hbx heq
        have := ih bs hbs hxs z' degs' hd'
        split
        · rename_i h
          rw [h] at this
          obtain ⟨i, hi⟩ := this
          exact ⟨i + 1, by simpa using hi⟩
        · rename_i c h
          rw [h] at this
          refine ⟨?_, this.2.1, fun i => by rw [this.2.2 i, heq i]⟩
          intro i
          cases i with
          | zero => simpa using hbx
          | succ i => simpa using this.1 i
      rcases lt_trichotomy x b with hlt | heq | hgt
      · rw [compare_lt_iff_lt.mpr hlt]
        exact ⟨0, by simpa using hlt⟩
      · rw [compare_eq_iff_eq.mpr heq]
        refine lift hd (by omega) fun i => ?_
        rw [List.replicate_succ', heq]; simp
      · rw [compare_gt_iff_gt.mpr hgt]
        refine lift (by simp; omega) (by omega) fun i => ?_
        rw [← push]

/-- `checked_sub` is exact subtraction. -/
theorem checkedSub_spec {a b : MDeg} (ha : Clean a) (hb : Clean b) :
    match checkedSub a b with
    | none => ∃ i, deg a i < deg b i
    | some c => (∀ i, deg b i ≤ deg a i) ∧ Clean c ∧ ∀ i, deg c i = deg a i - deg b i := by
  unfold checkedSub
  by_cases h1 : b = []
  · subst h1
    simp only [isZero, List.isEmpty_nil, if_true]
    exact ⟨by simp, ha, by simp⟩
  · have hb1 : isZero b = false := by simpa [isZero] using h1
    rw [hb1]
    simp only [Bool.false_eq_true, if_false]
    by_cases h2 : a = []
    · subst h2
      simp only [isZero, List.isEmpty_nil, if_true]
      refine ⟨b.length - 1, ?_⟩
      have := deg_last hb.last h1
      simp only [deg_nil]; omega
    · have ha1 : isZero a = false := by simpa [isZero] using h2
      rw [ha1]
      simp only [Bool.false_eq_true, if_false]
      have := checkedSubLoop_spec a b (Or.inr hb.last) (Or.inr ha.last) 0 [] (by simp)
      split
      · rename_i h; rw [h] at this; exact this
      · rename_i c h
        rw [h] at this
        have hdeg : ∀ i, deg c i = deg a i - deg b i := fun i => by
          rw [this.2.2 i]
          simp only [List.replicate_zero, List.append_nil, List.nil_append]
          rw [deg_zipWithLongest (by rfl)]
        refine ⟨this.1, ⟨?_, this.2.1⟩, hdeg⟩
        rw [forall_mem_iff_deg (· < 256) (by omega)]
        intro i
        have := deg_lt ha.lt i
        rw [hdeg i]; omega

/-! ### Total degree -/

theorem totalDeg_eq (m : MDeg) :
    totalDeg .debug m = if m.sum < 256 then .ok m.sum else .panic .overflowU8 := by
  have key : ∀ (l : List Nat) (acc : Nat), acc < 256 →
      l.foldlM (fun acc d => U8.norm .debug (acc + d)) acc =
        if acc + l.sum < 256 then .ok (acc + l.sum) else .panic .overflowU8 := by
    intro l
    induction l with
    | nil => intro acc h; simp [h]
    | cons d l ih =>
      intro acc h
      rw [List.foldlM_cons]
      unfold U8.norm
      by_cases hd : acc + d < 256
      · rw [if_pos hd]
        simp only [bind_ok]
        have := ih (acc + d) hd
        unfold U8.norm at this
        rw [this, List.sum_cons, add_assoc]
      · rw [if_neg hd, if_neg (by rw [List.sum_cons]; omega)]; rfl
  unfold totalDeg
  rw [key m 0 (by omega)]
  simp

theorem sum_eq_sum_deg (m : MDeg) (n : Nat) (h : m.length ≤ n) :
    m.sum = ((List.range n).map (deg m)).sum := by
  induction m generalizing n with
  | nil =>
    have : (deg [] : Nat → Nat) = fun _ => 0 := by funext i; simp
    simp [this]
  | cons a m ih =>
    obtain ⟨n, rfl⟩ : ∃ k, n = k + 1 := ⟨n - 1, by simp at h; omega⟩
    rw [List.range_succ_eq_map, List.map_cons, List.map_map, List.sum_cons, List.sum_cons,
      deg_cons_zero, ih n (by simpa using h)]
    simp [Function.comp_def]

/-! ### Entrywise maximum -/

theorem zipWithLongest_max_clean {a b : MDeg} (ha : Clean a) (hb : Clean b) :
    Clean (zipWithLongest max a b) := by
  refine ⟨?_, ?_⟩
  · rw [forall_mem_iff_deg (· < 256) (by omega)]
    intro i
    rw [deg_zipWithLongest (by rfl)]
    exact max_lt (deg_lt ha.lt i) (deg_lt hb.lt i)
  · have : ∀ a b : MDeg, (a = [] ∨ a.getLast? ≠ some 0) → (b = [] ∨ b.getLast? ≠ some 0) →
        (zipWithLongest max a b = [] ∨ (zipWithLongest max a b).getLast? ≠ some 0) := by
      intro a
      induction a with
      | nil =>
        intro b _ hb
        have : zipWithLongest max [] b = b := by simp [zipWithLongest, Function.comp_def]
        rwa [this]
      | cons x xs ih =>
        intro b ha hb
        cases b with
        | nil =>
          have : zipWithLongest max (x :: xs) [] = x :: xs := by
            simp [zipWithLongest, Function.comp_def]
          rwa [this]
        | cons y ys =>
          have e : zipWithLongest max (x :: xs) (y :: ys) = max x y :: zipWithLongest max xs ys := by
            simp [zipWithLongest, zipLongest]
          rw [e]
          right
          have hx : (x :: xs).getLast? ≠ some 0 := by simpa using ha
          have hy : (y :: ys).getLast? ≠ some 0 := by simpa using hb
          by_cases hnil : zipWithLongest max xs ys = []
          · rw [hnil]
            have hxs : xs = [] ∧ ys = [] := by
              cases xs <;> cases ys <;> simp [zipWithLongest, zipLongest] at hnil ⊢
            rw [hxs.1] at hx
            simp at hx ⊢
            omega
          · have hxs : xs = [] ∨ xs.getLast? ≠ some 0 := by
              cases xs with
              | nil => left; rfl
              | cons y ys => right; simpa [List.getLast?_cons_cons] using hx
            have hys : ys = [] ∨ ys.getLast? ≠ some 0 := by
              cases ys with
              | nil => left; rfl
              | cons y ys => right; simpa [List.getLast?_cons_cons] using hy
            have h := (ih ys hxs hys).resolve_left hnil
            have e3 : ∀ (c : Nat) (l : List Nat), l ≠ [] → (c :: l).getLast? = l.getLast? := by
              intro c l hl
              obtain ⟨d, l, rfl⟩ := List.exists_cons_of_ne_nil hl
              rw [List.getLast?_cons_cons]
            rw [e3 _ _ hnil]; exact h
    rcases this a b (Or.inr ha.last) (Or.inr hb.last) with h | h
    · rw [h]; simp
    · exact h

end MDeg
end Verif
