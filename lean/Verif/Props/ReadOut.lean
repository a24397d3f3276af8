import Verif.Proofs.Shape
import Verif.Num.F64

/-!
# Property C173: what is read off a form, for every coefficient type

`rank`, `nullity`, `compute_kernel` and `compute_range` read the matrix `b` of a form through the
test `epsilon_equals(x, 0)`.  Here they are described as functions of the entries and of the outcomes
of this test, without any law of arithmetic; so the description holds for floating point numbers, and
for forms that are not in echelon form.
-/

namespace Verif
open Res LinAlg

section
variable {F : Type} [RField F] [EpsilonEquality F]

/-- The first column of row `i` whose entry does not pass the test for zero. -/
def leadCol (m : ℕ) (z : ℕ → ℕ → Bool) (i : ℕ) : Option ℕ := (List.range m).find? fun j => !z i j

theorem leadCol_eq_some {m : ℕ} {z : ℕ → ℕ → Bool} {i j : ℕ} :
    leadCol m z i = some j ↔ j < m ∧ z i j = false ∧ ∀ k < j, z i k = true := by
  unfold leadCol
  rw [List.find?_range_eq_some]
  simp
  tauto

theorem leadCol_eq_none {m : ℕ} {z : ℕ → ℕ → Bool} {i : ℕ} :
    leadCol m z i = none ↔ ∀ j < m, z i j = true := by
  unfold leadCol
  rw [List.find?_range_eq_none]
  simp

/-- The number of rows with an entry that does not pass the test. -/
def ledRows (n m : ℕ) (z : ℕ → ℕ → Bool) : ℕ := (List.range n).countP fun i => (leadCol m z i).isSome

/-- The columns that lead no row, in increasing order. -/
def unledCols (n m : ℕ) (z : ℕ → ℕ → Bool) : List ℕ :=
  (List.range m).filter fun c => !(List.range n).any fun i => leadCol m z i == some c

/-- The entries of the kernel vector of the column `c`: `1` at `c`, `0 - a i c` (here `s i c`) at a
column `j` to the left of `c` that leads row `i` (the last such row if there are several), `0`
elsewhere. -/
def kernelEntry (n m : ℕ) (z : ℕ → ℕ → Bool) (s : ℕ → ℕ → F) (c j : ℕ) : F :=
  if j = c then RField.one
  else if j < c then
    match (List.range n).reverse.find? fun i => leadCol m z i == some j with
    | some i => s i c
    | none => RField.zero
  else RField.zero

variable {M : Mat F} {f : Form F} {n m : ℕ} {a : ℕ → ℕ → F} {z : ℕ → ℕ → Bool}

/-- C173. `index_of_first_nonzero_entry`. -/
theorem C173_first_nonzero (h : M.Has n m a)
    (hz : ∀ i j, i < n → j < m → EpsilonEquality.epsilonEquals (a i j) (RField.zero : F) = .ok (z i j))
    {r : ℕ} (hr : r < n) : M.firstNonzero r = .ok (leadCol m z r) := by
  unfold Mat.firstNonzero Mat.getRow
  rw [h.getRowIter hr, bind_ok]
  change Mat.position _ ((List.range m).map fun j => a r j) = _
  have key : ∀ (l : List ℕ) (k : ℕ), l = (List.range' k l.length) → (∀ j ∈ l, j < m) →
      Mat.position (fun x => do
        let b ← EpsilonEquality.epsilonEquals x (RField.zero : F); pure !b) (l.map fun j => a r j) =
      .ok ((l.find? fun j => !z r j).map (· - k)) := by
    intro l
    induction l with
    | nil => intro k _ _; rfl
    | cons x xs ih =>
      intro k hl hm
      rw [List.length_cons, List.range'_succ] at hl
      injection hl with h1 h2
      subst h1
      rw [List.map_cons, Mat.position, hz r x hr (hm x (by simp))]
      cases hzx : z r x with
      | false => simp [hzx, bind_ok, pure_eq]
      | true =>
        change (Mat.position _ _ >>= fun i => pure (i.map (· + 1))) = _
        rw [ih (x + 1) h2 fun j hj => hm j (by simp [hj]), bind_ok, pure_eq]
        rw [List.find?_cons_of_neg (by simp [hzx])]
        cases hf : xs.find? fun j => !z r j with
        | none => rfl
        | some y =>
          have hy := List.mem_of_find?_eq_some hf
          rw [h2, List.mem_range'_1] at hy
          simp only [Option.map_some]
          congr 2
          omega
  have := key (List.range m) 0 (by rw [List.length_range, List.range_eq_range']) (by simp)
  rw [this]
  unfold leadCol
  simp

/-- C173. `rank` and `nullity`: the number of rows with an entry that does not pass the test, and the
number of columns minus it (an underflow if this is negative). -/
theorem C173_rank (h : f.b.Has n m a)
    (hz : ∀ i j, i < n → j < m → EpsilonEquality.epsilonEquals (a i j) (RField.zero : F) = .ok (z i j)) :
    f.rank = .ok (ledRows n m z) ∧ ledRows n m z ≤ n ∧
    (ledRows n m z ≤ m → f.nullity = .ok (m - ledRows n m z)) ∧
    (m < ledRows n m z → RField.build F = .debug → f.nullity = .panic .overflowUsize) ∧
    (m < ledRows n m z → RField.build F = .release → f.nullity = .ok (m + 2 ^ 64 - ledRows n m z)) := by
  have hzr : f.b.zeroRows = .ok ((List.range n).countP fun i => (leadCol m z i).isNone) := by
    unfold Mat.zeroRows
    rw [h.rows]
    have key : ∀ (l : List ℕ) (k : ℕ), (∀ i ∈ l, i < n) → l.foldlM (fun zeroRows r => do
        match ← f.b.firstNonzero r with
        | none => pure (zeroRows + 1)
        | some _ => pure zeroRows) k = Res.ok (k + l.countP fun i => (leadCol m z i).isNone) := by
      intro l
      induction l with
      | nil => intro k _; rfl
      | cons x xs ih =>
        intro k hl
        rw [List.foldlM_cons, C173_first_nonzero h hz (hl x (by simp)), bind_ok]
        cases hx : leadCol m z x with
        | none =>
          dsimp only
          rw [pure_eq, bind_ok, ih _ fun i hi => hl i (by simp [hi]),
            List.countP_cons_of_pos (by simp [hx])]
          congr 1; omega
        | some c =>
          dsimp only
          rw [pure_eq, bind_ok, ih _ fun i hi => hl i (by simp [hi]),
            List.countP_cons_of_neg (by simp [hx])]
    exact (key (List.range n) 0 (by simp)).trans (by rw [Nat.zero_add])
  have hcount : ledRows n m z +
      (List.range n).countP (fun i => (leadCol m z i).isNone) = n := by
    have := List.length_eq_countP_add_countP (l := List.range n) (fun i => (leadCol m z i).isSome)
    rw [List.length_range] at this
    have e : (List.range n).countP (fun i => (leadCol m z i).isNone) =
        (List.range n).countP (fun i => decide ¬(leadCol m z i).isSome = true) :=
      List.countP_congr fun i _ => by cases leadCol m z i <;> simp
    unfold ledRows
    omega
  have hr : f.rank = .ok (ledRows n m z) := by
    unfold Form.rank
    rw [hzr, bind_ok, h.rows, Usize.sub.eq_def, if_pos (by omega)]
    congr 1; omega
  have hn : f.nullity = Usize.sub (RField.build F) m (ledRows n m z) := by
    unfold Form.nullity
    rw [hr, bind_ok, h.cols]
  refine ⟨hr, by omega, fun hle => ?_, fun hlt hb => ?_, fun hlt hb => ?_⟩
  · rw [hn, Usize.sub.eq_def, if_pos hle]
  · rw [hn, hb, Usize.sub, if_neg (by omega)]
  · rw [hn, hb, Usize.sub, if_neg (by omega)]
    norm_num

theorem boundVariables_eq (h : f.b.Has n m a)
    (hz : ∀ i j, i < n → j < m → EpsilonEquality.epsilonEquals (a i j) (RField.zero : F) = .ok (z i j)) :
    f.boundVariables = .ok ((List.range n).filterMap (leadCol m z)).dedup := by
  unfold Form.boundVariables
  rw [h.rows]
  have key : ∀ l : List ℕ, (∀ i ∈ l, i < n) →
      l.mapM (fun r => f.b.firstNonzero r) = Res.ok (l.map (leadCol m z)) := by
    intro l
    induction l with
    | nil => intro _; rfl
    | cons x xs ih =>
      intro hl
      rw [List.mapM_cons, C173_first_nonzero h hz (hl x (by simp)), bind_ok,
        ih fun i hi => hl i (by simp [hi]), bind_ok]
      rfl
  rw [key _ (by simp), bind_ok, pure_eq, List.filterMap_map]
  rfl

/-- C173. `compute_kernel`: one vector for each column that leads no row, in increasing order. -/
theorem C173_kernel (h : f.b.Has n m a)
    (hz : ∀ i j, i < n → j < m → EpsilonEquality.epsilonEquals (a i j) (RField.zero : F) = .ok (z i j))
    {s : ℕ → ℕ → F} (hs : ∀ i j, i < n → j < m → RField.sub (RField.zero : F) (a i j) = .ok (s i j)) :
    ∃ vs, f.computeKernel = .ok vs ∧
      List.Forall₂ (fun c (v : Mat F) => v.Has m 1 fun j _ => kernelEntry n m z s c j)
        (unledCols n m z) vs := by
  unfold Form.computeKernel
  rw [boundVariables_eq h hz, bind_ok, h.rows, h.cols]
  have hfree : ((List.range m).filter fun c =>
      !((List.range n).filterMap (leadCol m z)).dedup.contains c) = unledCols n m z := by
    refine List.filter_congr fun c _ => ?_
    congr 1
    rw [Bool.eq_iff_iff]
    simp
  rw [hfree]
  have hm := h.cols_lt
  refine (mapM_spec (E := fun _ => False)
    (P := fun c (v : Mat F) => v.Has m 1 fun j _ => kernelEntry n m z s c j) fun c hc => ?_).total
  have hcm : c < m := by
    unfold unledCols at hc
    rw [List.mem_filter] at hc; simpa using hc.1
  refine foldlM_range_spec (fun k (v : Mat F) => v.Has m 1 fun j _ => kernelEntry k m z s c j)
    ?_ fun r v hr hv => ?_
  · refine ⟨rfl, rfl, by simp [Mat.e, Mat.new], hm, by norm_num, by omega, fun i j hi hj => ?_⟩
    have : j = 0 := by omega
    subst this
    simp [Mat.e, Mat.new, hi, kernelEntry]
  · rw [C173_first_nonzero h hz hr, bind_ok]
    have hsucc : ∀ j, kernelEntry (r + 1) m z s c j =
        if j < c ∧ leadCol m z r = some j then s r c else kernelEntry r m z s c j := by
      intro j
      unfold kernelEntry
      rw [List.range_succ, List.reverse_append, List.reverse_singleton, List.singleton_append]
      by_cases hj : j = c
      · subst hj; simp
      · by_cases hj' : j < c
        · by_cases hl : leadCol m z r = some j
          · simp [hj, hj', hl]
          · simp [hj, hj', hl]
        · simp [hj, hj']
    cases hl : leadCol m z r with
    | none =>
      refine hv.congr fun j k hj hk => ?_
      rw [hsucc, if_neg]; rw [hl]; simp
    | some c2 =>
      have hc2 := (leadCol_eq_some.mp hl).1
      dsimp only
      split
      · rename_i hlt
        rw [h.get hr hcm, bind_ok, hs r c hr hcm, bind_ok]
        refine (hv.set_spec hc2 (by omega)).imp fun v' hv' => hv'.congr fun j k hj hk => ?_
        rw [hsucc, hl]
        have : k = 0 := by omega
        subst this
        by_cases hjc : j = c2
        · subst hjc; simp [hlt]
        · have : ¬ c2 = j := fun h => hjc h.symm
          simp [hjc, this]
      · rename_i hlt
        refine hv.congr fun j k hj hk => ?_
        rw [hsucc, if_neg]
        rintro ⟨h1, h2⟩
        rw [hl] at h2
        cases h2
        exact hlt h1

/-- C173. `compute_range`: the columns of the original matrix that lead a row, each once, in the order
in which the set is iterated. -/
theorem C173_range (h : f.b.Has n m a)
    (hz : ∀ i j, i < n → j < m → EpsilonEquality.epsilonEquals (a i j) (RField.zero : F) = .ok (z i j))
    {o : ℕ → ℕ → F} (ho : f.original.Has n m o) (order : List ℕ → List ℕ)
    (hord : ∀ l, (order l).Perm l) :
    ∃ cs vs, f.computeRange order = .ok vs ∧ cs.Nodup ∧
      (∀ c, c ∈ cs ↔ ∃ i < n, leadCol m z i = some c) ∧
      List.Forall₂ (fun c (v : Mat F) => v.Has n 1 fun i _ => o i c) cs vs := by
  refine ⟨order ((List.range n).filterMap (leadCol m z)).dedup, ?_⟩
  have hmem : ∀ c, c ∈ order ((List.range n).filterMap (leadCol m z)).dedup ↔
      ∃ i < n, leadCol m z i = some c := by
    intro c
    rw [(hord _).mem_iff, List.mem_dedup, List.mem_filterMap]
    simp
  unfold Form.computeRange
  rw [boundVariables_eq h hz, bind_ok]
  have key : Spec (fun _ => False) ((order ((List.range n).filterMap (leadCol m z)).dedup).mapM
      fun c => f.original.getCol c) (List.Forall₂ (fun c (v : Mat F) => v.Has n 1 fun i _ => o i c)
        (order ((List.range n).filterMap (leadCol m z)).dedup)) := by
    refine mapM_spec fun c hc => ?_
    obtain ⟨i, hi, hc⟩ := (hmem c).mp hc
    have hcm := (leadCol_eq_some.mp hc).1
    have hn := ho.rows_lt
    unfold Mat.getCol
    rw [ho.getColIter hcm, bind_ok]
    refine ⟨by simp [Mat.fromIter], rfl, by simp [Mat.fromIter], hn, by norm_num, by omega,
      fun i j hi hj => ?_⟩
    have : j = 0 := by omega
    subst this
    simp [Mat.fromIter, hi]
  obtain ⟨vs, h1, h2⟩ := key.total
  exact ⟨vs, h1, (hord _).nodup_iff.mpr (List.nodup_dedup _), hmem, h2⟩

end

/-! ### Floating point numbers -/

section
variable [Fmt]

/-- C173. For `f32` and `f64` nothing can fail: the test is `|x| <= EPSILON` and the entries of the
kernel vectors are `0.0 - x`. -/
theorem C173_float (b : Build) (powi : Flt → Int → Flt) (f : @Form Flt) {n m : ℕ} {a o : ℕ → ℕ → Flt}
    (order : List ℕ → List ℕ) (hord : ∀ l, (order l).Perm l) :
    letI := Flt.field b powi
    f.b.Has n m a → f.original.Has n m o →
    let z : ℕ → ℕ → Bool := fun i j => Flt.epsilonEquals (a i j) Flt.zero
    f.rank = .ok (ledRows n m z) ∧
    (∃ vs, f.computeKernel = .ok vs ∧ List.Forall₂ (fun c (v : Mat Flt) => v.Has m 1 fun j _ =>
      kernelEntry n m z (fun i j => Flt.sub Flt.zero (a i j)) c j) (unledCols n m z) vs) ∧
    ∃ cs vs, f.computeRange order = .ok vs ∧ cs.Nodup ∧
      (∀ c, c ∈ cs ↔ ∃ i < n, leadCol m z i = some c) ∧
      List.Forall₂ (fun c (v : Mat Flt) => v.Has n 1 fun i _ => o i c) cs vs := by
  let _ := Flt.field b powi
  intro h ho z
  have hz : ∀ i j, i < n → j < m →
      EpsilonEquality.epsilonEquals (a i j) (RField.zero : Flt) = .ok (z i j) := fun _ _ _ _ => rfl
  exact ⟨(C173_rank h hz).1, C173_kernel h hz fun _ _ _ _ => rfl, C173_range h hz ho order hord⟩

end

section
local instance : Fmt := .f64
local instance : RField Flt := Flt.field .debug fun x _ => x

/-- A form that is not in echelon form: both rows lead at the column `0`; the kernel vectors of the
columns `1` and `2` take the entries of the last row. -/
example :
    let x := Flt.one
    let y := Flt.add x x
    let b : Mat Flt := ⟨[x, y, x, y, x, y], 2, 3⟩
    (∃ a, b.Has 2 3 a) ∧ (⟨b, b, b⟩ : Form Flt).rank = .ok 2 ∧
    (⟨b, b, b⟩ : Form Flt).computeKernel =
      .ok [⟨[Flt.neg x, x, Flt.zero], 3, 1⟩, ⟨[Flt.neg y, Flt.zero, x], 3, 1⟩] := by
  refine ⟨⟨_, Mat.Shape.has ⟨rfl, rfl, rfl, by norm_num, by norm_num, by norm_num⟩⟩, ?_, ?_⟩ <;>
    decide +kernel

end
end Verif
