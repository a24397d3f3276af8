import Verif.Proofs.MDeg

/-!
# Properties C14–C19: multidegrees

`MDeg.deg m i` is the exponent of variable `i` (`m.getD i 0`).  `MDeg.Clean m` is the canonical
form: every entry is a `u8` and the last entry is not zero.
-/

namespace Verif
open Res

/-! ## C14 `from_vec` -/

/-- C14. `from_vec` keeps every exponent, leaves no trailing zero, is the identity on canonical
vectors, removes only zeros (its result is a prefix), and identifies vectors with equal exponents. -/
theorem C14_from_vec (v w : List Nat) :
    (∀ i, MDeg.deg (MDeg.fromVec v) i = MDeg.deg v i) ∧
    (MDeg.fromVec v).getLast? ≠ some 0 ∧
    (MDeg.fromVec v = MDeg.fromVec w ↔ ∀ i, MDeg.deg v i = MDeg.deg w i) ∧
    (v.getLast? ≠ some 0 → MDeg.fromVec v = v) ∧
    MDeg.fromVec v <+: v := by
  refine ⟨MDeg.deg_fromVec v, MDeg.fromVec_last v, ⟨fun h i => ?_, fun h => ?_⟩,
    MDeg.fromVec_of_clean, ?_⟩
  · rw [← MDeg.deg_fromVec v, h, MDeg.deg_fromVec]
  · exact MDeg.ext_deg (MDeg.fromVec_last v) (MDeg.fromVec_last w)
      fun i => by rw [MDeg.deg_fromVec, MDeg.deg_fromVec, h]
  · unfold MDeg.fromVec
    split
    · exact List.take_prefix _ _
    · exact List.nil_prefix

/-- C14, for `u8` entries: the result is canonical. -/
theorem C14_from_vec_clean (v : List Nat) (h : ∀ d ∈ v, d < 256) : (MDeg.fromVec v).Clean :=
  MDeg.fromVec_clean h

example : MDeg.fromVec [0, 3, 0, 0] = [0, 3] ∧ MDeg.fromVec [0, 0] = [] := by decide

/-! ## C15 `trim_zeros` -/

/-- C15 is false: an all-zero vector keeps its trailing zeros. -/
theorem C15_refuted : MDeg.trimZeros [0, 0] = [0, 0] := by decide

/-- C15 except on nonempty all-zero vectors: `trim_zeros` never changes an exponent; if some
exponent is not zero the result is canonical; otherwise the vector is returned unchanged. -/
theorem C15_trim_zeros_partial (v : List Nat) :
    (∀ i, MDeg.deg (MDeg.trimZeros v) i = MDeg.deg v i) ∧
    ((MDeg.trimZeros v).getLast? ≠ some 0 ↔ v = [] ∨ ∃ d ∈ v, d ≠ 0) ∧
    ((∀ d ∈ v, d = 0) → MDeg.trimZeros v = v) := by
  rw [MDeg.trimZeros_eq]
  by_cases h : ∀ d ∈ v, d = 0
  · rw [if_pos h]
    refine ⟨fun _ => rfl, ?_, fun _ => rfl⟩
    constructor
    · intro hl
      by_cases hv : v = []
      · exact Or.inl hv
      · exact absurd (h _ (List.getLast_mem hv)) (by rw [List.getLast?_eq_getLast_of_ne_nil hv] at hl; simpa using hl)
    · rintro (rfl | ⟨d, hd, hd0⟩)
      · simp
      · exact absurd (h d hd) hd0
  · rw [if_neg h]
    refine ⟨MDeg.deg_fromVec v, ⟨fun _ => ?_, fun _ => MDeg.fromVec_last v⟩, fun hc => absurd hc h⟩
    right; push Not at h; exact h

example : MDeg.trimZeros [1, 0, 2, 0, 0] = [1, 0, 2] := by decide

/-! ## C16 addition -/

/-- C16. With overflow checks: the sum is canonical with exponents `a_i + b_i`, and the addition
panics (with `u8` overflow) exactly when some `a_i + b_i` exceeds 255. -/
theorem C16_add (a b : MDeg) (ha : a.Clean) (hb : b.Clean) :
    (∀ c, MDeg.add .debug a b = .ok c → c.Clean ∧ ∀ i, c.deg i = a.deg i + b.deg i) ∧
    (MDeg.add .debug a b = .panic .overflowU8 ↔ ∃ i, 255 < a.deg i + b.deg i) ∧
    ((∃ c, MDeg.add .debug a b = .ok c) ↔ ∀ i, a.deg i + b.deg i ≤ 255) := by
  have hs := MDeg.add_spec ha hb
  refine ⟨fun c hc => hs.of_ok hc, ?_, ?_⟩
  · rw [MDeg.add_eq ha.lt hb.lt]
    constructor
    · intro h; split at h
      · exact absurd h (by simp)
      · rename_i hn; push Not at hn; exact hn.imp fun i hi => by omega
    · rintro ⟨i, hi⟩; rw [if_neg]; intro hc; have := hc i; omega
  · rw [MDeg.add_eq ha.lt hb.lt]
    constructor
    · rintro ⟨c, h⟩ i; split at h
      · rename_i hn; have := hn i; omega
      · exact absurd h (by simp)
    · intro h; exact ⟨_, if_pos fun i => by have := h i; omega⟩

/-- C16. The empty multidegree is neutral and addition is commutative and cancellative. -/
theorem C16_add_laws (a b c : MDeg) (ha : a.Clean) (hb : b.Clean) (hc : c.Clean) :
    MDeg.add .debug a MDeg.zero = .ok a ∧
    MDeg.add .debug a b = MDeg.add .debug b a ∧
    (∀ d, MDeg.add .debug a c = .ok d → MDeg.add .debug b c = .ok d → a = b) := by
  refine ⟨?_, ?_, fun d h1 h2 => ?_⟩
  · obtain ⟨c, h⟩ := (C16_add a MDeg.zero ha MDeg.zero_clean).2.2.mpr fun i => by
      have := MDeg.deg_lt ha.lt i; simp [MDeg.zero]; omega
    rw [h]
    obtain ⟨h1, h2⟩ := (C16_add a MDeg.zero ha MDeg.zero_clean).1 c h
    congr 1
    exact MDeg.ext_deg h1.last ha.last fun i => by rw [h2]; simp [MDeg.zero]
  · rw [MDeg.add_eq ha.lt hb.lt, MDeg.add_eq hb.lt ha.lt]
    classical
    refine if_congr (forall_congr' fun i => by rw [Nat.add_comm]) ?_ rfl
    congr 1
    exact MDeg.ext_deg (MDeg.fromVec_last _) (MDeg.fromVec_last _) fun i => by
      rw [MDeg.deg_fromVec, MDeg.deg_fromVec, MDeg.deg_zipWithLongest (by rfl),
        MDeg.deg_zipWithLongest (by rfl), Nat.add_comm]
  · obtain ⟨_, h1⟩ := (C16_add a c ha hc).1 d h1
    obtain ⟨_, h2⟩ := (C16_add b c hb hc).1 d h2
    exact MDeg.ext_deg ha.last hb.last fun i => by
      have := h1 i; have := h2 i; omega

example : MDeg.add .debug [1, 0, 2] [0, 5] = .ok [1, 5, 2] := by decide
example : MDeg.add .debug [200] [56] = .panic .overflowU8 := by decide

/-- Without overflow checks the sum can be a wrong, non-canonical multidegree. -/
theorem C16_add_release_wraps : MDeg.add .release [128] [128] = .ok [0] := by decide

/-! ## C17 `checked_sub` -/

/-- C17. `checked_sub` succeeds exactly when every exponent of `b` is at most that of `a`; the
result is the canonical `c` with `c + b = a`. -/
theorem C17_checked_sub (a b : MDeg) (ha : a.Clean) (hb : b.Clean) :
    ((∃ c, MDeg.checkedSub a b = some c) ↔ ∀ i, b.deg i ≤ a.deg i) ∧
    (∀ c, MDeg.checkedSub a b = some c ↔ c.Clean ∧ MDeg.add .debug c b = .ok a) := by
  have hs := MDeg.checkedSub_spec ha hb
  have key : ∀ c : MDeg, c.Clean → ((∀ i, a.deg i = c.deg i + b.deg i) ↔
      MDeg.add .debug c b = .ok a) := by
    intro c hc
    constructor
    · intro h
      obtain ⟨d, hd⟩ := (C16_add c b hc hb).2.2.mpr fun i => by
        rw [← h i]; have := MDeg.deg_lt ha.lt i; omega
      obtain ⟨h1, h2⟩ := (C16_add c b hc hb).1 d hd
      rw [hd, MDeg.ext_deg h1.last ha.last fun i => by rw [h2, h]]
    · intro h; exact ((C16_add c b hc hb).1 a h).2
  cases h : MDeg.checkedSub a b with
  | none =>
    rw [h] at hs
    obtain ⟨i, hi⟩ := hs
    refine ⟨⟨by simp, fun hc => by have := hc i; omega⟩, fun c => ⟨by simp, ?_⟩⟩
    rintro ⟨hc, hadd⟩
    have := (key c hc).mpr hadd i
    omega
  | some c =>
    rw [h] at hs
    refine ⟨⟨fun _ => hs.1, fun _ => ⟨c, rfl⟩⟩, fun d => ⟨?_, ?_⟩⟩
    · rintro h; cases h
      exact ⟨hs.2.1, (key c hs.2.1).mp fun i => by have := hs.1 i; have := hs.2.2 i; omega⟩
    · rintro ⟨hd, hadd⟩
      congr 1
      refine MDeg.ext_deg hs.2.1.last hd.last fun i => ?_
      have := (key d hd).mpr hadd i
      have := hs.2.2 i
      omega

example : MDeg.checkedSub [3, 1, 2] [3, 0, 2] = some [0, 1] := by decide
example : MDeg.checkedSub [3, 1] [0, 2] = none := by decide

/-! ## C18 `is_succ` -/

/-- C18. `a.is_succ(b)` is "`x^a` divides `x^b`", and it holds exactly when `b.checked_sub(a)`
succeeds, i.e. exactly when some canonical `c` has `c + a = b`. -/
theorem C18_is_succ (a b : MDeg) (ha : a.Clean) (hb : b.Clean) :
    (MDeg.isSucc a b = true ↔ ∀ i, a.deg i ≤ b.deg i) ∧
    (MDeg.isSucc a b = (MDeg.checkedSub b a).isSome) ∧
    (MDeg.isSucc a b = true ↔ ∃ c : MDeg, c.Clean ∧ MDeg.add .debug c a = .ok b) := by
  have h1 := MDeg.isSucc_iff (b := b) ha.last
  obtain ⟨h2, h3⟩ := C17_checked_sub b a hb ha
  refine ⟨h1, ?_, ?_⟩
  · rw [Bool.eq_iff_iff, h1, ← h2, Option.isSome_iff_exists]
  · rw [h1, ← h2]; exact exists_congr h3

example : MDeg.isSucc [1, 0, 2] [1, 1, 2] = true ∧ MDeg.isSucc [1, 0, 2] [4, 4] = false := by decide

/-! ## C19 `total_deg` -/

/-- C19. With overflow checks `total_deg` is the sum of the exponents (of all variables) when
that is at most 255, and panics otherwise. -/
theorem C19_total_deg (m : MDeg) (n : Nat) (hn : m.length ≤ n) :
    MDeg.totalDeg .debug m =
      if ((List.range n).map m.deg).sum ≤ 255 then .ok ((List.range n).map m.deg).sum
      else .panic .overflowU8 := by
  rw [MDeg.totalDeg_eq, MDeg.sum_eq_sum_deg m n hn]
  exact if_congr (by omega) rfl rfl

/-- C19. `total_deg` is additive. -/
theorem C19_total_deg_add (a b c : MDeg) (ha : a.Clean) (hb : b.Clean)
    (h : MDeg.add .debug a b = .ok c) (x y : Nat) (hx : MDeg.totalDeg .debug a = .ok x)
    (hy : MDeg.totalDeg .debug b = .ok y) :
    MDeg.totalDeg .debug c = if x + y ≤ 255 then .ok (x + y) else .panic .overflowU8 := by
  obtain ⟨_, hc⟩ := (C16_add a b ha hb).1 c h
  have e : c.sum = a.sum + b.sum := by
    have := MDeg.sum_eq_sum_deg c (a.length + b.length + c.length) (by omega)
    rw [this, MDeg.sum_eq_sum_deg a (a.length + b.length + c.length) (by omega),
      MDeg.sum_eq_sum_deg b (a.length + b.length + c.length) (by omega), ← List.sum_map_add,
      funext (f := c.deg) hc]
  rw [MDeg.totalDeg_eq] at hx hy ⊢
  split at hx <;> simp only [Res.ok.injEq, reduceCtorEq] at hx
  split at hy <;> simp only [Res.ok.injEq, reduceCtorEq] at hy
  rw [e, hx, hy]
  exact if_congr (by omega) rfl rfl

example : MDeg.totalDeg .debug [1, 0, 200] = .ok 201 ∧
    MDeg.totalDeg .debug [100, 100, 100] = .panic .overflowU8 := by decide

/-! ## `MultiDegree::var` -/

/-- C33 (multidegrees). `MultiDegree::var(i, d)` is canonical with exponent `d` at `i` only. -/
theorem C33_mdeg_var (idx d : Nat) (hd : d < 256) :
    (MDeg.var idx d).Clean ∧ ∀ i, (MDeg.var idx d).deg i = if i = idx then d else 0 :=
  ⟨MDeg.var_clean idx d hd, MDeg.deg_var idx d⟩

example : MDeg.var 2 5 = [0, 0, 5] ∧ MDeg.var 2 0 = [] := by decide

end Verif
