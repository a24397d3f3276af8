import Verif.Proofs.F64Ops
import Verif.Props.Generic

/-!
# Properties C88–C93: the instances for `f32` and `f64` and elimination over them
-/

namespace Verif
open Res LinAlg

namespace Flt
open Fmt
variable [Fmt]

/-! ## C88 `stability_cmp` -/

/-- C88. `stability_cmp` compares absolute values and is undefined exactly if an operand is a NaN. -/
theorem C88_stability_cmp (x y : Flt) :
    stabilityCmp x y = if x = nan ∨ y = nan then none else some (compare x.mag y.mag) := by
  cases x with
  | nan => simp [stabilityCmp, abs, partialCmp]
  | inf s =>
    cases y with
    | nan => simp [stabilityCmp, abs, partialCmp]
    | inf t => simp [stabilityCmp, abs, partialCmp, mag]
    | fin t m =>
      simp only [stabilityCmp, abs, partialCmp, mag, reduceCtorEq, or_self, if_false,
        Bool.false_eq_true]
      exact (congrArg some (compare_gt_iff_gt.mpr (WithTop.coe_lt_top m))).symm
  | fin s n =>
    cases y with
    | nan => simp [stabilityCmp, abs, partialCmp]
    | inf t =>
      simp only [stabilityCmp, abs, partialCmp, mag, reduceCtorEq, or_self, if_false,
        Bool.false_eq_true]
      exact (congrArg some (compare_lt_iff_lt.mpr (WithTop.coe_lt_top n))).symm
    | fin t m =>
      simp only [stabilityCmp, abs, partialCmp, mag, units, reduceCtorEq, or_self, if_false,
        Bool.false_eq_true, Option.some.injEq]
      rcases lt_trichotomy n m with h | h | h
      · rw [compare_lt_iff_lt.mpr (by exact_mod_cast h), compare_lt_iff_lt.mpr (by exact_mod_cast h)]
      · rw [compare_eq_iff_eq.mpr (by exact_mod_cast h), compare_eq_iff_eq.mpr (by exact_mod_cast h)]
      · rw [compare_gt_iff_gt.mpr (by exact_mod_cast h), compare_gt_iff_gt.mpr (by exact_mod_cast h)]

/-- A number other than a NaN as a multiple of the smallest positive number, or infinite. -/
def extUnits : Flt → WithBot (WithTop ℤ)
  | nan => ⊥
  | inf s => if s then ⊥ else ⊤
  | fin s n => ((units s n : ℤ) : WithTop ℤ)

/-- C88. The standard comparison orders the numbers from minus infinity to infinity and is undefined exactly
if an operand is a NaN. -/
theorem C88_partial_cmp (x y : Flt) :
    partialCmp x y = if x = nan ∨ y = nan then none else some (compare x.extUnits y.extUnits) := by
  have hbot : ∀ z : ℤ, (⊥ : WithBot (WithTop ℤ)) < ((z : WithTop ℤ) : WithBot (WithTop ℤ)) :=
    fun z => WithBot.bot_lt_coe _
  have htop : ∀ z : ℤ, ((z : WithTop ℤ) : WithBot (WithTop ℤ)) < ⊤ := fun z =>
    WithBot.coe_lt_coe.mpr (WithTop.coe_lt_top z)
  have hbt : (⊥ : WithBot (WithTop ℤ)) < ⊤ := (hbot 0).trans (htop 0)
  cases x with
  | nan => simp [partialCmp]
  | inf s =>
    cases y with
    | nan => simp [partialCmp]
    | inf t =>
      rw [if_neg (by simp)]
      cases s <;> cases t <;> simp only [partialCmp, extUnits, reduceCtorEq, if_true, if_false, Bool.false_eq_true,
        Option.some.injEq]
      · exact (compare_eq_iff_eq.mpr rfl).symm
      · exact (compare_gt_iff_gt.mpr hbt).symm
      · exact (compare_lt_iff_lt.mpr hbt).symm
      · exact (compare_eq_iff_eq.mpr rfl).symm
    | fin t m =>
      rw [if_neg (by simp)]
      cases s <;> simp only [partialCmp, extUnits, if_true, if_false, Bool.false_eq_true, Option.some.injEq]
      · exact (compare_gt_iff_gt.mpr (htop _)).symm
      · exact (compare_lt_iff_lt.mpr (hbot _)).symm
  | fin s n =>
    cases y with
    | nan => simp [partialCmp]
    | inf t =>
      rw [if_neg (by simp)]
      cases t <;> simp only [partialCmp, extUnits, if_true, if_false, Bool.false_eq_true, Option.some.injEq]
      · exact (compare_lt_iff_lt.mpr (htop _)).symm
      · exact (compare_gt_iff_gt.mpr (hbot _)).symm
    | fin t m =>
      rw [if_neg (by simp)]
      simp only [partialCmp, extUnits, Option.some.injEq]
      have hlt : ∀ {a b : ℤ}, a < b → ((a : WithTop ℤ) : WithBot (WithTop ℤ)) < ((b : WithTop ℤ) : WithBot (WithTop ℤ)) :=
        fun h => WithBot.coe_lt_coe.mpr (WithTop.coe_lt_coe.mpr h)
      rcases lt_trichotomy (units s n) (units t m) with h | h | h
      · rw [compare_lt_iff_lt.mpr h, compare_lt_iff_lt.mpr (hlt h)]
      · rw [compare_eq_iff_eq.mpr h, compare_eq_iff_eq.mpr (by rw [h])]
      · rw [compare_gt_iff_gt.mpr h, compare_gt_iff_gt.mpr (hlt h)]

/-- C88. Zero is the least: no number is ranked below it, and a nonzero number is ranked above it. -/
theorem C88_zero (x : Flt) (hx : x ≠ nan) :
    stabilityCmp zero x ≠ some .gt ∧ (eq x zero = false → stabilityCmp x zero = some .gt) := by
  rw [C88_stability_cmp, C88_stability_cmp]
  have h0 : zero ≠ nan := by simp [zero]
  rw [if_neg (by simp [hx, h0]), if_neg (by simp [hx, h0])]
  have hz : zero.mag = 0 := rfl
  rw [hz]
  refine ⟨fun h => ?_, fun h => ?_⟩
  · rw [Option.some.injEq, compare_gt_iff_gt] at h
    exact absurd h not_lt_bot
  · rw [Option.some.injEq, compare_gt_iff_gt]
    refine bot_lt_iff_ne_bot.mpr fun hb => ?_
    cases x with
    | nan => exact hx rfl
    | inf s => cases hb
    | fin s n =>
      have hn : n = 0 := by
        have : ((n : ℕ) : WithTop ℕ) = ((0 : ℕ) : WithTop ℕ) := hb
        exact_mod_cast this
      subst hn
      revert h
      cases s <;> cases ‹Fmt› <;> decide

/-! ## C89 `epsilon_equals` -/

/-- `2^-sig - 2^-(2 prec)` in units: `2^-52 - 2^-106` for `f64`, `2^-23 - 2^-48` for `f32`. -/
@[irreducible] def gap : ℕ := 2 ^ (unitExp - sig) - 2 ^ (unitExp - 2 * prec)

/-- The differences that round to a number below `EPSILON`. -/
theorem roundNat_lt_eps (d : ℕ) : roundNat d 1 < epsUnits ↔ d < gap := by
  constructor
  · intro h
    by_contra hc
    push Not at hc
    have h1 := roundNat_mono (a := gap) (b := 1) (a' := d) (b' := 1) one_pos one_pos
      (by rwa [mul_one, mul_one])
    have h2 : epsUnits ≤ roundNat gap 1 := by cases ‹Fmt› <;> decide +kernel
    omega
  · intro h
    have h0 : d ≤ gap - 1 := Nat.le_sub_one_of_lt h
    have h1 := roundNat_mono (a := d) (b := 1) (a' := gap - 1) (b' := 1) one_pos one_pos
      (by rwa [mul_one, mul_one])
    exact h1.trans_lt (by cases ‹Fmt› <;> decide +kernel)

theorem epsUnits_lt_limit : epsUnits < limit := by cases ‹Fmt› <;> decide +kernel

/-- `2^-sig` is more than `2^-(2 prec)`. -/
theorem gap_posQ : (0 : ℚ) < 1 / 2 ^ sig - 1 / 2 ^ (2 * prec) := by
  rw [prec]
  rcases sig_cases with h | h <;> rw [h] <;> norm_num

theorem gap_value : (gap : ℚ) / unit = 1 / 2 ^ sig - 1 / 2 ^ (2 * prec) := by
  have h : gap * 2 ^ (2 * prec) = (2 ^ (sig + 2) - 1) * unit := by cases ‹Fmt› <;> decide +kernel
  have hq : (gap : ℚ) * 2 ^ (2 * prec) = (2 ^ (sig + 2) - 1) * unit := by
    have : ((gap * 2 ^ (2 * prec) : ℕ) : ℚ) = (((2 ^ (sig + 2) - 1) * unit : ℕ) : ℚ) := by rw [h]
    rw [Nat.cast_mul, Nat.cast_mul, Nat.cast_sub Nat.one_le_two_pow] at this
    push_cast at this
    exact this
  have hu := unit_posQ
  rw [div_eq_iff hu.ne']
  have : (gap : ℚ) = (2 ^ (sig + 2) - 1) * unit / 2 ^ (2 * prec) := by rw [← hq]; field_simp
  rw [this, prec]
  rcases sig_cases with h | h <;> rw [h] <;> ring

theorem epsilonEquals_fin (s t : Bool) (n m : ℕ) :
    epsilonEquals (fin s n) (fin t m) = true ↔ (units s n - units t m).natAbs < gap := by
  have hneg : units (!t) m = - units t m := by unfold units; cases t <;> simp
  have e1 : sub (fin s n) (fin t m) = ofUnits (s && !t) (units s n - units t m) := by
    rw [sub, neg, add_fin, hneg, ← Int.sub_eq_add_neg]
  have hlt : ∀ k : ℕ, lt (fin false k) EPSILON = true ↔ k < epsUnits := by
    intro k
    simp only [lt, EPSILON, partialCmp, units, Bool.false_eq_true, if_false, beq_iff_eq,
      Option.some.injEq, compare_lt_iff_lt]
    exact_mod_cast Iff.rfl
  unfold epsilonEquals
  rw [e1, ← roundNat_lt_eps]
  generalize units s n - units t m = i
  unfold ofUnits
  split
  · rename_i h0
    subst h0
    rw [Int.natAbs_zero, roundNat_zero]
    exact hlt 0
  · unfold round
    dsimp only
    split
    · exact hlt _
    · rename_i hl
      have := epsUnits_lt_limit
      constructor
      · intro h; simp [abs, lt, EPSILON, partialCmp] at h
      · intro h; omega

/-- C89. `epsilon_equals(x, y)` holds exactly if both are finite and their exact difference is
below `2^-sig - 2^-(2 prec)` (the differences that are rounded to less than `EPSILON = 2^-sig`;
`sig = 52` for `f64` and `23` for `f32`, `prec = sig + 1`). -/
theorem C89_epsilon_equals (x y : Flt) : epsilonEquals x y = true ↔
    ∃ a b, x.value = some a ∧ y.value = some b ∧ |a - b| < 1 / 2 ^ sig - 1 / 2 ^ (2 * prec) := by
  have hnan : lt nan EPSILON = false := rfl
  have hinf : lt (inf false) EPSILON = false := rfl
  have hn : ∀ z, add nan z = nan := fun z => by cases z <;> rfl
  have hn' : ∀ z, add z nan = nan := fun z => by cases z <;> rfl
  cases x with
  | nan => simp [epsilonEquals, sub, hn, abs, hnan, value]
  | inf s =>
    cases y with
    | nan => simp [epsilonEquals, sub, neg, hn', abs, hnan, value]
    | inf t => cases s <;> cases t <;> simp [epsilonEquals, sub, neg, add, abs, hnan, hinf, value]
    | fin t m => simp [epsilonEquals, sub, neg, add, abs, hinf, value]
  | fin s n =>
    cases y with
    | nan => simp [epsilonEquals, sub, neg, hn', abs, hnan, value]
    | inf t => simp [epsilonEquals, sub, neg, add, abs, hinf, value]
    | fin t m =>
      rw [epsilonEquals_fin]
      simp only [value, Option.some.injEq, exists_and_left, exists_eq_left']
      have hu := unit_posQ
      rw [← gap_value, ← sub_div, abs_div, abs_of_pos hu, div_lt_div_iff_of_pos_right hu,
        ← Int.cast_sub, ← Int.cast_abs, Int.abs_eq_natAbs]
      exact_mod_cast Iff.rfl

/-- C89. `epsilon_equals` is symmetric. -/
theorem C89_symm (x y : Flt) : epsilonEquals x y = epsilonEquals y x := by
  rw [Bool.eq_iff_iff, C89_epsilon_equals, C89_epsilon_equals]
  constructor
  · rintro ⟨a, b, h1, h2, h3⟩; exact ⟨b, a, h2, h1, by rwa [abs_sub_comm]⟩
  · rintro ⟨a, b, h1, h2, h3⟩; exact ⟨b, a, h2, h1, by rwa [abs_sub_comm]⟩

/-- C89. `epsilon_equals` is reflexive exactly on the finite numbers. -/
theorem C89_refl (x : Flt) : epsilonEquals x x = true ↔ x.value ≠ none := by
  rw [C89_epsilon_equals]
  constructor
  · rintro ⟨a, b, h1, -⟩ h; rw [h] at h1; cases h1
  · intro h
    obtain ⟨a, ha⟩ := Option.ne_none_iff_exists'.mp h
    exact ⟨a, a, ha, ha, by rw [sub_self, abs_zero]; exact gap_posQ⟩

theorem dvd_of_large {n : ℕ} (h : ReprP n) (hn : unit ≤ n) : epsUnits ∣ n := by
  have h1 := repr53_dvd h
  obtain ⟨k, hk, h3⟩ : ∃ k, expo unit = k ∧ epsUnits = 2 ^ k :=
    ⟨unitExp - sig, by cases ‹Fmt› <;> decide +kernel, by cases ‹Fmt› <;> decide +kernel⟩
  rw [h3]
  exact (Nat.pow_dvd_pow 2 (hk ▸ expo_mono hn)).trans h1

/-- C89. On numbers of absolute value at least 1, `epsilon_equals` is equality. -/
theorem C89_large (x y : Flt) (hx : x.Valid) (hy : y.Valid) (a b : ℚ) (ha : x.value = some a)
    (hb : y.value = some b) (ha1 : 1 ≤ |a|) (hb1 : 1 ≤ |b|) : epsilonEquals x y = true ↔ a = b := by
  constructor
  · intro h
    cases x with
    | nan => cases ha
    | inf _ => cases ha
    | fin s n =>
      cases y with
      | nan => cases hb
      | inf _ => cases hb
      | fin t m =>
        rw [epsilonEquals_fin] at h
        simp only [value, Option.some.injEq] at ha hb
        have hu := unit_posQ
        have hbig : ∀ (s : Bool) (n : ℕ) (a : ℚ), (units s n : ℚ) / unit = a → 1 ≤ |a| → unit ≤ n := by
          intro s n a h h1
          rw [← h, abs_div, abs_of_pos hu, le_div_iff₀ hu, one_mul] at h1
          have : |(units s n : ℚ)| = n := by unfold units; cases s <;> simp
          rw [this] at h1
          exact_mod_cast h1
        obtain ⟨p, hp⟩ := dvd_of_large (repr53_iff.mpr hx.1) (hbig s n a ha ha1)
        obtain ⟨q, hq⟩ := dvd_of_large (repr53_iff.mpr hy.1) (hbig t m b hb hb1)
        have hdvd : (epsUnits : ℤ) ∣ units s n - units t m := by
          have : ∀ (s : Bool) (n p : ℕ), n = epsUnits * p → (epsUnits : ℤ) ∣ units s n := by
            intro s n p h
            have h1 : (epsUnits : ℤ) ∣ (n : ℤ) := ⟨p, by exact_mod_cast h⟩
            unfold units
            cases s
            · exact h1
            · exact h1.neg_right
          exact (this s n p hp).sub (this t m q hq)
        have hge : gap ≤ epsUnits := by cases ‹Fmt› <;> decide +kernel
        have : units s n - units t m = 0 :=
          Int.eq_zero_of_dvd_of_natAbs_lt_natAbs hdvd (by rw [Int.natAbs_natCast]; omega)
        rw [← ha, ← hb, show units s n = units t m by omega]
  · rintro rfl
    rw [C89_epsilon_equals]
    exact ⟨a, a, ha, hb, by rw [sub_self, abs_zero]; exact gap_posQ⟩

/-- Two numbers at distance `2^-prec`, the first of them zero. -/
def half : Flt := fin false (2 ^ (unitExp - prec))

/-- C90 (refuted). `epsilon_equals` is not an equivalence relation: `0 ~ 2^-prec ~ 2^-sig` but not
`0 ~ 2^-sig`; and infinity is not related to itself. -/
theorem C90_refuted : ¬ ((∀ x : Flt, x.Valid → x ≠ nan → epsilonEquals x x = true) ∨
    ∀ x y z : Flt, x.Valid → y.Valid → z.Valid → epsilonEquals x y = true →
      epsilonEquals y z = true → epsilonEquals x z = true) := by
  rintro (h | h)
  · exact absurd (h (inf false) trivial (by simp))
      (by cases ‹Fmt› <;> decide +kernel)
  · exact absurd (h zero half EPSILON (by cases ‹Fmt› <;> decide +kernel)
      (by cases ‹Fmt› <;> decide +kernel) (by cases ‹Fmt› <;> decide +kernel)
      (by cases ‹Fmt› <;> decide +kernel) (by cases ‹Fmt› <;> decide +kernel))
      (by cases ‹Fmt› <;> decide +kernel)

/-- `1 - 2^-prec`, the greatest number below 1. -/
def belowOne : Flt := fin false (2 ^ unitExp - 2 ^ (unitExp - prec))

example : belowOne.Valid ∧ epsilonEquals one belowOne = true ∧ eq one belowOne = false ∧
    epsilonEquals one (add one EPSILON) = false := by cases ‹Fmt› <;> decide +kernel

/-! ## C91 the pivot -/

/-- C91. `get_max_index` with `stability_cmp` on a float type: with two or more elements of which one is a
NaN it panics; otherwise it returns the last index of an element of greatest absolute value. -/
theorem C91_get_max_index (l : List Flt) (hl : l ≠ []) :
    (2 ≤ l.length ∧ nan ∈ l →
      getMaxIndex l StabilityCmp.stabilityCmp = .panic .unwrapNone) ∧
    (¬ (2 ≤ l.length ∧ nan ∈ l) → ∃ i x, getMaxIndex l StabilityCmp.stabilityCmp = .ok i ∧
      l[i]? = some x ∧ (∀ (j : ℕ) y, l[j]? = some y → y.mag ≤ x.mag) ∧
      ∀ (j : ℕ) y, i < j → l[j]? = some y → y.mag < x.mag) := by
  have hcmp : ∀ a b : Flt, (StabilityCmp.stabilityCmp a b : Res (Option Ordering)) =
      .ok (if a = nan ∨ b = nan then none else some (compare a.mag b.mag)) :=
    fun a b => congrArg Res.ok (C88_stability_cmp a b)
  constructor
  · rintro ⟨h2, hn⟩
    obtain ⟨x, xs, rfl⟩ := List.exists_cons_of_ne_nil hl
    have hz : ((x :: xs).zipIdx.map fun (x, i) => (i, x)) =
        (0, x) :: (xs.zipIdx 1).map fun (x, i) => (i, x) := by simp [List.zipIdx_cons]
    have key : ∀ (f : ℕ × Flt → ℕ × Flt → Res (ℕ × Flt)),
        (∀ u v, u.2 = nan ∨ v.2 = nan → f u v = .panic .unwrapNone) →
        (∀ u v, ¬ (u.2 = nan ∨ v.2 = nan) → f u v = .ok u ∨ f u v = .ok v) →
        ∀ (ys : List (ℕ × Flt)) (b : ℕ × Flt), ys ≠ [] → (b.2 = nan ∨ ∃ y ∈ ys, y.2 = nan) →
        ys.foldlM f b = .panic .unwrapNone := by
      intro f hf1 hf2 ys
      induction ys with
      | nil => intro b h; exact absurd rfl h
      | cons y ys ih =>
        intro b _ hb
        rw [List.foldlM_cons]
        by_cases hnn : b.2 = nan ∨ y.2 = nan
        · rw [hf1 b y hnn]; rfl
        · have hys : ∃ z ∈ ys, z.2 = nan := by
            push Not at hnn
            rcases hb with h | ⟨z, hz, h⟩
            · exact absurd h hnn.1
            · rcases List.mem_cons.mp hz with rfl | hz
              · exact absurd h hnn.2
              · exact ⟨z, hz, h⟩
          have hne : ys ≠ [] := by rintro rfl; simp at hys
          rcases hf2 b y hnn with h | h
          · rw [h]; exact ih b hne (.inr hys)
          · rw [h]; exact ih y hne (.inr hys)
    unfold getMaxIndex
    rw [hz, maxBy, key]
    · rfl
    · intro u v huv
      rw [hcmp, if_pos huv]; rfl
    · intro u v huv
      rw [hcmp, if_neg huv]
      cases compare u.2.mag v.2.mag
      · exact .inr rfl
      · exact .inr rfl
      · exact .inl rfl
    · intro h
      have : ((xs.zipIdx 1).map fun (x, i) => (i, x)).length = xs.length := by simp
      rw [h] at this
      simp at this h2
      omega
    · rcases List.mem_cons.mp hn with h | h
      · exact .inl h.symm
      · right
        obtain ⟨i, hi⟩ := List.getElem?_of_mem h
        exact ⟨(1 + i, nan), List.mem_of_getElem? (i := i) (by simp [hi]), rfl⟩
  · intro hno
    by_cases h2 : 2 ≤ l.length
    · have hnn : ∀ a ∈ l, a ≠ nan := fun a ha h => hno ⟨h2, h ▸ ha⟩
      have := getMaxIndex_last (E := fun _ => False) (le := StabilityCmp.stabilityCmp) mag l hl ?_
      · cases hi : getMaxIndex l StabilityCmp.stabilityCmp with
        | ok i =>
          rw [hi] at this
          obtain ⟨x, h1, h2, h3⟩ := this
          exact ⟨i, x, rfl, h1, h2, h3⟩
        | panic p => rw [hi] at this; exact this.elim
        | diverge => rw [hi] at this; exact this.elim
      · intro a ha b hb
        rw [hcmp, if_neg (by simp [hnn a ha, hnn b hb])]
        exact compare_gt_iff_gt
    · obtain ⟨x, xs, rfl⟩ := List.exists_cons_of_ne_nil hl
      have : xs = [] := by
        rw [← List.length_eq_zero_iff]; rw [List.length_cons] at h2; omega
      subst this
      refine ⟨0, x, rfl, rfl, fun j y hy => ?_, fun j y hj hy => ?_⟩
      · have : y ∈ [x] := List.mem_of_getElem? hy
        rw [List.mem_singleton.mp this]
      · have := (List.getElem?_eq_some_iff.mp hy).1
        simp at this; omega

/-- `epsilon_equals(x, 0)` of a valid number: `|x| < 2^-sig`. -/
theorem epsilonEquals_zero (x : Flt) (hx : x.Valid) :
    epsilonEquals x zero = true ↔ x ≠ nan ∧ x.mag < (epsUnits : WithTop ℕ) := by
  cases x with
  | nan => simp [epsilonEquals, sub, add, abs, lt, partialCmp]
  | inf s => cases s <;> simp [epsilonEquals, sub, zero, neg, add, abs, lt, EPSILON, partialCmp, mag]
  | fin s n =>
    rw [zero, epsilonEquals_fin, ← roundNat_lt_eps]
    have : (units s n - units false 0).natAbs = n := by unfold units; cases s <;> simp
    rw [this, hx.1]
    simp [mag]

/-- C91. The pivot `get_stable_column_index_under_row(c, r)` of a matrix over a float type, for an existing
column `c` and row `r`: if the rows from `r` on are at least two and their entries in column `c`
contain a NaN, it panics. Otherwise it is `None` exactly if all these entries are below
`EPSILON` in absolute value, and else the last one of greatest absolute value. -/
theorem C91_pivot (b : Build) (powi : Flt → ℤ → Flt) (M : Mat Flt) (n m c r : ℕ) (a : ℕ → ℕ → Flt)
    (h : letI := Flt.field b powi; M.Has n m a) (hv : ∀ i j, i < n → j < m → (a i j).Valid)
    (hc : c < m) (hr : r < n) :
    letI := Flt.field b powi
    ((r + 2 ≤ n ∧ ∃ i, r ≤ i ∧ i < n ∧ a i c = nan) → M.getStable c r = .panic .unwrapNone) ∧
    (¬ (r + 2 ≤ n ∧ ∃ i, r ≤ i ∧ i < n ∧ a i c = nan) →
      (M.getStable c r = .ok none ∧
        ∀ i, r ≤ i → i < n → a i c ≠ nan ∧ (a i c).mag < (epsUnits : WithTop ℕ)) ∨
      ∃ i, M.getStable c r = .ok (some (i, a i c)) ∧ r ≤ i ∧ i < n ∧
        (a i c = nan ∨ (epsUnits : WithTop ℕ) ≤ (a i c).mag) ∧
        (∀ j, r ≤ j → j < n → (a j c).mag ≤ (a i c).mag) ∧
        ∀ j, i < j → j < n → (a j c).mag < (a i c).mag) := by
  let _ := Flt.field b powi
  have hcol := h.getColIter hc
  have hdrop : ∀ k, (((List.range n).map fun i => a i c).drop r)[k]? =
      if k + r < n then some (a (k + r) c) else none := by
    intro k
    rw [List.getElem?_drop, List.getElem?_map, Nat.add_comm]
    split
    · rename_i hk; rw [List.getElem?_range hk]; rfl
    · rename_i hk; rw [List.getElem?_eq_none (by simpa using hk)]; rfl
  have hlen : (((List.range n).map fun i => a i c).drop r).length = n - r := by simp
  generalize hl : ((List.range n).map fun i => a i c).drop r = l at hdrop hlen
  have hne : l ≠ [] := by rw [← List.length_pos_iff]; omega
  have hcond : (r + 2 ≤ n ∧ ∃ i, r ≤ i ∧ i < n ∧ a i c = nan) ↔ 2 ≤ l.length ∧ nan ∈ l := by
    rw [hlen]
    constructor
    · rintro ⟨h1, i, h2, h3, h4⟩
      refine ⟨by omega, List.mem_of_getElem? (i := i - r) ?_⟩
      rw [hdrop, if_pos (by omega), Nat.sub_add_cancel h2, h4]
    · rintro ⟨h1, h2⟩
      obtain ⟨k, hk⟩ := List.getElem?_of_mem h2
      rw [hdrop] at hk
      split at hk
      · rename_i hkn
        exact ⟨by omega, k + r, by omega, hkn, by simpa using hk⟩
      · cases hk
  obtain ⟨h1, h2⟩ := C91_get_max_index l hne
  constructor
  · intro hn
    unfold Mat.getStable
    rw [hcol, bind_ok, hl, h1 (hcond.mp hn)]
    rfl
  · intro hn
    obtain ⟨k, x, hk, hkx, hmax, hlast⟩ := h2 (mt hcond.mpr hn)
    have hkn : k + r < n := by
      by_contra hk'
      rw [hdrop, if_neg hk'] at hkx; cases hkx
    rw [hdrop, if_pos hkn, Option.some.injEq] at hkx
    subst hkx
    have hmax' : ∀ j, r ≤ j → j < n → (a j c).mag ≤ (a (k + r) c).mag := fun j hj hjn =>
      hmax (j - r) (a j c) (by rw [hdrop, if_pos (by omega), Nat.sub_add_cancel hj])
    have hrun : M.getStable c r = if epsilonEquals (a (k + r) c) zero = true then .ok none
        else .ok (some (k + r, a (k + r) c)) := by
      unfold Mat.getStable
      rw [hcol, bind_ok, hl, hk, bind_ok]
      dsimp only
      rw [h.get hkn hc, bind_ok]
      change (if epsilonEquals (a (k + r) c) zero = true then _ else _) = _
      rfl
    by_cases he : epsilonEquals (a (k + r) c) zero = true
    · rw [if_pos he] at hrun
      rw [epsilonEquals_zero _ (hv _ _ hkn hc)] at he
      refine .inl ⟨hrun, fun i hi hin => ⟨fun hnan => ?_, (hmax' i hi hin).trans_lt he.2⟩⟩
      by_cases hrn : r + 2 ≤ n
      · exact hn ⟨hrn, i, hi, hin, hnan⟩
      · have : i = k + r := by omega
        subst this; exact he.1 hnan
    · rw [if_neg he] at hrun
      rw [epsilonEquals_zero _ (hv _ _ hkn hc)] at he
      refine .inr ⟨k + r, hrun, by omega, hkn, ?_, hmax', fun j hj hjn => ?_⟩
      · by_contra hcon
        push Not at hcon
        exact he hcon
      · exact hlast (j - r) (a j c) (by omega) (by
          rw [hdrop, if_pos (by omega), Nat.sub_add_cancel (by omega)])

end Flt
end Verif
