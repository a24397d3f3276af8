import Verif.Poly.DisplayF64
import Verif.Props.Display
import Verif.Proofs.F64

/-!
# Properties C127 and C128: displayed numbers over `f32` and `f64` and polynomials over `f64`
-/

namespace Verif
open Res

namespace Display
open Flt

variable [Fmt]

/-! ### Rounding to a neighbour -/

theorem repr53_strict {n : ℕ} (h : ReprP n) : ∃ r k, n = r * 2 ^ k ∧ r < 2 ^ Fmt.prec := by
  obtain ⟨r, k, rfl, hr⟩ := h
  rcases Nat.lt_or_ge r (2 ^ Fmt.prec) with h | h
  · exact ⟨r, k, rfl, h⟩
  · exact ⟨1, k + Fmt.prec, by rw [show r = 2 ^ Fmt.prec from le_antisymm hr h, one_mul, pow_add _ k, mul_comm],
      Nat.one_lt_two_pow (Nat.succ_ne_zero _)⟩

/-- Different numbers with `prec` significant bits are far apart. -/
theorem repr53_spacing {n r : ℕ} (hn : ReprP n) (hr : ReprP r) (h : r ≠ n) :
    (n : ℤ) ≤ 2 ^ Fmt.prec * |(r : ℤ) - n| := by
  obtain ⟨a, k, rfl, ha⟩ := hn
  obtain ⟨c, l, rfl, hc⟩ := repr53_strict hr
  push_cast
  have ha' : (a : ℤ) ≤ 2 ^ Fmt.prec := by exact_mod_cast ha
  have hc' : (c : ℤ) ≤ 2 ^ Fmt.prec - 1 := by
    have : (c : ℤ) < 2 ^ Fmt.prec := by exact_mod_cast hc
    linarith
  have hne : (c : ℤ) * 2 ^ l - a * 2 ^ k ≠ 0 := fun h' => h (by
    have : (c : ℤ) * 2 ^ l = a * 2 ^ k := by omega
    exact_mod_cast this)
  have hge : ∀ e : ℕ, (2 ^ e : ℤ) ∣ c * 2 ^ l - a * 2 ^ k →
      (2 ^ e : ℤ) ≤ |(c : ℤ) * 2 ^ l - a * 2 ^ k| := fun e he =>
    Int.le_of_dvd (abs_pos.2 hne) ((dvd_abs _ _).2 he)
  rcases Nat.le_total k l with hkl | hkl
  · have h1 := hge k (dvd_sub (dvd_mul_of_dvd_right (pow_dvd_pow 2 hkl) _) (dvd_mul_left _ _))
    have : (a : ℤ) * 2 ^ k ≤ 2 ^ Fmt.prec * 2 ^ k := mul_le_mul_of_nonneg_right ha' (by positivity)
    exact this.trans (mul_le_mul_of_nonneg_left h1 (by positivity))
  · have h1 := hge l (dvd_sub (dvd_mul_left _ _) (dvd_mul_of_dvd_right (pow_dvd_pow 2 hkl) _))
    have h2 : (c : ℤ) * 2 ^ l ≤ (2 ^ Fmt.prec - 1) * 2 ^ l := mul_le_mul_of_nonneg_right hc' (by positivity)
    have h3 := neg_abs_le ((c : ℤ) * 2 ^ l - a * 2 ^ k)
    have h4 := mul_le_mul_of_nonneg_left h1
      (show (0 : ℤ) ≤ 2 ^ Fmt.prec - 1 from sub_nonneg.mpr (one_le_pow₀ (by norm_num)))
    calc (a : ℤ) * 2 ^ k ≤ c * 2 ^ l + |(c : ℤ) * 2 ^ l - a * 2 ^ k| := by linarith
      _ ≤ (2 ^ Fmt.prec - 1) * |(c : ℤ) * 2 ^ l - a * 2 ^ k| + |(c : ℤ) * 2 ^ l - a * 2 ^ k| := by
        linarith
      _ = 2 ^ Fmt.prec * |(c : ℤ) * 2 ^ l - a * 2 ^ k| := by ring

/-- A fraction close to a number with `prec` significant bits is rounded to it. -/
theorem roundNat_near {n a b : ℕ} (hb : 0 < b) (hn : ReprP n)
    (h : 2 ^ (Fmt.sig + 2) * |(a : ℤ) - b * n| < b * n) : roundNat a b = n := by
  by_contra hne
  have h1 := roundNat_nearest a hb hn
  have h2 := repr53_spacing hn (repr_roundNat a hb) hne
  have h3 : |(b : ℤ) * (roundNat a b : ℤ) - b * n| ≤ 2 * |(a : ℤ) - b * n| := by
    have h4 := abs_sub_abs_le_abs_sub ((b : ℤ) * (roundNat a b : ℤ) - b * n) (a - b * n)
    have h5 : |(b : ℤ) * (roundNat a b : ℤ) - b * n - (a - b * n)| =
        |(a : ℤ) - b * roundNat a b| := by
      rw [← abs_neg]; congr 1; ring
    linarith
  rw [← mul_sub, abs_mul, abs_of_nonneg (by positivity : (0 : ℤ) ≤ b)] at h3
  have hb' : (0 : ℤ) < b := by exact_mod_cast hb
  have h6 : (b : ℤ) * n ≤ b * (2 ^ Fmt.prec * |((roundNat a b : ℕ) : ℤ) - n|) :=
    mul_le_mul_of_nonneg_left h2 hb'.le
  have h7 : (2 ^ Fmt.prec : ℤ) * (b * |((roundNat a b : ℕ) : ℤ) - n|) ≤
      2 ^ (Fmt.sig + 2) * |(a : ℤ) - b * n| := by
    refine (mul_le_mul_of_nonneg_left h3 (by positivity)).trans_eq ?_
    rw [← mul_assoc, ← pow_succ]
  rw [mul_left_comm] at h6
  linarith

/-! ### The shortest decimal number -/

omit [Fmt] in
theorem filter_threshold (q : ℕ → Bool) (t : ℕ) (h : ∀ k, q k = true ↔ k < t) (N : ℕ) :
    ((List.range N).filter q).length = min t N := by
  induction N with
  | zero => simp
  | succ N ih =>
    rw [List.range_succ, List.filter_append, List.length_append, ih]
    by_cases hN : N < t
    · rw [List.filter_cons_of_pos ((h N).2 hN)]; simp; omega
    · rw [List.filter_cons_of_neg (fun hq => hN ((h N).1 hq))]; simp; omega

theorem unit_pos : 0 < Flt.unit := by unfold Flt.unit; positivity

theorem magnitude_spec {n : ℕ} (h0 : 0 < n) (hn : n < Flt.limit) : 77 ≤ magnitude n ∧
    10 ^ (magnitude n - 1) * Flt.unit ≤ n * 10 ^ shift ∧
    n * 10 ^ shift < 10 ^ magnitude n * Flt.unit := by
  have hup : n * 10 ^ shift < 10 ^ 799 * Flt.unit := by
    have h1 : Flt.limit * 10 ^ shift ≤ 10 ^ 799 * Flt.unit := by
      unfold Flt.limit Flt.unit shift
      fmt_decide
    exact lt_of_lt_of_le (Nat.mul_lt_mul_of_pos_right hn (by positivity)) h1
  have hlow : 10 ^ 76 * Flt.unit ≤ n * 10 ^ shift := by
    have h1 : 10 ^ 76 * Flt.unit ≤ 1 * 10 ^ shift := by
      unfold Flt.unit shift
      fmt_decide
    exact h1.trans (Nat.mul_le_mul_right _ h0)
  have hex : ∃ k, n * 10 ^ shift < 10 ^ k * Flt.unit := ⟨_, hup⟩
  have hfind := Nat.find_spec hex
  have hmono : ∀ k l, k ≤ l → 10 ^ k * Flt.unit ≤ 10 ^ l * Flt.unit := fun k l h =>
    Nat.mul_le_mul_right _ (Nat.pow_le_pow_right (by omega) h)
  have hle : Nat.find hex ≤ 799 := Nat.find_min' hex hup
  have hge : 77 ≤ Nat.find hex := by
    by_contra hc
    exact absurd (lt_of_lt_of_le hfind (hmono _ 76 (by omega))) (by omega)
  have hM : magnitude n = Nat.find hex := by
    unfold magnitude
    rw [filter_threshold _ (Nat.find hex)]
    · exact min_eq_left (hle.trans (by decide))
    · intro k
      rw [decide_eq_true_iff]
      constructor
      · intro hk
        by_contra hc
        exact absurd (lt_of_lt_of_le hfind (hmono _ k (by omega))) (by omega)
      · intro hk
        have := Nat.find_min hex hk
        omega
  rw [hM]
  refine ⟨hge, ?_, hfind⟩
  have := Nat.find_min hex (m := Nat.find hex - 1) (by omega)
  omega

/-- Cutting off or rounding up at a digit rounds back. -/
def levelOk (n p : ℕ) : Bool :=
  roundsTo n (below n (magnitude n - p)) (magnitude n - p) ||
    roundsTo n (below n (magnitude n - p) + 1) (magnitude n - p)

theorem below_le (n j : ℕ) : below n j * 10 ^ j * Flt.unit ≤ n * 10 ^ shift := by
  unfold below
  rw [mul_assoc]
  exact Nat.div_mul_le_self _ _

theorem lt_above (n j : ℕ) : n * 10 ^ shift < (below n j + 1) * 10 ^ j * Flt.unit := by
  unfold below
  rw [mul_assoc, mul_comm (_ + 1)]
  exact Nat.lt_mul_div_succ (n * 10 ^ shift) (b := 10 ^ j * Flt.unit)
    (Nat.mul_pos (by positivity) unit_pos)

theorem maxDigits_le : 1 ≤ maxDigits ∧ maxDigits ≤ 17 := by fmt_decide

theorem maxDigits_pow : (2 : ℤ) ^ (Fmt.sig + 1) < 10 ^ (maxDigits - 1) := by fmt_decide

theorem maxDigits_lt {D S W : ℤ} (h : 2 * D ≤ S) (hS : 0 < S) (hW : 10 ^ (maxDigits - 1) * S ≤ W) :
    2 ^ (Fmt.sig + 2) * D < W :=
  calc 2 ^ (Fmt.sig + 2) * D = 2 ^ (Fmt.sig + 1) * (2 * D) := by rw [pow_succ _ (Fmt.sig + 1)]; ring
    _ ≤ 2 ^ (Fmt.sig + 1) * S := mul_le_mul_of_nonneg_left h (by positivity)
    _ < 10 ^ (maxDigits - 1) * S := mul_lt_mul_of_pos_right maxDigits_pow hS
    _ ≤ W := hW

/-- `maxDigits` digits are enough. -/
theorem level_max {n : ℕ} (h0 : 0 < n) (hn : n < Flt.limit) (hr : ReprP n) : levelOk n maxDigits = true := by
  obtain ⟨h77, hlow, hup⟩ := magnitude_spec h0 hn
  unfold levelOk
  have h1 := below_le n (magnitude n - maxDigits)
  have h2 := lt_above n (magnitude n - maxDigits)
  generalize below n (magnitude n - maxDigits) = d at *
  have hS : 10 ^ (maxDigits - 1) * (10 ^ (magnitude n - maxDigits) * Flt.unit) ≤ n * 10 ^ shift := by
    rw [← mul_assoc, ← pow_add, show maxDigits - 1 + (magnitude n - maxDigits) = magnitude n - 1 by
        have := maxDigits_le; omega]
    exact hlow
  have hSpos : 0 < 10 ^ (magnitude n - maxDigits) * Flt.unit := Nat.mul_pos (by positivity) unit_pos
  have hu := unit_pos
  unfold roundsTo
  rw [Bool.or_eq_true, decide_eq_true_iff, decide_eq_true_iff]
  rw [mul_assoc] at h1 h2 ⊢
  rw [mul_assoc (d + 1)]
  generalize 10 ^ (magnitude n - maxDigits) * Flt.unit = S at *
  have hw : ((10 ^ shift : ℕ) : ℤ) * n = ((n * 10 ^ shift : ℕ) : ℤ) := by
    rw [Nat.cast_mul, mul_comm]
  have hpos : 0 < 10 ^ shift := by positivity
  rcases Nat.le_total (2 * (n * 10 ^ shift - d * S)) S with h | h
  · left
    apply roundNat_near hpos hr
    rw [hw]
    generalize n * 10 ^ shift = W at *
    rw [abs_of_nonpos (by push_cast; have : ((d * S : ℕ) : ℤ) ≤ W := by exact_mod_cast h1
                          push_cast at this; linarith)]
    zify [h1] at h hS hSpos
    push_cast
    exact maxDigits_lt (by linarith) hSpos (by exact_mod_cast hS)
  · right
    apply roundNat_near hpos hr
    rw [hw]
    generalize n * 10 ^ shift = W at *
    rw [abs_of_nonneg (by push_cast; have : (W : ℤ) < ((d + 1) * S : ℕ) := by exact_mod_cast h2
                          push_cast at this; linarith)]
    zify [h1] at h hS hSpos
    push_cast
    exact maxDigits_lt (by linarith) hSpos (by exact_mod_cast hS)

/-- The number of digits generated. -/
def level (n : ℕ) : ℕ := ((List.range (maxDigits + 1)).find? (levelOk n)).getD maxDigits

theorem level_spec {n : ℕ} (h0 : 0 < n) (hn : n < Flt.limit) (hr : ReprP n) :
    level n ≤ maxDigits ∧ levelOk n (level n) = true ∧ ∀ p < level n, levelOk n p = false := by
  unfold level
  rcases h : (List.range (maxDigits + 1)).find? (levelOk n) with _ | p
  · rw [List.find?_eq_none] at h
    exact absurd (level_max h0 hn hr) (h maxDigits (by simp))
  · rw [Option.getD_some]
    have hm := List.mem_of_find?_eq_some h
    rw [List.mem_range] at hm
    refine ⟨by omega, List.find?_some h, fun q hq => ?_⟩
    rw [List.find?_eq_some_iff_getElem] at h
    obtain ⟨-, i, hi, h1, h2⟩ := h
    rw [List.getElem_range] at h1
    subst h1
    have := h2 q hq
    rw [List.getElem_range] at this
    simpa using this

theorem shortest_snd (n : ℕ) : (shortest n).2 = magnitude n - level n := by
  unfold shortest level levelOk
  rfl

/-- The decimal number written for `n` units is rounded to `n` units. -/
theorem shortest_rounds {n : ℕ} (h0 : 0 < n) (hn : n < Flt.limit) (hr : ReprP n) :
    roundNat ((shortest n).1 * 10 ^ (shortest n).2 * Flt.unit) (10 ^ shift) = n := by
  have h := (level_spec h0 hn hr).2.1
  have hs : (shortest n).1 = if (roundsTo n (below n (magnitude n - level n) + 1) (magnitude n - level n) &&
      (!roundsTo n (below n (magnitude n - level n)) (magnitude n - level n) ||
        10 ^ (magnitude n - level n) * Flt.unit ≤
          2 * (n * 10 ^ shift % (10 ^ (magnitude n - level n) * Flt.unit)))) = true
      then below n (magnitude n - level n) + 1 else below n (magnitude n - level n) := by
    unfold shortest level levelOk
    rfl
  rw [shortest_snd, hs]
  unfold levelOk at h
  generalize magnitude n - level n = j at *
  rcases hd : roundsTo n (below n j) j with _ | _ <;>
    rcases hu : roundsTo n (below n j + 1) j with _ | _ <;> rw [hd, hu] at h
  · cases h
  · rw [if_pos (by rfl)]; simpa [roundsTo] using hu
  · rw [if_neg (by simp)]; simpa [roundsTo] using hd
  · split
    · simpa [roundsTo] using hu
    · simpa [roundsTo] using hd

theorem below_magnitude {n : ℕ} (h0 : 0 < n) (hn : n < Flt.limit) : below n (magnitude n) = 0 :=
  Nat.div_eq_of_lt (magnitude_spec h0 hn).2.2

/-- A decimal number between `n` units and one that rounds to `n` units rounds to `n` units. -/
theorem roundsTo_between {n x y g j : ℕ} (hr : ReprP n) (hy : 0 < y)
    (hx : roundNat (x * Flt.unit) y = n)
    (h : (x * 10 ^ shift ≤ g * 10 ^ j * y ∧ g * 10 ^ j * Flt.unit ≤ n * 10 ^ shift) ∨
      (n * 10 ^ shift ≤ g * 10 ^ j * Flt.unit ∧ g * 10 ^ j * y ≤ x * 10 ^ shift)) :
    roundsTo n g j = true := by
  unfold roundsTo
  rw [decide_eq_true_iff]
  have hT : 0 < 10 ^ shift := by positivity
  generalize 10 ^ shift = T at *
  have hn := roundNat_of_repr hr
  rcases h with ⟨h1, h2⟩ | ⟨h1, h2⟩
  · apply le_antisymm
    · conv_rhs => rw [← hn]
      exact roundNat_mono hT one_pos (by linarith)
    · conv_lhs => rw [← hx]
      exact roundNat_mono hy hT (by nlinarith [Nat.mul_le_mul_right Flt.unit h1])
  · apply le_antisymm
    · conv_rhs => rw [← hx]
      exact roundNat_mono hT hy (by nlinarith [Nat.mul_le_mul_right Flt.unit h2])
    · conv_lhs => rw [← hn]
      exact roundNat_mono one_pos hT (by linarith)

/-- No decimal number with fewer digits rounds to the same number. -/
theorem level_le {n c k l q : ℕ} (h0 : 0 < n) (hn : n < Flt.limit) (hr : ReprP n)
    (hc : roundNat (c * 10 ^ k * Flt.unit) (10 ^ l) = n) (hq : c < 10 ^ q) :
    level n ≤ q ∧ 1 ≤ q := by
  have hcpos : 0 < c := by
    rcases Nat.eq_zero_or_pos c with rfl | h
    · have h1 : roundNat (0 * 10 ^ k * Flt.unit) (10 ^ l) = 0 := by
        rw [zero_mul, zero_mul]
        have := roundNat_mono (a := 0) (a' := 0) (b := 10 ^ l) (b' := 1) (by positivity) one_pos
          (by omega)
        rw [roundNat_zero] at this
        omega
      omega
    · exact h
  have hq1 : 1 ≤ q := by
    rcases Nat.eq_zero_or_pos q with rfl | h
    · simp at hq; omega
    · exact h
  refine ⟨?_, hq1⟩
  by_contra hlt
  rw [not_le] at hlt
  obtain ⟨h17, -, hmin⟩ := level_spec h0 hn hr
  have := maxDigits_le
  obtain ⟨h77, hlow, hup⟩ := magnitude_spec h0 hn
  have hl : (0 : ℕ) < 10 ^ l := by positivity
  have hu := unit_pos
  have hb := hmin q hlt
  unfold levelOk at hb
  rw [Bool.or_eq_false_iff] at hb
  have hM0 := below_magnitude h0 hn
  have hb0 := hmin 0 (by omega)
  unfold levelOk at hb0
  rw [Bool.or_eq_false_iff, Nat.sub_zero, hM0] at hb0
  clear hmin hM0
  generalize magnitude n = M at *
  rcases Nat.lt_or_ge (c * 10 ^ k * 10 ^ shift) (10 ^ M * 10 ^ l) with h1 | h1
  · rcases Nat.lt_or_ge (c * 10 ^ k * 10 ^ shift) (10 ^ (M - 1) * 10 ^ l) with h2 | h2
    · -- below the leading power of ten
      have h3 : 10 ^ (q - 1) * 10 ^ (M - q) = 10 ^ (M - 1) := by
        rw [← pow_add]; congr 1; omega
      have h4 : 10 ^ (q - 1) ≤ below n (M - q) := by
        unfold below
        rw [Nat.le_div_iff_mul_le (Nat.mul_pos (by positivity) hu), ← mul_assoc, h3]
        exact hlow
      have h5 : 10 ^ (M - 1) ≤ below n (M - q) * 10 ^ (M - q) := by
        rw [← h3]; exact Nat.mul_le_mul_right _ h4
      have := roundsTo_between (j := M - q) hr hl hc
        (Or.inl ⟨h2.le.trans (Nat.mul_le_mul_right _ h5), below_le n (M - q)⟩)
      rw [this] at hb
      exact absurd hb.1 (by decide)
    · -- a multiple of the last place
      have h3 : M - q + l ≤ k + shift := by
        by_contra hk
        have h4 : 10 ^ (q + k + shift) ≤ 10 ^ (M - 1 + l) := Nat.pow_le_pow_right (by omega) (by omega)
        have h5 : c * 10 ^ k * 10 ^ shift < 10 ^ (q + k + shift) := by
          rw [pow_add, pow_add]
          exact Nat.mul_lt_mul_of_pos_right (Nat.mul_lt_mul_of_pos_right hq (by positivity))
            (by positivity)
        rw [← pow_add] at h2
        omega
      have h4 : c * 10 ^ k * 10 ^ shift = c * 10 ^ (k + shift - (M - q + l)) * 10 ^ (M - q) * 10 ^ l := by
        rw [mul_assoc, ← pow_add, mul_assoc, mul_assoc, ← pow_add, ← pow_add]
        congr 2; omega
      generalize c * 10 ^ (k + shift - (M - q + l)) = g at h4
      rcases Nat.lt_or_ge (below n (M - q)) g with h5 | h5
      · have h6 := Nat.mul_le_mul_right (10 ^ (M - q)) (Nat.succ_le_of_lt h5)
        have := roundsTo_between (j := M - q) (g := below n (M - q) + 1) hr hl hc
          (Or.inr ⟨(lt_above n (M - q)).le, by rw [h4]; exact Nat.mul_le_mul_right _ h6⟩)
        rw [this] at hb
        exact absurd hb.2 (by decide)
      · have h6 := Nat.mul_le_mul_right (10 ^ (M - q)) h5
        have := roundsTo_between (j := M - q) (g := below n (M - q)) hr hl hc
          (Or.inl ⟨by rw [h4]; exact Nat.mul_le_mul_right _ h6, below_le n (M - q)⟩)
        rw [this] at hb
        exact absurd hb.1 (by decide)
  · -- at least the next power of ten
    have := roundsTo_between (j := M) (g := 0 + 1) hr hl hc
      (Or.inr ⟨by rw [zero_add, one_mul]; exact hup.le, by rw [zero_add, one_mul]; exact h1⟩)
    rw [this] at hb0
    exact absurd hb0.2 (by decide)

/-- No number with the same number of places that rounds to `n` units is nearer to it. -/
theorem shortest_nearest {n c : ℕ} (hr : ReprP n)
    (hc : roundNat (c * 10 ^ (shortest n).2 * Flt.unit) (10 ^ shift) = n) :
    |((shortest n).1 * 10 ^ (shortest n).2 * Flt.unit : ℤ) - n * 10 ^ shift| ≤
      |(c * 10 ^ (shortest n).2 * Flt.unit : ℤ) - n * 10 ^ shift| := by
  have hs : (shortest n).1 = if (roundsTo n (below n (shortest n).2 + 1) (shortest n).2 &&
      (!roundsTo n (below n (shortest n).2) (shortest n).2 ||
        10 ^ (shortest n).2 * Flt.unit ≤
          2 * (n * 10 ^ shift % (10 ^ (shortest n).2 * Flt.unit)))) = true
      then below n (shortest n).2 + 1 else below n (shortest n).2 := rfl
  rw [hs]
  clear hs
  generalize (shortest n).2 = j at *
  have hT : (0 : ℕ) < 10 ^ shift := by positivity
  have h1 := below_le n j
  have h2 := lt_above n j
  have hmod : n * 10 ^ shift % (10 ^ j * Flt.unit) = n * 10 ^ shift - below n j * 10 ^ j * Flt.unit := by
    unfold below
    rw [mul_assoc, Nat.mod_eq_sub, mul_comm (10 ^ j * Flt.unit)]
  have hlow : c ≤ below n j → roundsTo n (below n j) j = true := fun h => by
    refine roundsTo_between hr hT hc (Or.inl ⟨?_, h1⟩)
    exact Nat.mul_le_mul_right _ (Nat.mul_le_mul_right _ h)
  have hhigh : below n j < c → roundsTo n (below n j + 1) j = true := fun h => by
    refine roundsTo_between hr hT hc (Or.inr ⟨h2.le, ?_⟩)
    exact Nat.mul_le_mul_right _ (Nat.mul_le_mul_right _ h)
  rw [hmod]
  clear hmod hc
  generalize roundsTo n (below n j) j = down at *
  generalize roundsTo n (below n j + 1) j = up at *
  generalize below n j = d at *
  have e : ∀ x : ℕ, (x * 10 ^ j * Flt.unit : ℤ) = ((x * 10 ^ j * Flt.unit : ℕ) : ℤ) := fun x => by
    push_cast; rfl
  have eW : (n * 10 ^ shift : ℤ) = ((n * 10 ^ shift : ℕ) : ℤ) := by push_cast; rfl
  have ed1 : (d + 1) * 10 ^ j * Flt.unit = d * 10 ^ j * Flt.unit + 10 ^ j * Flt.unit := by ring
  rw [e, e, eW]
  have hcd : c ≤ d → c * 10 ^ j * Flt.unit ≤ d * 10 ^ j * Flt.unit := fun h =>
    Nat.mul_le_mul_right _ (Nat.mul_le_mul_right _ h)
  have hdc : d < c → (d + 1) * 10 ^ j * Flt.unit ≤ c * 10 ^ j * Flt.unit := fun h =>
    Nat.mul_le_mul_right _ (Nat.mul_le_mul_right _ h)
  generalize hif : (if (up && (!down || decide (10 ^ j * Flt.unit ≤ 2 * (n * 10 ^ shift -
    d * 10 ^ j * Flt.unit)))) = true then d + 1 else d) = r
  rw [ed1] at h2 hdc
  generalize c * 10 ^ j * Flt.unit = C at *
  have hr : (r = d + 1 ∧ r * 10 ^ j * Flt.unit = d * 10 ^ j * Flt.unit + 10 ^ j * Flt.unit ∧ up = true ∧
      (down = true → 10 ^ j * Flt.unit ≤ 2 * (n * 10 ^ shift - d * 10 ^ j * Flt.unit))) ∨
      (r = d ∧ r * 10 ^ j * Flt.unit = d * 10 ^ j * Flt.unit ∧ (up = true → down = true ∧
        ¬ 10 ^ j * Flt.unit ≤ 2 * (n * 10 ^ shift - d * 10 ^ j * Flt.unit))) := by
    split at hif
    · next h =>
      left
      subst hif
      refine ⟨rfl, ed1, ?_⟩
      cases up <;> cases down <;> simp_all
    · next h =>
      right
      subst hif
      refine ⟨rfl, rfl, ?_⟩
      cases up <;> cases down <;> simp_all
  generalize r * 10 ^ j * Flt.unit = R at *
  generalize d * 10 ^ j * Flt.unit = D at *
  generalize 10 ^ j * Flt.unit = S at *
  generalize n * 10 ^ shift = W at *
  clear hif e eW ed1
  rcases Nat.lt_or_ge d c with h | h
  · have h3 := hdc h
    have h4 := hhigh h
    rcases hr with ⟨-, h5, -, h6⟩ | ⟨-, h5, h6⟩
    · rw [abs_of_nonneg (by omega), abs_of_nonneg (by omega)]; omega
    · have := h6 h4
      rw [abs_of_nonpos (by omega), abs_of_nonneg (by omega)]; omega
  · have h3 := hcd h
    have h4 := hlow h
    rcases hr with ⟨-, h5, -, h6⟩ | ⟨-, h5, h6⟩
    · have := h6 h4
      rw [abs_of_nonneg (by omega), abs_of_nonpos (by omega)]; omega
    · rw [abs_of_nonpos (by omega), abs_of_nonpos (by omega)]; omega

theorem shortest_cases (n : ℕ) : (shortest n).1 = below n (shortest n).2 ∨
    ((shortest n).1 = below n (shortest n).2 + 1 ∧
      roundsTo n (below n (shortest n).2 + 1) (shortest n).2 = true) := by
  have hs : (shortest n).1 = if (roundsTo n (below n (shortest n).2 + 1) (shortest n).2 &&
      (!roundsTo n (below n (shortest n).2) (shortest n).2 ||
        10 ^ (shortest n).2 * Flt.unit ≤
          2 * (n * 10 ^ shift % (10 ^ (shortest n).2 * Flt.unit)))) = true
      then below n (shortest n).2 + 1 else below n (shortest n).2 := rfl
  rw [hs]
  split
  · next h =>
    rw [Bool.and_eq_true] at h
    exact Or.inr ⟨rfl, h.1⟩
  · exact Or.inl rfl

theorem shortest_lt {n : ℕ} (h0 : 0 < n) (hn : n < Flt.limit) (hr : ReprP n) :
    (shortest n).1 < 10 ^ max (level n) 1 := by
  obtain ⟨h17, -, hmin⟩ := level_spec h0 hn hr
  have := maxDigits_le
  obtain ⟨h77, hlow, hup⟩ := magnitude_spec h0 hn
  have hu := unit_pos
  have hc := shortest_cases n
  rw [shortest_snd] at hc
  rcases Nat.eq_zero_or_pos (level n) with hp | hp
  · rw [hp] at hc ⊢
    rw [Nat.sub_zero, below_magnitude h0 hn] at hc
    simp
    omega
  · rw [max_eq_left hp]
    have h1 : below n (magnitude n - level n) < 10 ^ level n := by
      unfold below
      rw [Nat.div_lt_iff_lt_mul (Nat.mul_pos (by positivity) hu), ← mul_assoc, ← pow_add,
        show level n + (magnitude n - level n) = magnitude n by omega]
      exact hup
    rcases hc with hc | ⟨hc, h2⟩
    · omega
    · rcases Nat.lt_or_ge (below n (magnitude n - level n) + 1) (10 ^ level n) with h3 | h3
      · omega
      · exfalso
        have h4 : below n (magnitude n - level n) + 1 = 10 ^ level n := by omega
        have hb := hmin 0 hp
        unfold levelOk at hb
        rw [Bool.or_eq_false_iff, Nat.sub_zero, below_magnitude h0 hn] at hb
        rw [h4] at h2
        have h5 : roundsTo n (0 + 1) (magnitude n) = true := by
          unfold roundsTo at h2 ⊢
          rw [← pow_add, show level n + (magnitude n - level n) = magnitude n by omega] at h2
          rw [zero_add, one_mul]
          exact h2
        rw [h5] at hb
        exact absurd hb.2 (by decide)

theorem shortest_mod {n : ℕ} (h0 : 0 < n) (hn : n < Flt.limit) (hr : ReprP n) :
    (shortest n).1 % 10 ≠ 0 := by
  intro h
  have hr' := shortest_rounds h0 hn hr
  have hlt := shortest_lt h0 hn hr
  obtain ⟨d, hd⟩ := Nat.dvd_of_mod_eq_zero h
  clear h
  generalize (shortest n).1 = c at *
  generalize (shortest n).2 = j at *
  subst hd
  rw [mul_comm 10 d, mul_assoc d 10, ← pow_succ'] at hr'
  have key := fun q hq => level_le (q := q) h0 hn hr hr' hq
  generalize level n = p at *
  have h1 : d < 10 ^ (max p 1 - 1) := by
    have : (10 : ℕ) ^ max p 1 = 10 * 10 ^ (max p 1 - 1) := by
      rw [← pow_succ']; congr 1; omega
    omega
  have := key _ h1
  omega

/-! ### Reading the text -/

/-- The number written with decimal digits. -/
def readNat (l : List Char) : ℕ :=
  l.foldl (fun a c => 10 * a + ['0', '1', '2', '3', '4', '5', '6', '7', '8', '9'].idxOf c) 0

omit [Fmt] in
theorem readNat_snoc (l : List Char) (c : Char) : readNat (l ++ [c]) =
    10 * readNat l + ['0', '1', '2', '3', '4', '5', '6', '7', '8', '9'].idxOf c := by
  simp [readNat]

omit [Fmt] in
theorem readNat_digit {d : ℕ} (h : d < 10) :
    ['0', '1', '2', '3', '4', '5', '6', '7', '8', '9'].idxOf (digit d) = d := by
  interval_cases d <;> decide

omit [Fmt] in
theorem readNat_nat (n : ℕ) : readNat (nat n) = n := by
  induction n using Nat.strong_induction_on with
  | _ n ih =>
    rw [nat]
    split
    · next h =>
      rw [← List.nil_append [digit n], readNat_snoc, readNat_digit h]
      simp [readNat]
    · next h =>
      rw [readNat_snoc, ih _ (by omega), readNat_digit (Nat.mod_lt _ (by omega))]
      omega

omit [Fmt] in
theorem readNat_zeros_right (l : List Char) (k : ℕ) :
    readNat (l ++ List.replicate k '0') = readNat l * 10 ^ k := by
  induction k with
  | zero => simp
  | succ k ih =>
    rw [List.replicate_succ', ← List.append_assoc, readNat_snoc, ih]
    have : ['0', '1', '2', '3', '4', '5', '6', '7', '8', '9'].idxOf '0' = 0 := by decide
    rw [this]; ring

omit [Fmt] in
theorem readNat_zeros_left (l : List Char) (k : ℕ) :
    readNat (List.replicate k '0' ++ l) = readNat l := by
  induction k with
  | zero => simp
  | succ k ih =>
    rw [← ih, List.replicate_succ, List.cons_append, readNat, List.foldl_cons]
    rfl

omit [Fmt] in
theorem nat_head {n : ℕ} (hn : n ≠ 0) : (nat n).head? ≠ some '0' := by
  induction n using Nat.strong_induction_on with
  | _ n ih =>
    rw [nat]
    split
    · next h => interval_cases n <;> simp_all [digit]
    · next h =>
      rw [List.head?_append_of_ne_nil _ (nat_ne_nil _)]
      exact ih _ (by omega) (by omega)

omit [Fmt] in
theorem nat_last (n : ℕ) : (nat n).getLast? = some (digit (n % 10)) := by
  rw [nat]
  split
  · next h => rw [Nat.mod_eq_of_lt h]; rfl
  · simp

/-- The parts of a displayed number: digits before the point (no superfluous zeros), digits after it
(not ending in zero), and the number they stand for times `10^shift`. -/
structure Parts (a b : List Char) (v : ℕ) : Prop where
  left : ∀ c ∈ a, isDigit c = true
  right : ∀ c ∈ b, isDigit c = true
  left_ne : a ≠ []
  head : a.head? = some '0' → a = ['0']
  last : b.getLast? ≠ some '0'
  value : readNat (a ++ b) * 10 ^ shift = v * 10 ^ b.length

omit [Fmt] in
theorem decimal_parts {d j : ℕ} (hd : d % 10 ≠ 0) : ∃ a b, Parts a b (d * 10 ^ j) ∧
    decimal d j = a ++ if b = [] then [] else '.' :: b := by
  have hd0 : d ≠ 0 := by rintro rfl; simp at hd
  have hz : isDigit '0' = true := by decide
  have hlast : (nat d).getLast? ≠ some '0' := by
    rw [nat_last]
    have := Nat.mod_lt d (y := 10) (by omega)
    generalize d % 10 = e at *
    interval_cases e <;> simp_all [digit]
  unfold decimal
  split
  · next h =>
    refine ⟨nat d ++ List.replicate (j - shift) '0', [], ⟨?_, by simp, by simp [nat_ne_nil], ?_,
      by simp, ?_⟩, by simp⟩
    · intro c hc
      rcases List.mem_append.1 hc with hc | hc
      · exact nat_isDigit d c hc
      · rw [List.eq_of_mem_replicate hc]; exact hz
    · intro h'
      rw [List.head?_append_of_ne_nil _ (nat_ne_nil _)] at h'
      exact absurd h' (nat_head hd0)
    · rw [List.append_nil, readNat_zeros_right, readNat_nat, mul_assoc, ← pow_add,
        show j - shift + shift = j by omega]
      simp
  · next h =>
    split
    · next h' =>
      have hne : (nat d).take ((nat d).length - (shift - j)) ≠ [] := by
        rw [Ne, List.take_eq_nil_iff]
        rintro (h | h)
        · omega
        · exact nat_ne_nil _ h
      have hne' : (nat d).drop ((nat d).length - (shift - j)) ≠ [] := by
        rw [Ne, List.drop_eq_nil_iff]; omega
      refine ⟨(nat d).take ((nat d).length - (shift - j)), (nat d).drop ((nat d).length - (shift - j)),
        ⟨fun c hc => nat_isDigit d c (List.mem_of_mem_take hc),
        fun c hc => nat_isDigit d c (List.mem_of_mem_drop hc), hne, ?_, ?_, ?_⟩, ?_⟩
      · intro h1
        rw [List.head?_take, if_neg (by omega)] at h1
        exact absurd h1 (nat_head hd0)
      · intro h1
        rw [List.getLast?_drop, if_neg (by omega)] at h1
        exact hlast h1
      · rw [List.take_append_drop, readNat_nat, List.length_drop, mul_assoc, ← pow_add]
        congr 2; omega
      · rw [if_neg hne']
    · next h' =>
      refine ⟨['0'], List.replicate (shift - j - (nat d).length) '0' ++ nat d,
        ⟨by simp [hz], ?_, by simp, by simp, ?_, ?_⟩, ?_⟩
      · intro c hc
        rcases List.mem_append.1 hc with hc | hc
        · rw [List.eq_of_mem_replicate hc]; exact hz
        · exact nat_isDigit d c hc
      · rw [List.getLast?_append_of_ne_nil _ (nat_ne_nil _)]
        exact hlast
      · rw [← List.append_assoc, show ['0'] ++ List.replicate (shift - j - (nat d).length) '0' =
          List.replicate (shift - j - (nat d).length + 1) '0' from (List.replicate_succ ..).symm,
          readNat_zeros_left, readNat_nat, List.length_append, List.length_replicate, mul_assoc,
          ← pow_add]
        congr 2; omega
      · rw [if_neg (by simp [nat_ne_nil])]
        rfl

theorem roundNat_congr {a b a' b' : ℕ} (hb : 0 < b) (hb' : 0 < b') (h : a * b' = a' * b) :
    roundNat a b = roundNat a' b' :=
  le_antisymm (roundNat_mono hb hb' h.le) (roundNat_mono hb' hb h.ge)

theorem Parts.rounds {a b : List Char} {v n : ℕ} (h : Parts a b v)
    (hv : roundNat (v * Flt.unit) (10 ^ shift) = n) :
    roundNat (readNat (a ++ b) * Flt.unit) (10 ^ b.length) = n := by
  rw [← hv]
  refine roundNat_congr (by positivity) (by positivity) ?_
  have := h.value
  generalize 10 ^ shift = T at *
  rw [mul_right_comm, this, mul_right_comm]

theorem floatAbs_parts {n : ℕ} (hn : n < Flt.limit) (hr : ReprP n) : ∃ a b c j,
    Parts a b (c * 10 ^ j) ∧ (floatAbs n = a ++ if b = [] then [] else '.' :: b) ∧
    roundNat (c * 10 ^ j * Flt.unit) (10 ^ shift) = n ∧ c < 10 ^ maxDigits ∧
    (∀ c', roundNat (c' * 10 ^ j * Flt.unit) (10 ^ shift) = n →
      |(c * 10 ^ j * Flt.unit : ℤ) - n * 10 ^ shift| ≤ |(c' * 10 ^ j * Flt.unit : ℤ) - n * 10 ^ shift|) ∧
    ∀ c' k l q, roundNat (c' * 10 ^ k * Flt.unit) (10 ^ l) = n → c' < 10 ^ q → c < 10 ^ q := by
  unfold floatAbs
  rcases Nat.eq_zero_or_pos n with rfl | h0
  · refine ⟨['0'], [], 0, 0, ⟨by decide, by simp, by simp, by simp, by simp, by simp [readNat]⟩,
      by simp, ?_, by norm_num, fun c' _ => by simp; positivity,
      fun c' k l q _ _ => by positivity⟩
    rw [zero_mul, zero_mul, roundNat_congr (a' := 0) (b' := 1) (by positivity) one_pos (by simp)]
    exact roundNat_of_repr hr
  · obtain ⟨a, b, h1, h2⟩ := decimal_parts (j := (shortest n).2) (shortest_mod h0 hn hr)
    have h3 := shortest_lt h0 hn hr
    have h4 := (level_spec h0 hn hr).1
    have h5 := shortest_rounds h0 hn hr
    rw [if_neg (by omega)]
    refine ⟨a, b, _, _, h1, h2, h5, ?_, fun c' h6 => shortest_nearest hr h6,
      fun c' k l q h6 h7 => ?_⟩
    · exact lt_of_lt_of_le h3 (Nat.pow_le_pow_right (by norm_num) (max_le h4 maxDigits_le.1))
    · have h8 := level_le h0 hn hr h6 h7
      exact lt_of_lt_of_le h3 (Nat.pow_le_pow_right (by norm_num) (max_le h8.1 h8.2))

/-- The characters of displayed numbers. -/
def isNumF (c : Char) : Bool := isDigit c || c == '-' || c == '.' || c ∈ ['i', 'n', 'f', 'N', 'a']

omit [Fmt] in
theorem text_inj {a b a' b' : List Char} {v v' : ℕ} (h : Parts a b v) (h' : Parts a' b' v')
    (he : (a ++ if b = [] then [] else '.' :: b) = a' ++ if b' = [] then [] else '.' :: b') :
    v = v' := by
  have hh : ∀ b : List Char, ∀ c ∈ (if b = [] then [] else '.' :: b).head?, isDigit c = false := by
    intro b c hc
    split at hc
    · simp at hc
    · simp at hc; subst hc; decide
  obtain ⟨rfl, h2⟩ := split_class isDigit h.left h'.left (hh b) (hh b') he
  have h3 : b = b' := by
    split at h2 <;> split at h2 <;> simp_all
  subst h3
  have := h.value.symm.trans h'.value
  exact Nat.eq_of_mul_eq_mul_right (by positivity) this

omit [Fmt] in
theorem text_head {a b : List Char} {v : ℕ} (h : Parts a b v) :
    ∃ c s, (a ++ if b = [] then [] else '.' :: b) = c :: s ∧ isDigit c = true := by
  obtain ⟨c, s, rfl⟩ := List.exists_cons_of_ne_nil h.left_ne
  exact ⟨c, _, rfl, h.left c (by simp)⟩

theorem floatAbs_inj {n n' : ℕ} (hn : n < Flt.limit) (hr : ReprP n) (hn' : n' < Flt.limit)
    (hr' : ReprP n') (h : floatAbs n = floatAbs n') : n = n' := by
  obtain ⟨a, b, c, j, h1, h2, h3, -, -⟩ := floatAbs_parts hn hr
  obtain ⟨a', b', c', j', h1', h2', h3', -, -⟩ := floatAbs_parts hn' hr'
  rw [h2, h2'] at h
  rw [← h3, ← h3', text_inj h1 h1' h]

/-- The text without the sign. -/
def absText : Flt → List Char
  | .nan => ['N', 'a', 'N']
  | .inf _ => ['i', 'n', 'f']
  | .fin _ n => floatAbs n

theorem float_eq (x : Flt) : float x = (if isSignNegative x then ['-'] else []) ++ absText x := by
  cases x <;> rfl

theorem absText_head {x : Flt} (hx : x.Valid) : ∃ c s, absText x = c :: s ∧ c ≠ '-' := by
  cases x with
  | nan => exact ⟨_, _, rfl, by decide⟩
  | inf s => exact ⟨_, _, rfl, by decide⟩
  | fin s n =>
    obtain ⟨a, b, c, j, h1, h2, -⟩ := floatAbs_parts hx.2 (repr53_iff.2 hx.1)
    obtain ⟨c, s, h3, h4⟩ := text_head h1
    exact ⟨c, s, h2.trans h3, by rintro rfl; revert h4; decide⟩

theorem float_inj {x y : Flt} (hx : x.Valid) (hy : y.Valid) (h : float x = float y) : x = y := by
  rw [float_eq, float_eq] at h
  obtain ⟨c, s, h1, h2⟩ := absText_head hx
  obtain ⟨c', s', h1', h2'⟩ := absText_head hy
  have hs : isSignNegative x = isSignNegative y ∧ absText x = absText y := by
    rw [h1, h1'] at h ⊢
    rcases h5 : isSignNegative x with _ | _ <;> rcases h6 : isSignNegative y with _ | _ <;>
      simp [h5, h6] at h ⊢
    · exact h
    · exact absurd h.1 h2
    · exact absurd h.1.symm h2'
    · exact h
  have hd : ∀ n, n < Flt.limit → ReprP n → ∀ c s, floatAbs n = c :: s → isDigit c = true := by
    intro n hn hr c s h
    obtain ⟨a, b, c', j, h1, h2, -⟩ := floatAbs_parts hn hr
    obtain ⟨c'', s', h3, h4⟩ := text_head h1
    rw [h2, h3] at h
    cases h
    exact h4
  obtain ⟨h3, h4⟩ := hs
  cases x with
  | nan =>
    cases y with
    | nan => rfl
    | inf t => revert h4; simp [absText]
    | fin t m => exact absurd (hd m hy.2 (repr53_iff.2 hy.1) _ _ h4.symm) (by decide)
  | inf s =>
    cases y with
    | nan => revert h4; simp [absText]
    | inf t => cases h3; rfl
    | fin t m => exact absurd (hd m hy.2 (repr53_iff.2 hy.1) _ _ h4.symm) (by decide)
  | fin s n =>
    cases y with
    | nan => exact absurd (hd n hx.2 (repr53_iff.2 hx.1) _ _ h4) (by decide)
    | inf t => exact absurd (hd n hx.2 (repr53_iff.2 hx.1) _ _ h4) (by decide)
    | fin t m =>
      cases h3
      rw [floatAbs_inj hx.2 (repr53_iff.2 hx.1) hy.2 (repr53_iff.2 hy.1) h4]

theorem float_chars {x : Flt} (hx : x.Valid) : ∀ c ∈ float x, isNumF c = true := by
  intro c hc
  rw [float_eq] at hc
  rcases List.mem_append.1 hc with hc | hc
  · split at hc
    · rw [List.mem_singleton] at hc; subst hc; decide
    · simp at hc
  · cases x with
    | nan =>
      exact (by decide : ∀ c ∈ ['N', 'a', 'N'], isNumF c = true) c hc
    | inf s => exact (by decide : ∀ c ∈ ['i', 'n', 'f'], isNumF c = true) c hc
    | fin s n =>
      obtain ⟨a, b, c', j, h1, h2, -⟩ := floatAbs_parts hx.2 (repr53_iff.2 hx.1)
      rw [show absText (.fin s n) = floatAbs n from rfl, h2] at hc
      rcases List.mem_append.1 hc with hc | hc
      · simp [isNumF, h1.left c hc]
      · split at hc
        · simp at hc
        · rcases List.mem_cons.1 hc with rfl | hc
          · decide
          · simp [isNumF, h1.right c hc]

theorem float_ne {x : Flt} (hx : x.Valid) : float x ≠ [] ∧ float x ≠ ['-'] := by
  obtain ⟨c, s, h1, h2⟩ := absText_head hx
  rw [float_eq, h1]
  cases isSignNegative x <;> simp [h2]

/-! ### Terms and polynomials -/

/-- What is written in front of the multidegree. -/
def coefPartF (t : Term Flt) : List Char :=
  if t.mdeg = [] then float t.coef
  else if t.coef = Flt.one then []
  else if t.coef = Flt.neg Flt.one then ['-']
  else float t.coef

theorem eq_one (x : Flt) : Flt.eq x Flt.one = decide (x = Flt.one) := by
  have hu := unit_pos
  cases x with
  | nan => rfl
  | inf s => cases s <;> rfl
  | fin s n =>
    rw [Bool.eq_iff_iff, decide_eq_true_iff]
    unfold Flt.eq Flt.one Flt.partialCmp Flt.units
    simp only [beq_iff_eq, Option.some.injEq, compare_eq_iff_eq, Flt.fin.injEq]
    cases s
    · simp; try omega
    · simp; try omega

theorem eq_neg_one (x : Flt) : Flt.eq x (Flt.neg Flt.one) = decide (x = Flt.neg Flt.one) := by
  have hu := unit_pos
  cases x with
  | nan => rfl
  | inf s => cases s <;> rfl
  | fin s n =>
    rw [Bool.eq_iff_iff, decide_eq_true_iff]
    unfold Flt.eq Flt.one Flt.neg Flt.partialCmp Flt.units
    simp only [beq_iff_eq, Option.some.injEq, compare_eq_iff_eq, Flt.fin.injEq]
    cases s
    · simp; try omega
    · simp; try omega

theorem term_eqF (b : Build) (powi : Flt → ℤ → Flt) (t : Term Flt) : letI := Flt.field b powi
    term float t = .ok (coefPartF t ++ mdeg t.mdeg) := by
  let _ := Flt.field b powi
  show term float t = _
  unfold term coefPartF
  have hneg : RField.neg (RField.one : Flt) = .ok (Flt.neg Flt.one) := rfl
  have hb : ∀ x y : Flt, RField.beq x y = Flt.eq x y := fun _ _ => rfl
  have h1 : (RField.one : Flt) = Flt.one := rfl
  rw [hneg, h1]
  simp only [hb, bind_ok, eq_one, eq_neg_one, decide_eq_true_eq, MDeg.isZero, List.isEmpty_iff,
    pure_eq]
  split
  · next h => rw [h, mdeg_nil, List.append_nil]
  · split
    · simp
    · split <;> simp

theorem term_injF {t t' : Term Flt} (ht : t.coef.Valid) (ht' : t'.coef.Valid)
    (hm : t.mdeg.getLast? ≠ some 0) (hm' : t'.mdeg.getLast? ≠ some 0) {r r' : List Char}
    (hr : ∀ c ∈ r.head?, c = ' ') (hr' : ∀ c ∈ r'.head?, c = ' ')
    (h : coefPartF t ++ mdeg t.mdeg ++ r = coefPartF t' ++ mdeg t'.mdeg ++ r') :
    t = t' ∧ r = r' := by
  have hcp : ∀ t : Term Flt, t.coef.Valid → ∀ c ∈ coefPartF t, isNumF c = true := by
    intro t ht c hc
    unfold coefPartF at hc
    split at hc
    · exact float_chars ht c hc
    · split at hc
      · simp at hc
      · split at hc
        · simp at hc; subst hc; decide
        · exact float_chars ht c hc
  have hhd : ∀ (m : MDeg) (r : List Char), (∀ c ∈ r.head?, c = ' ') →
      ∀ c ∈ (mdeg m ++ r).head?, isNumF c = false := by
    intro m r hr c hc
    rcases head_mdeg m r hr c hc with h | rfl
    · exact (by decide : ∀ c ∈ ['x', 'y', 'z', 'u', 'v', 'w', ' '], isNumF c = false) c h
    · decide
  rw [List.append_assoc, List.append_assoc] at h
  obtain ⟨h1, h2⟩ := split_class isNumF (hcp t ht) (hcp t' ht') (hhd _ r hr) (hhd _ r' hr') h
  obtain ⟨h3, h4⟩ := mdeg_inj hm hm' hr hr' h2
  refine ⟨?_, h4⟩
  obtain ⟨c, m⟩ := t
  obtain ⟨c', m'⟩ := t'
  simp only at h3 ht ht'
  subst h3
  have : c = c' := by
    have hne := float_ne ht
    have hne' := float_ne ht'
    unfold coefPartF at h1
    simp only at h1
    by_cases hmz : m = []
    · rw [if_pos hmz, if_pos hmz] at h1
      exact float_inj ht ht' h1
    · rw [if_neg hmz, if_neg hmz] at h1
      by_cases h5 : c = Flt.one <;> by_cases h6 : c' = Flt.one
      · rw [h5, h6]
      · rw [if_pos h5, if_neg h6] at h1
        by_cases h7 : c' = Flt.neg Flt.one
        · rw [if_pos h7] at h1; cases h1
        · rw [if_neg h7] at h1; exact (hne'.1 h1.symm).elim
      · rw [if_neg h5, if_pos h6] at h1
        by_cases h7 : c = Flt.neg Flt.one
        · rw [if_pos h7] at h1; cases h1
        · rw [if_neg h7] at h1; exact (hne.1 h1).elim
      · rw [if_neg h5, if_neg h6] at h1
        by_cases h7 : c = Flt.neg Flt.one <;> by_cases h8 : c' = Flt.neg Flt.one
        · rw [h7, h8]
        · rw [if_pos h7, if_neg h8] at h1; exact (hne'.2 h1.symm).elim
        · rw [if_neg h7, if_pos h8] at h1; exact (hne.2 h1).elim
        · rw [if_neg h7, if_neg h8] at h1; exact float_inj ht ht' h1
  rw [this]

/-- What is written for a term after the first. -/
def restText (t : Term Flt) : List Char :=
  if isSignNegative t.coef then
    ' ' :: '-' :: ' ' :: (coefPartF ⟨Flt.neg t.coef, t.mdeg⟩ ++ mdeg t.mdeg)
  else ' ' :: '+' :: ' ' :: (coefPartF t ++ mdeg t.mdeg)

theorem nextTermF64_eq (b : Build) (powi : Flt → ℤ → Flt) (t : Term Flt) :
    nextTermF64 b powi t = .ok (restText t) := by
  unfold nextTermF64 restText
  have hneg : (Flt.field b powi).neg t.coef = .ok (Flt.neg t.coef) := rfl
  simp only [term_eqF, hneg, bind_ok, pure_eq]
  split <;> rfl

theorem polyF64_eq (b : Build) (powi : Flt → ℤ → Flt) (t : Term Flt) (ts : Poly Flt) :
    polyF64 b powi (t :: ts) = .ok (coefPartF t ++ mdeg t.mdeg ++ ts.flatMap restText) := by
  unfold polyF64
  simp only [term_eqF, bind_ok]
  generalize coefPartF t ++ mdeg t.mdeg = s
  induction ts generalizing s with
  | nil => simp [pure_eq]
  | cons t ts ih =>
    rw [List.foldlM_cons, nextTermF64_eq]
    simp only [bind_ok]
    rw [pure_eq, bind_ok, ih]
    simp

theorem restText_head (ts : List (Term Flt)) : ∀ c ∈ (ts.flatMap restText).head?, c = ' ' := by
  intro c hc
  cases ts with
  | nil => simp at hc
  | cons t ts =>
    rw [List.flatMap_cons] at hc
    unfold restText at hc
    split at hc <;> simp at hc <;> exact hc.symm

theorem neg_injF {x y : Flt} (h : Flt.neg x = Flt.neg y) : x = y := by
  cases x <;> cases y <;> simp_all [Flt.neg]

theorem neg_validF {x : Flt} (h : x.Valid) : (Flt.neg x).Valid := by
  cases x with
  | nan => trivial
  | inf s => trivial
  | fin s n => exact h

theorem restText_inj {ts ts' : List (Term Flt)}
    (ht : ∀ t ∈ ts, t.coef.Valid ∧ t.mdeg.Clean) (ht' : ∀ t ∈ ts', t.coef.Valid ∧ t.mdeg.Clean)
    (h : ts.flatMap restText = ts'.flatMap restText) : ts = ts' := by
  induction ts generalizing ts' with
  | nil =>
    cases ts' with
    | nil => rfl
    | cons t ts => rw [List.flatMap_cons] at h; unfold restText at h; split at h <;> simp at h
  | cons t ts ih =>
    cases ts' with
    | nil => rw [List.flatMap_cons] at h; unfold restText at h; split at h <;> simp at h
    | cons t' ts' =>
      rw [List.flatMap_cons, List.flatMap_cons] at h
      have h1 := ht t (by simp)
      have h1' := ht' t' (by simp)
      have key : t = t' ∧ ts.flatMap restText = ts'.flatMap restText := by
        unfold restText at h
        split at h <;> split at h <;>
          simp only [List.cons_append, List.cons.injEq, true_and] at h
        · obtain ⟨h2, h3⟩ := term_injF (t := ⟨_, t.mdeg⟩) (t' := ⟨_, t'.mdeg⟩) (neg_validF h1.1)
            (neg_validF h1'.1) h1.2.last h1'.2.last (restText_head ts) (restText_head ts') h
          refine ⟨?_, h3⟩
          simp only [Term.mk.injEq] at h2
          have := neg_injF h2.1
          cases t; cases t'; simp_all
        · exact absurd h.1 (by decide)
        · exact absurd h.1 (by decide)
        · exact term_injF h1.1 h1'.1 h1.2.last h1'.2.last (restText_head ts) (restText_head ts') h
      rw [key.1, ih (fun t h => ht t (by simp [h])) (fun t h => ht' t (by simp [h])) key.2]

theorem zero_valid : Flt.zero.Valid := by
  refine ⟨roundNat_zero, ?_⟩
  unfold Flt.limit
  positivity

theorem first_ne_zero {t : Term Flt} {ts : Poly Flt} (ht : t.coef.Valid) (hm : t.mdeg.Clean)
    (hz : t :: ts ≠ [⟨Flt.zero, []⟩]) : coefPartF t ++ mdeg t.mdeg ++ ts.flatMap restText ≠ ['0'] := by
  intro h
  have h0 : ['0'] = coefPartF ⟨Flt.zero, []⟩ ++ mdeg [] ++ [] := by
    rw [mdeg_nil]; fmt_decide
  rw [h0] at h
  obtain ⟨h1, h2⟩ := term_injF (t' := ⟨Flt.zero, []⟩) ht
    zero_valid hm.last (by simp)
    (restText_head ts) (by simp) h
  apply hz
  rw [h1]
  cases ts with
  | nil => rfl
  | cons t ts => rw [List.flatMap_cons] at h2; unfold restText at h2; split at h2 <;> simp at h2

end Display

open Display

variable [Fmt]

/-! ## C127 -/

/-- **C127** A finite `f32` or `f64` is displayed as an optional minus sign, decimal digits without
superfluous leading zeros, and possibly a point with decimal digits that do not end in zero.  Reading
that decimal number gives the same number.  It has at most 9 (`f32`) or 17 (`f64`) significant digits, no
decimal number with fewer significant digits gives the same number, and among those with the same
number of places that give the same number none is nearer to it. -/
theorem C127_float_text (neg : Bool) (n : ℕ) (hv : (Flt.fin neg n).Valid) : ∃ a b : List Char,
    Display.float (.fin neg n) =
      (if neg then ['-'] else []) ++ (a ++ if b = [] then [] else '.' :: b) ∧
    (∀ c ∈ a ++ b, c ∈ ['0', '1', '2', '3', '4', '5', '6', '7', '8', '9']) ∧
    a ≠ [] ∧ (a.head? = some '0' → a = ['0']) ∧ b.getLast? ≠ some '0' ∧
    Flt.round neg (readNat (a ++ b) * Flt.unit) (10 ^ b.length) = .fin neg n ∧
    ∃ c k l, readNat (a ++ b) * 10 ^ l = c * 10 ^ k * 10 ^ b.length ∧ c < 10 ^ (match ‹Fmt› with | .f32 => 9 | .f64 => 17) ∧
      (∀ c', Flt.round neg (c' * 10 ^ k * Flt.unit) (10 ^ l) = .fin neg n →
        |(c * 10 ^ k * Flt.unit : ℤ) - n * 10 ^ l| ≤ |(c' * 10 ^ k * Flt.unit : ℤ) - n * 10 ^ l|) ∧
      ∀ c' k' l' q, Flt.round neg (c' * 10 ^ k' * Flt.unit) (10 ^ l') = .fin neg n →
        c' < 10 ^ q → c < 10 ^ q := by
  obtain ⟨a, b, c, j, h1, h2, h3, h4, h6, h5⟩ := floatAbs_parts hv.2 (Flt.repr53_iff.2 hv.1)
  have hround : ∀ x y, Flt.round neg x y = .fin neg n → Flt.roundNat x y = n := by
    intro x y h
    unfold Flt.round at h
    simp only at h
    split at h
    · cases h; rfl
    · cases h
  refine ⟨a, b, by rw [← h2]; rfl, fun x hx => ?_, h1.left_ne, h1.head, h1.last, ?_, c, j, shift,
    h1.value, by cases ‹Fmt› <;> exact h4, fun c' hc => h6 c' (hround _ _ hc),
    fun c' k' l' q hc hq => h5 c' k' l' q (hround _ _ hc) hq⟩
  · have : isDigit x = true := by
      rcases List.mem_append.1 hx with h | h
      · exact h1.left x h
      · exact h1.right x h
    simpa [isDigit] using this
  · unfold Flt.round
    simp only [h1.rounds h3, if_pos hv.2]

/-- Distinct numbers never display as the same text. -/
theorem C127_float_injective (x y : Flt) (hx : x.Valid) (hy : y.Valid)
    (h : Display.float x = Display.float y) : x = y :=
  float_inj hx hy h

theorem tenth_text : Display.float (.fin false (Flt.roundNat Flt.unit 10)) = ['0', '.', '1'] := by
  have h0 : Flt.roundNat Flt.unit 10 ≠ 0 := by fmt_decide
  have hs : shortest (Flt.roundNat Flt.unit 10) = (1, 399) := by fmt_decide
  have hj : ¬ shift ≤ 399 ∧ ¬ shift - 399 < 1 ∧ shift - 399 - 1 = 0 := by fmt_decide
  simp [Display.float, floatAbs, h0, hs, decimal, hj, nat_small, digit]

/-- The text of `2.5`, and the digits of the largest finite and the smallest positive numbers. -/
example : (Flt.fin false (Flt.roundNat Flt.unit 10)).Valid ∧
    Display.float (.fin true (5 * Flt.unit / 2)) = ['-', '2', '.', '5'] ∧
    @shortest .f64 (2 ^ 2098 - 2 ^ 2045) = (17976931348623157, 692) ∧ @shortest .f64 1 = (5, 76) ∧
    @shortest .f32 (2 ^ 277 - 2 ^ 253) = (34028235, 431) ∧ @shortest .f32 1 = (1, 355) := by
  refine ⟨by fmt_decide, ?_, by decide +kernel, by decide +kernel, by decide +kernel, by decide +kernel⟩
  have h0 : ¬ 5 * Flt.unit / 2 = 0 := by fmt_decide
  have hs : shortest (5 * Flt.unit / 2) = (25, 399) := by fmt_decide
  have hj : ¬ shift ≤ 399 ∧ shift - 399 < 2 ∧ shift - 399 = 1 := by fmt_decide
  have hn : nat 25 = ['2', '5'] := by rw [nat_eq _ (by omega)]; norm_num [digit]
  simp [Display.float, floatAbs, h0, hs, decimal, hj, hn]

/-! ## C128 -/

/-- **C128** Displaying a polynomial over `f64` never panics, and polynomials whose coefficients are
not NaN (they may be infinite or zero) and whose multidegrees are canonical display as different texts
unless they are equal; only the polynomial whose one term is the constant `0.0` displays like the
polynomial without terms. -/
theorem C128_display_f64 (b : Build) (powi : Flt → ℤ → Flt) (p q : Poly Flt)
    (hp : ∀ t ∈ p, t.coef.Valid ∧ t.coef ≠ .nan ∧ t.mdeg.Clean)
    (hq : ∀ t ∈ q, t.coef.Valid ∧ t.coef ≠ .nan ∧ t.mdeg.Clean)
    (hp0 : p ≠ [⟨Flt.zero, []⟩]) (hq0 : q ≠ [⟨Flt.zero, []⟩]) :
    ∃ s s', Display.polyF64 b powi p = .ok s ∧ Display.polyF64 b powi q = .ok s' ∧
      (s = s' → p = q) := by
  have hp' : ∀ t ∈ p, t.coef.Valid ∧ t.mdeg.Clean := fun t ht => ⟨(hp t ht).1, (hp t ht).2.2⟩
  have hq' : ∀ t ∈ q, t.coef.Valid ∧ t.mdeg.Clean := fun t ht => ⟨(hq t ht).1, (hq t ht).2.2⟩
  cases p with
  | nil =>
    cases q with
    | nil => exact ⟨_, _, rfl, rfl, fun _ => rfl⟩
    | cons t ts =>
      refine ⟨_, _, rfl, polyF64_eq b powi t ts, fun h => ?_⟩
      exact absurd h.symm (first_ne_zero (hq' t (by simp)).1 (hq' t (by simp)).2 hq0)
  | cons t ts =>
    cases q with
    | nil =>
      refine ⟨_, _, polyF64_eq b powi t ts, rfl, fun h => ?_⟩
      exact absurd h (first_ne_zero (hp' t (by simp)).1 (hp' t (by simp)).2 hp0)
    | cons t' ts' =>
      refine ⟨_, _, polyF64_eq b powi t ts, polyF64_eq b powi t' ts', fun h => ?_⟩
      have h1 := hp' t (by simp)
      have h1' := hq' t' (by simp)
      obtain ⟨h2, h3⟩ := term_injF h1.1 h1'.1 h1.2.last h1'.2.last (restText_head ts)
        (restText_head ts') h
      rw [h2, restText_inj (fun t h => hp' t (by simp [h])) (fun t h => hq' t (by simp [h])) h3]

omit [Fmt] in
theorem mdeg_no_minus (m : MDeg) : '-' ∉ Display.mdeg m := by
  have hdig : ∀ n, '-' ∉ nat n := fun n h => by
    have := nat_isDigit n _ h
    revert this; decide
  have hsup : ∀ n, '-' ∉ superscript n := fun n h => by
    have := superscript_isSup n _ h
    revert this; decide
  unfold Display.mdeg
  split
  · have hw : ∀ i c, c ≠ '-' → '-' ∉ writeVar m i [c] := fun i c hc h => by
      rw [writeVar_eq] at h
      unfold wv at h
      split at h
      · simp at h
      · split at h
        · simp at h; exact hc h.symm
        · rcases List.mem_cons.1 h with h | h
          · exact hc h.symm
          · exact hsup _ h
    simp only [List.mem_append, not_or]
    exact ⟨⟨⟨⟨⟨hw _ _ (by decide), hw _ _ (by decide)⟩, hw _ _ (by decide)⟩, hw _ _ (by decide)⟩,
      hw _ _ (by decide)⟩, hw _ _ (by decide)⟩
  · intro h
    rcases List.mem_cons.1 h with h | h
    · revert h; decide
    · cases m with
      | nil => revert h; decide
      | cons d ds =>
        unfold debugVec at h
        simp only [List.cons_append, List.mem_cons, List.mem_append, List.mem_flatMap,
          List.not_mem_nil, or_false] at h
        rcases h with h | (h | ⟨e, -, h | h | h⟩) | h
        · revert h; decide
        · exact hdig _ h
        · revert h; decide
        · revert h; decide
        · exact hdig _ h
        · revert h; decide

theorem absText_no_minus {x : Flt} (hx : x.Valid) : '-' ∉ absText x := by
  cases x with
  | nan => fmt_decide
  | inf s => cases s <;> fmt_decide
  | fin s n =>
    obtain ⟨a, b, c, j, h1, h2, -⟩ := floatAbs_parts hx.2 (Flt.repr53_iff.2 hx.1)
    have hdig : ∀ l : List Char, (∀ c ∈ l, isDigit c = true) → '-' ∉ l := fun l hl h => by
      have := hl _ h
      revert this; decide
    rw [show absText (.fin s n) = floatAbs n from rfl, h2]
    intro h
    rcases List.mem_append.1 h with h | h
    · exact hdig _ h1.left h
    · split at h
      · simp at h
      · rcases List.mem_cons.1 h with h | h
        · revert h; decide
        · exact hdig _ h1.right h

/-- The terms after the first are written as `+` or `-`, according to the sign bit of the
coefficient, and the text of the absolute value, which has no further sign. -/
theorem C128_signs (b : Build) (powi : Flt → ℤ → Flt) (t : Term Flt) (ts : Poly Flt)
    (ht : ∀ t ∈ ts, t.coef.Valid) : ∃ (s : List Char) (ws : List (List Char)),
    Display.polyF64 b powi [t] = .ok s ∧ (∀ w ∈ ws, '-' ∉ w) ∧
    List.Forall₂ (fun t w => Display.polyF64 b powi [⟨Flt.abs t.coef, t.mdeg⟩] = .ok w) ts ws ∧
    Display.polyF64 b powi (t :: ts) = .ok (s ++ (List.zipWith (fun (t : Term Flt) w =>
      [' ', if isSignNegative t.coef then '-' else '+', ' '] ++ w) ts ws).flatten) := by
  have habs : ∀ t : Term Flt, restText t = [' ', if isSignNegative t.coef then '-' else '+', ' '] ++
      (coefPartF ⟨Flt.abs t.coef, t.mdeg⟩ ++ Display.mdeg t.mdeg) := by
    rintro ⟨x, m⟩
    unfold restText
    cases x with
    | nan => rfl
    | inf s => cases s <;> rfl
    | fin s n => cases s <;> rfl
  have hone : ∀ t : Term Flt, Display.polyF64 b powi [t] = .ok (coefPartF t ++ Display.mdeg t.mdeg) := by
    intro t
    rw [polyF64_eq]
    simp
  refine ⟨_, ts.map fun t => coefPartF ⟨Flt.abs t.coef, t.mdeg⟩ ++ Display.mdeg t.mdeg, hone t, ?_, ?_, ?_⟩
  · intro w hw
    obtain ⟨t, h, rfl⟩ := List.mem_map.1 hw
    have hx : (Flt.abs t.coef).Valid ∧ isSignNegative (Flt.abs t.coef) = false ∧
        Flt.abs t.coef ≠ Flt.neg Flt.one := by
      have := ht t h
      obtain ⟨x, m⟩ := t
      cases x with
      | nan => exact ⟨trivial, rfl, nofun⟩
      | inf s => exact ⟨trivial, rfl, nofun⟩
      | fin s n => exact ⟨this, rfl, fun h => by simp [Flt.abs, Flt.neg, Flt.one] at h⟩
    have hf : '-' ∉ Display.float (Flt.abs t.coef) := by
      rw [float_eq, hx.2.1]
      exact absText_no_minus hx.1
    rw [List.mem_append, not_or]
    refine ⟨?_, mdeg_no_minus _⟩
    unfold coefPartF
    split
    · exact hf
    · split
      · simp
      · rw [if_neg hx.2.2]; exact hf
  · rw [List.forall₂_map_right_iff, List.forall₂_same]
    exact fun t _ => hone _
  · rw [polyF64_eq]
    congr 2
    clear ht
    induction ts with
    | nil => rfl
    | cons t ts ih => rw [List.flatMap_cons, List.map_cons, List.zipWith_cons_cons, List.flatten_cons, ih, habs]

/-- The exception is one. -/
theorem C128_zero (b : Build) (powi : Flt → ℤ → Flt) :
    Display.polyF64 b powi [⟨Flt.zero, []⟩] = Display.polyF64 b powi [] := by
  rw [polyF64_eq, mdeg_nil]
  cases ‹Fmt› <;> rfl

/-- `0.1x² - y + inf`. -/
example : Display.polyF64 .debug (fun x _ => x) [⟨.fin false (Flt.roundNat Flt.unit 10), [2]⟩,
    ⟨Flt.neg Flt.one, [0, 1]⟩, ⟨.inf false, []⟩] =
    .ok ['0', '.', '1', 'x', '²', ' ', '-', ' ', 'y', ' ', '+', ' ', 'i', 'n', 'f'] ∧
    (Flt.neg Flt.one).Valid ∧ MDeg.Clean [0, 1] := by
  have h0 : Flt.fin false (Flt.roundNat Flt.unit 10) ≠ Flt.one := by fmt_decide
  have h1 : Flt.fin false (Flt.roundNat Flt.unit 10) ≠ Flt.neg Flt.one := by fmt_decide
  refine ⟨?_, by fmt_decide, by decide⟩
  rw [polyF64_eq]
  have hm : Display.mdeg [2] = ['x', '²'] ∧ Display.mdeg [0, 1] = ['y'] := by
    simp [Display.mdeg, MDeg.len, writeVar, superscript_small, supDigit]
  have hn : Flt.neg (Flt.neg Flt.one) = Flt.one := rfl
  have hs : isSignNegative (Flt.neg Flt.one) = true := rfl
  have hi : isSignNegative (.inf false) = false ∧ Display.float (.inf false) = ['i', 'n', 'f'] := by
    fmt_decide
  simp [restText, coefPartF, tenth_text, h0, h1, hm, hn, hs, hi, mdeg_nil]

end Verif
