import Verif.Props.Signs
import Verif.Props.SimFloat
import Mathlib.Tactic.FieldSimp
import Mathlib.Algebra.Group.Int.TypeTags

/-!
# Property C216: polynomials over `f32` and `f64` scaled by powers of two
-/

set_option linter.unusedSectionVars false

namespace Verif
open Res LawfulRField Computer

namespace Flt
open Fmt
variable [Fmt]

/-! ### Rounding and powers of two -/

omit [Fmt] in
theorem rne_ratio {a b a' b' : ℕ} (hb : 0 < b) (hb' : 0 < b') (h : a * b' = a' * b) : rne a b = rne a' b' :=
  le_antisymm (rne_mono hb hb' h.le) (rne_mono hb' hb h.ge)

/-- The binade of a quotient that is at least `2^sig`. -/
theorem binade {a b : ℕ} (hb : 0 < b) (h : 2 ^ sig ≤ a / b) :
    (2 : ℚ) ^ ((sig + expo (a / b) : ℕ) : ℤ) ≤ a / b ∧ (a : ℚ) / b < 2 ^ ((sig + 1 + expo (a / b) : ℕ) : ℤ) := by
  have hbq : (0 : ℚ) < b := by exact_mod_cast hb
  constructor
  · have : 2 ^ (sig + expo (a / b)) ≤ a / b := by
      by_cases h0 : 0 < expo (a / b)
      · exact le_of_expo h0
      · rw [Nat.eq_zero_of_not_pos h0]; simpa using h
    rw [le_div_iff₀ hbq, zpow_natCast]
    exact_mod_cast (Nat.le_div_iff_mul_le hb).mp this
  · have := lt_of_expo (a / b)
    rw [div_lt_iff₀ hbq, zpow_natCast]
    exact_mod_cast (Nat.div_lt_iff_lt_mul hb).mp this

/-- Rounding commutes with powers of two, above `2^sig` units. -/
theorem roundNat_scale {a b a' b' : ℕ} (hb : 0 < b) (hb' : 0 < b') (k : ℤ)
    (h : (a' : ℚ) / b' = a / b * 2 ^ k) (hq : 2 ^ sig ≤ a / b) (hq' : 2 ^ sig ≤ a' / b') :
    (roundNat a' b' : ℚ) = roundNat a b * 2 ^ k := by
  obtain ⟨h1, h2⟩ := binade hb hq
  obtain ⟨h1', h2'⟩ := binade hb' hq'
  rw [h] at h1' h2'
  have two : (0 : ℚ) < 2 ^ k := by positivity
  have e : (expo (a' / b') : ℤ) = expo (a / b) + k := by
    have l1 : (2 : ℚ) ^ ((sig + expo (a / b) : ℕ) + k : ℤ) < 2 ^ ((sig + 1 + expo (a' / b') : ℕ) : ℤ) := by
      rw [zpow_add₀ two_ne_zero]
      exact lt_of_le_of_lt (mul_le_mul_of_nonneg_right h1 two.le) h2'
    have l2 : (2 : ℚ) ^ ((sig + expo (a' / b') : ℕ) : ℤ) < 2 ^ ((sig + 1 + expo (a / b) : ℕ) + k : ℤ) := by
      rw [zpow_add₀ two_ne_zero]
      exact lt_of_le_of_lt h1' (mul_lt_mul_of_pos_right h2 two)
    have m1 := (zpow_lt_zpow_iff_right₀ (one_lt_two (α := ℚ))).mp l1
    have m2 := (zpow_lt_zpow_iff_right₀ (one_lt_two (α := ℚ))).mp l2
    push_cast at m1 m2
    omega
  have hbq : (b : ℚ) ≠ 0 := by exact_mod_cast hb.ne'
  have hbq' : (b' : ℚ) ≠ 0 := by exact_mod_cast hb'.ne'
  have ep : (2 : ℚ) ^ expo (a' / b') = 2 ^ expo (a / b) * 2 ^ k := by
    rw [← zpow_natCast, ← zpow_natCast, e, zpow_add₀ two_ne_zero]
  have hr : rne a' (b' * 2 ^ expo (a' / b')) = rne a (b * 2 ^ expo (a / b)) := by
    refine rne_ratio (by positivity) (by positivity) ?_
    have : (a' : ℚ) * (b * 2 ^ expo (a / b)) = a * (b' * 2 ^ expo (a' / b')) := by
      rw [ep]
      rw [div_eq_iff hbq'] at h
      rw [h]
      field_simp
    exact_mod_cast this
  rw [roundNat_eq, roundNat_eq, hr]
  push_cast
  rw [ep]
  ring

theorem roundNat_two_pow (k : ℕ) : roundNat (2 ^ k) 1 = 2 ^ k := roundNat_of_repr (repr53_pow k)

theorem le_of_roundNat {a b : ℕ} (hb : 0 < b) (h : 2 ^ sig < roundNat a b) : 2 ^ sig ≤ a / b := by
  by_contra hlt
  push Not at hlt
  have : a * 1 ≤ 2 ^ sig * b := by
    rw [mul_one]; exact ((Nat.div_lt_iff_lt_mul hb).mp hlt).le
  have := roundNat_mono hb one_pos this
  rw [roundNat_two_pow] at this
  omega

/-- Rounding an integral number of units commutes with powers of two. -/
theorem roundNat_scale_int {a a' : ℕ} (k : ℤ) (h : (a' : ℚ) = a * 2 ^ k) :
    (roundNat a' 1 : ℚ) = roundNat a 1 * 2 ^ k := by
  have key : ∀ {c c' : ℕ} {k : ℤ}, (c' : ℚ) = c * 2 ^ k → c < 2 ^ sig → ReprP c ∧ ReprP c' := by
    intro c c' k h hc
    have hc' : c ≤ 2 ^ (sig + 1) := by rw [pow_succ]; omega
    refine ⟨⟨c, 0, by simp, hc'⟩, ?_⟩
    rcases Int.le_total 0 k with hk | hk
    · refine ⟨c, k.toNat, ?_, hc'⟩
      rw [← Int.toNat_of_nonneg hk, zpow_natCast] at h
      exact_mod_cast h
    · refine ⟨c', 0, by simp, le_trans ?_ hc'⟩
      have : (c' : ℚ) ≤ c := by
        rw [h]
        exact mul_le_of_le_one_right (Nat.cast_nonneg _) (zpow_le_one_of_nonpos₀ one_le_two hk)
      exact_mod_cast this
  by_cases ha : a < 2 ^ sig
  · obtain ⟨r, r'⟩ := key h ha
    rw [roundNat_of_repr r, roundNat_of_repr r', h]
  · by_cases ha' : a' < 2 ^ sig
    · have h' : (a : ℚ) = a' * 2 ^ (-k) := by rw [h, mul_assoc, ← zpow_add₀ two_ne_zero]; simp
      obtain ⟨r', r⟩ := key h' ha'
      rw [roundNat_of_repr r, roundNat_of_repr r', h]
    · exact roundNat_scale one_pos one_pos k (by simpa using h) (by simpa using ha) (by simpa using ha')

/-! ### A run that watches the range -/

/-- The panic of `ranged`. -/
def outOfRange : Panic := .explicit "out of range"

/-- A result is kept if it is finite and, unless `z`, larger in size than the least normal number. -/
def kept (z : Bool) (r : Flt) : Res Flt :=
  match r with
  | fin s n => if z = true ∨ 2 ^ sig < n then .ok (fin s n) else .panic outOfRange
  | _ => .panic outOfRange

/-- The number is `0.0` or `-0.0`. -/
def isZ (x : Flt) : Bool := eq x zero

/-- The arithmetic of `f32` and `f64`, with a panic `outOfRange` in place of a result that is infinite or not a
number, and of a product or quotient that is not larger than the least normal number in size although no
numerator or factor is zero. -/
@[reducible] def ranged (b : Build) (powi : Flt → Int → Flt) : RField Flt where
  build := b
  zero := zero
  one := one
  beq := eq
  add x y := kept true (add x y)
  sub x y := kept true (sub x y)
  neg x := .ok (neg x)
  mul x y := kept (isZ x || isZ y) (mul x y)
  div x y := kept (isZ x) (div x y)
  inv x := kept false (recip x)
  powi32 x e := .ok (powi x e)
  sum l := l.foldlM (fun acc y => do let y ← y; kept true (add acc y)) zero

theorem kept_sim (z : Bool) (r : Flt) : Sim (· = outOfRange) (kept z r) (.ok r) := by
  unfold kept
  split
  · split
    · exact Sim.refl _
    · exact Or.inr ⟨_, rfl, rfl⟩
  · exact Or.inr ⟨_, rfl, rfl⟩

theorem ranged_sim (b : Build) (powi : Flt → Int → Flt) :
    OpsSim (· = outOfRange) (ranged b powi) (plainOps b powi) where
  build := Or.inl rfl
  add _ _ := kept_sim _ _
  sub _ _ := kept_sim _ _
  neg _ := Sim.refl _
  mul _ _ := kept_sim _ _
  div _ _ := kept_sim _ _
  inv _ := kept_sim _ _
  powi32 _ _ := Sim.refl _
  sum l l' h := by
    have key : ∀ c, Sim (· = outOfRange)
        (l.foldlM (fun acc y => do let y ← y; kept true (add acc y)) c)
        (l'.foldlM (fun acc y => do let y ← y; Res.ok (add acc y)) c) := by
      induction h with
      | nil => intro c; exact Sim.refl _
      | cons hr h ih =>
        intro c
        rw [List.foldlM_cons, List.foldlM_cons]
        exact (hr.bind fun y => kept_sim _ _).bind fun c => ih c
    exact key _

/-! ### The relation -/

/-- Finite numbers of the same sign, the second `2^u` times the first. -/
def TimesPow2 (u : Multiplicative ℤ) (x y : Flt) : Prop :=
  ∃ s n n', x = fin s n ∧ y = fin s n' ∧ (n' : ℚ) = n * 2 ^ u.toAdd

theorem kept_near {z : Bool} {u : Multiplicative ℤ} {x y : Flt}
    (h : ∀ s n t m, x = fin s n → y = fin t m → (z = true ∨ 2 ^ sig < n ∧ 2 ^ sig < m) → TimesPow2 u x y) :
    Near (· = outOfRange) (TimesPow2 u) (kept z x) (kept z y) := by
  match hx : x, hy : y with
  | nan, _ => exact .inl ⟨_, rfl, rfl⟩
  | inf _, _ => exact .inl ⟨_, rfl, rfl⟩
  | fin _ _, nan => exact .inr (.inl ⟨_, rfl, rfl⟩)
  | fin _ _, inf _ => exact .inr (.inl ⟨_, rfl, rfl⟩)
  | fin s n, fin t m =>
    by_cases h1 : z = true ∨ 2 ^ sig < n
    · by_cases h2 : z = true ∨ 2 ^ sig < m
      · rw [kept, kept, if_pos h1, if_pos h2]
        exact Near.ok (h s n t m rfl rfl (by tauto))
      · rw [kept.eq_1 z t m, if_neg h2]
        exact .inr (.inl ⟨_, rfl, rfl⟩)
    · rw [kept.eq_1 z s n, if_neg h1]
      exact .inl ⟨_, rfl, rfl⟩

theorem units_scale {s : Bool} {n n' : ℕ} {c : ℚ} (h : (n' : ℚ) = n * c) :
    ((units s n' : ℤ) : ℚ) = units s n * c := by
  cases s <;> simp [units, h]

theorem fin_of_round {s t : Bool} {a b n : ℕ} (h : round s a b = fin t n) : s = t ∧ n = roundNat a b := by
  unfold round at h
  dsimp only at h
  split at h
  · cases h; exact ⟨rfl, rfl⟩
  · cases h

theorem add_pow2 {u : Multiplicative ℤ} {x y x' y' : Flt} (h : TimesPow2 u x y) (h' : TimesPow2 u x' y') :
    ∀ s n t m, add x x' = fin s n → add y y' = fin t m → TimesPow2 u (add x x') (add y y') := by
  obtain ⟨s, n, n', rfl, rfl, hn⟩ := h
  obtain ⟨t, m, m', rfl, rfl, hm⟩ := h'
  intro s1 n1 t1 m1 e1 e2
  have hs : ((units s n' + units t m' : ℤ) : ℚ) = (units s n + units t m : ℤ) * 2 ^ u.toAdd := by
    push_cast
    rw [units_scale hn, units_scale hm]
    ring
  simp only [add] at e1 e2 ⊢
  generalize units s n + units t m = i at *
  generalize units s n' + units t m' = i' at *
  have two : (0 : ℚ) < 2 ^ u.toAdd := by positivity
  unfold ofUnits at *
  by_cases hi : i = 0
  · subst hi
    have hi' : i' = 0 := by simpa using hs
    subst hi'
    exact ⟨_, 0, 0, rfl, rfl, by simp⟩
  · have hi' : i' ≠ 0 := by
      rintro rfl
      rw [Int.cast_zero, eq_comm, mul_eq_zero] at hs
      exact hs.elim (fun h => hi (by exact_mod_cast h)) two.ne'
    rw [if_neg hi] at e1 ⊢
    rw [if_neg hi'] at e2 ⊢
    have hsg : decide (i' < 0) = decide (i < 0) := by
      rw [decide_eq_decide]
      have : ((i' : ℚ) < 0) ↔ (i : ℚ) < 0 := by rw [hs, ← not_le, ← not_le, mul_nonneg_iff_of_pos_right two]
      exact_mod_cast this
    have ha : ((i'.natAbs : ℕ) : ℚ) = i.natAbs * 2 ^ u.toAdd := by
      rw [Nat.cast_natAbs, Nat.cast_natAbs, Int.cast_abs, Int.cast_abs, hs, abs_mul, abs_of_pos two]
    have hr := roundNat_scale_int u.toAdd ha
    rw [hsg] at e2 ⊢
    obtain ⟨rfl, rfl⟩ := fin_of_round e1
    obtain ⟨h3, rfl⟩ := fin_of_round e2
    subst h3
    exact ⟨_, _, _, e1, e2, hr⟩

theorem isZ_fin {s : Bool} {n : ℕ} : isZ (fin s n) = true ↔ n = 0 := by
  rw [isZ, eq_zero_iff]
  constructor
  · rintro ⟨_, h⟩; cases h; rfl
  · rintro rfl; exact ⟨_, rfl⟩

theorem roundNat_zero_left (b : ℕ) : roundNat 0 b = 0 := by
  unfold roundNat rne
  simp [eq_comm]

theorem round_pow2 {z : Bool} {u : Multiplicative ℤ} {s : Bool} {a b a' b' : ℕ} (hb : 0 < b) (hb' : 0 < b')
    (h : (a' : ℚ) / b' = a / b * 2 ^ u.toAdd) (hz : z = true → a = 0 ∧ a' = 0) :
    ∀ s1 n1 t1 m1, round s a b = fin s1 n1 → round s a' b' = fin t1 m1 →
      (z = true ∨ 2 ^ sig < n1 ∧ 2 ^ sig < m1) → TimesPow2 u (round s a b) (round s a' b') := by
  intro s1 n1 t1 m1 e1 e2 hg
  obtain ⟨rfl, rfl⟩ := fin_of_round e1
  obtain ⟨ht, rfl⟩ := fin_of_round e2
  subst ht
  refine ⟨_, _, _, e1, e2, ?_⟩
  · rcases hg with hg | ⟨h1, h2⟩
    · obtain ⟨rfl, rfl⟩ := hz hg
      simp [roundNat_zero_left]
    · exact roundNat_scale hb hb' _ h (le_of_roundNat hb h1) (le_of_roundNat hb' h2)

theorem TimesPow2.isZ {u : Multiplicative ℤ} {x y : Flt} (h : TimesPow2 u x y) : Flt.isZ x = Flt.isZ y := by
  obtain ⟨s, n, n', rfl, rfl, hn⟩ := h
  rw [Bool.eq_iff_iff, isZ_fin, isZ_fin]
  have two : (2 : ℚ) ^ u.toAdd ≠ 0 := by positivity
  constructor
  · rintro rfl; simpa using hn
  · rintro rfl
    rw [Nat.cast_zero, eq_comm, mul_eq_zero] at hn
    exact hn.elim (fun h => by exact_mod_cast h) fun h => absurd h two

theorem div_pow2 {z : Bool} {u v : Multiplicative ℤ} {x y x' y' : Flt} (h : TimesPow2 u x y)
    (h' : TimesPow2 v x' y') (hx' : Flt.isZ x' = false) (hz : z = true → Flt.isZ x = true) :
    Near (· = outOfRange) (TimesPow2 (u * v⁻¹)) (kept z (div x x')) (kept z (div y y')) := by
  refine kept_near ?_
  have hxy := h.isZ
  have hxy' := h'.isZ
  obtain ⟨s, n, n', rfl, rfl, hn⟩ := h
  obtain ⟨t, m, m', rfl, rfl, hm⟩ := h'
  have hm0 : m ≠ 0 := fun h => by rw [isZ_fin.mpr h] at hx'; cases hx'
  have hm0' : m' ≠ 0 := fun h => by rw [hxy', isZ_fin.mpr h] at hx'; cases hx'
  have e : div (fin s n) (fin t m) = round (xor s t) (n * unit) m := by simp [div, hm0]
  have e' : div (fin s n') (fin t m') = round (xor s t) (n' * unit) m' := by simp [div, hm0']
  rw [e, e']
  refine round_pow2 (Nat.pos_of_ne_zero hm0) (Nat.pos_of_ne_zero hm0') ?_ fun hzt => ?_
  · push_cast
    rw [hn, hm, toAdd_mul, toAdd_inv, zpow_add₀ two_ne_zero, zpow_neg]
    have : (m : ℚ) ≠ 0 := by exact_mod_cast hm0
    have h2 : (2 : ℚ) ^ v.toAdd ≠ 0 := by positivity
    field_simp
  · have h0 := hz hzt
    have h0' := hxy ▸ h0
    rw [isZ_fin] at h0 h0'
    simp [h0, h0']

theorem ranged_pow2 (b : Build) (powi : Flt → Int → Flt) :
    letI := ranged b powi
    WeighOps (F := Flt) (G := Flt) (· = outOfRange) TimesPow2 := by
  let _ := ranged b powi
  refine { build := rfl, zero := ?_, one := ?_, isZero := ?_, add := ?_, neg := ?_, mul := ?_, div := ?_, inv := ?_ }
  · intro u; exact ⟨_, 0, 0, rfl, rfl, by simp⟩
  · exact ⟨_, unit, unit, rfl, rfl, by simp⟩
  · intro u x y h; exact h.isZ
  · intro u x y x' y' h h'
    exact kept_near fun s n t m e1 e2 _ => add_pow2 h h' s n t m e1 e2
  · intro u x y h
    obtain ⟨s, n, n', rfl, rfl, hn⟩ := h
    exact Near.ok ⟨_, n, n', rfl, rfl, hn⟩
  · intro u v x y x' y' h h'
    change Near _ _ (kept (Flt.isZ x || Flt.isZ x') (mul x x')) (kept (Flt.isZ y || Flt.isZ y') (mul y y'))
    rw [← h.isZ, ← h'.isZ]
    refine kept_near ?_
    have hxy := h.isZ
    have hxy' := h'.isZ
    obtain ⟨s, n, n', rfl, rfl, hn⟩ := h
    obtain ⟨t, m, m', rfl, rfl, hm⟩ := h'
    refine round_pow2 unit_pos unit_pos ?_ fun hz => ?_
    · push_cast
      rw [hn, hm, toAdd_mul, zpow_add₀ two_ne_zero]
      ring
    · rw [Bool.or_eq_true] at hz
      rcases hz with hz | hz
      · have hz' := hxy ▸ hz
        rw [isZ_fin] at hz hz'
        simp [hz, hz']
      · have hz' := hxy' ▸ hz
        rw [isZ_fin] at hz hz'
        simp [hz, hz']
  · intro u v x y x' y' h h' hz
    change Near _ _ (kept (Flt.isZ x) (div x x')) (kept (Flt.isZ y) (div y y'))
    rw [← h.isZ]
    exact div_pow2 h h' hz id
  · intro u x y h hz
    have := div_pow2 (z := false) (u := 1) (x := one) (y := one) ⟨_, unit, unit, rfl, rfl, by simp⟩ h hz (by simp)
    rw [one_mul] at this
    exact this

/-- From runs that watch the range to the real runs. -/
theorem real_of_ranged {α β : Type} {R : α → β → Prop} {x x₀ : Res α} {y y₀ : Res β}
    (h : Near (· = outOfRange) R x y) (hx : Sim (· = outOfRange) x x₀) (hy : Sim (· = outOfRange) y y₀) :
    x = .panic outOfRange ∨ y = .panic outOfRange ∨ Rel R x₀ y₀ := by
  rcases h with ⟨p, rfl, h⟩ | ⟨p, rfl, h⟩ | h
  · exact .inl h
  · exact .inr (.inl h)
  · rcases hx with rfl | ⟨p, hx, rfl⟩
    · rcases hy with rfl | ⟨p, hy, rfl⟩
      · exact .inr (.inr h)
      · exact .inr (.inl hy)
    · exact .inl hx

end Flt

open Flt

/-- The same monomials in the same places; what `q` has in place of a term of `p` is `2^k` times what is obtained
from it by putting `2^(e i)` times the variable for every variable. -/
def Poly.ByPow2 [Fmt] (k : ℤ) (e : ℕ → ℤ) (p q : Poly Flt) : Prop :=
  List.Forall₂ (fun s t => s.mdeg = t.mdeg ∧ TimesPow2
    (.ofAdd k * monomialFactor (fun i => .ofAdd (e i)) s.mdeg) s.coef t.coef) p q

section
variable [Fmt] (b : Build) (powi : Flt → Int → Flt) (O : MOrder) (e : ℕ → ℤ)

theorem factors_pow2 (he : b = .release → ∀ i, e i = 0) :
    Character b (monomialFactor fun i => Multiplicative.ofAdd (e i)) :=
  monomialFactor_character fun hb i => by rw [he hb i]; simp

/-- C216, arithmetic: the operation on scaled polynomials gives the scaled result, unless one of the two meets
a result that is out of range. -/
theorem C216_arith (he : b = .release → ∀ i, e i = 0) (k l : ℤ) (p p' q q' : Poly Flt) (hp : p.ByPow2 k e p') :
    letI R := ranged b powi
    letI D := field b powi
    (q.ByPow2 k e q' →
      (@Poly.add _ R p q = .panic outOfRange ∨ @Poly.add _ R p' q' = .panic outOfRange ∨
        Rel (Poly.ByPow2 k e) (@Poly.add _ D p q) (@Poly.add _ D p' q')) ∧
      (@Poly.sub _ R p q = .panic outOfRange ∨ @Poly.sub _ R p' q' = .panic outOfRange ∨
        Rel (Poly.ByPow2 k e) (@Poly.sub _ D p q) (@Poly.sub _ D p' q'))) ∧
    (q.ByPow2 l e q' →
      @Poly.mul _ R p q = .panic outOfRange ∨ @Poly.mul _ R p' q' = .panic outOfRange ∨
        Rel (Poly.ByPow2 (k + l) e) (@Poly.mul _ D p q) (@Poly.mul _ D p' q')) := by
  let _ := ranged b powi
  have hw := ranged_pow2 b powi
  have h := ranged_sim b powi
  exact ⟨fun hq => ⟨real_of_ranged (Poly.add_w hw hp hq) (Poly.add_sim h _ _) (Poly.add_sim h _ _),
    real_of_ranged (Poly.sub_w hw hp hq) (Poly.sub_sim h _ _) (Poly.sub_sim h _ _)⟩,
    fun hq => real_of_ranged (Poly.mul_w hw (factors_pow2 b e he) hp hq) (Poly.mul_sim h _ _) (Poly.mul_sim h _ _)⟩

/-- C216, division: the remainder is `2^k` times the remainder, and the quotient by a divisor scaled by `2^l` is
`2^(k - l)` times the quotient, without any difference in rounding. -/
theorem C216_divide (he : b = .release → ∀ i, e i = 0) (k : ℤ) (f f' : Poly Flt) (divs divs' : List (Poly Flt))
    (hf : f.ByPow2 k e f') (hd : List.Forall₂ (fun g g' => ∃ l : ℤ, Poly.ByPow2 l e g g') divs divs') :
    letI R := ranged b powi
    letI D := field b powi
    @divide _ R O f divs = .panic outOfRange ∨ @divide _ R O f' divs' = .panic outOfRange ∨
    Rel (fun x y => Poly.ByPow2 k e x.1 y.1 ∧
        List.Forall₂ (fun x y => ∃ l : ℤ, Poly.ByPow2 l e x.1 y.1 ∧ Poly.ByPow2 (k - l) e x.2 y.2)
          (divs.zip x.2) (divs'.zip y.2))
      (@divide _ D O f divs) (@divide _ D O f' divs') := by
  let _ := ranged b powi
  have h := ranged_sim b powi
  refine real_of_ranged (Near.imp (divide_w (ranged_pow2 b powi) (factors_pow2 b e he) O hf ?_) ?_)
    (divide_sim h (OrdSim.refl _) _ _) (divide_sim h (OrdSim.refl _) _ _)
  · exact hd.imp fun _ _ ⟨l, h⟩ => ⟨.ofAdd l, h⟩
  · exact fun x y hxy => ⟨hxy.1, hxy.2.imp fun _ _ ⟨l, h1, h2⟩ => ⟨l.toAdd, h1, h2⟩⟩

/-- C216, Gröbner bases. -/
theorem C216_groebner (he : b = .release → ∀ i, e i = 0) (gens gens' : List (Poly Flt))
    (hg : List.Forall₂ (fun g g' => ∃ l : ℤ, Poly.ByPow2 l e g g') gens gens') :
    letI R := ranged b powi
    letI D := field b powi
    (@buchbergerAlgorithm _ R O gens = .panic outOfRange ∨ @buchbergerAlgorithm _ R O gens' = .panic outOfRange ∨
      Rel (List.Forall₂ fun g g' => ∃ l : ℤ, Poly.ByPow2 l e g g')
        (@buchbergerAlgorithm _ D O gens) (@buchbergerAlgorithm _ D O gens')) ∧
    (@buchbergerCriterion _ R O gens = .panic outOfRange ∨ @buchbergerCriterion _ R O gens' = .panic outOfRange ∨
      @buchbergerCriterion _ D O gens = @buchbergerCriterion _ D O gens') := by
  let _ := ranged b powi
  have h := ranged_sim b powi
  have hw := ranged_pow2 b powi
  have hχ := factors_pow2 b e he
  have hg' : LW TimesPow2 (monomialFactor fun i => Multiplicative.ofAdd (e i)) gens gens' :=
    hg.imp fun _ _ ⟨l, h⟩ => ⟨.ofAdd l, h⟩
  constructor
  · refine real_of_ranged (Near.imp (buchbergerAlgorithm_w hw hχ O hg') ?_)
      (buchbergerAlgorithm_sim h (OrdSim.refl _) _) (buchbergerAlgorithm_sim h (OrdSim.refl _) _)
    exact fun x y hxy => hxy.imp fun _ _ ⟨l, h⟩ => ⟨l.toAdd, h⟩
  · rcases real_of_ranged (buchbergerCriterion_w hw hχ O hg') (buchbergerCriterion_sim h (OrdSim.refl _) _)
      (buchbergerCriterion_sim h (OrdSim.refl _) _) with h | h | h
    · exact .inl h
    · exact .inr (.inl h)
    · exact .inr (.inr h.eq)

/-- The number `n`, if it is small. -/
def smallNat (n : ℕ) : Flt := .fin false (n * unit)

/-- Dividing `x^2` by `3 x + 1`, and `32 x^2` by `24 x + 4`: that is, `2 x` for `x`, eight times the dividend and
four times the divisor. A third and a ninth are rounded; nothing goes out of range. -/
theorem C216_run : letI := ranged b (fun _ _ => Flt.nan)
    divide MOrder.lex ([⟨one, [2]⟩] : Poly Flt) [[⟨smallNat 3, [1]⟩, ⟨one, []⟩]] =
      .ok ([⟨div (div one (smallNat 3)) (smallNat 3), []⟩],
        [[⟨div one (smallNat 3), [1]⟩, ⟨neg (div (div one (smallNat 3)) (smallNat 3)), []⟩]]) ∧
    divide MOrder.lex ([⟨smallNat 32, [2]⟩] : Poly Flt) [[⟨smallNat 24, [1]⟩, ⟨smallNat 4, []⟩]] =
      .ok ([⟨div (div (smallNat 8) (smallNat 3)) (smallNat 3), []⟩],
        [[⟨div (smallNat 4) (smallNat 3), [1]⟩, ⟨neg (div (div (smallNat 2) (smallNat 3)) (smallNat 3)), []⟩]]) := by
  let _ := ranged b (fun _ _ => Flt.nan)
  refine ⟨(divideN_approx 20 _ _).eq ?_ (by simp), (divideN_approx 20 _ _).eq ?_ (by simp)⟩
  · cases b <;> fmt_decide
  · cases b <;> fmt_decide

example : Poly.ByPow2 3 (fun _ => 1) ([⟨one, [2]⟩] : Poly Flt) [⟨smallNat 32, [2]⟩] ∧
    Poly.ByPow2 2 (fun _ => 1) ([⟨smallNat 3, [1]⟩, ⟨one, []⟩] : Poly Flt) [⟨smallNat 24, [1]⟩, ⟨smallNat 4, []⟩] := by
  refine ⟨.cons ⟨rfl, ⟨false, unit, 32 * unit, rfl, rfl, ?_⟩⟩ .nil,
    .cons ⟨rfl, ⟨false, 3 * unit, 24 * unit, rfl, rfl, ?_⟩⟩
      (.cons ⟨rfl, ⟨false, unit, 4 * unit, rfl, rfl, ?_⟩⟩ .nil)⟩
  all_goals
    simp [monomialFactor, powersFrom, ← ofAdd_add, ← ofAdd_nsmul]
    try ring_nf
    try norm_num

/-- C216, the range matters: half of three times the least positive number is rounded to twice the least positive
number, but half of six times that number is three times it. -/
theorem C216_range : let half : Flt := .fin false (unit / 2)
    TimesPow2 (.ofAdd 1) (.fin false 3) (.fin false 6) ∧
    mul (.fin false 3) half = .fin false 2 ∧ mul (.fin false 6) half = .fin false 3 ∧
    ¬ TimesPow2 (.ofAdd 1) (mul (.fin false 3) half) (mul (.fin false 6) half) := by
  intro half
  have h1 : mul (.fin false 3) half = .fin false 2 := by fmt_decide
  have h2 : mul (.fin false 6) half = .fin false 3 := by fmt_decide
  refine ⟨⟨_, 3, 6, rfl, rfl, by norm_num⟩, h1, h2, ?_⟩
  rw [h1, h2]
  rintro ⟨s, n, n', e1, e2, h⟩
  cases e1
  cases e2
  norm_num at h

end

end Verif
