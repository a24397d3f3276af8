import Verif.Proofs.Character
import Verif.Props.Difference
import Verif.Props.Closed
import Verif.Proofs.Run
import Mathlib.Tactic.NormNum
import Mathlib.Data.Int.Order.Units

/-!
# Properties C210 and C211: scaled polynomials
-/

namespace Verif
open Res LawfulRField Computer

namespace Flt
variable [Fmt]

/-- Equal up to the sign of zero. -/
def Alike (x y : Flt) : Prop := x = y ∨ (∃ s, x = fin s 0) ∧ ∃ t, y = fin t 0

/-- `x` or `-x`. -/
def flip (u : ℤˣ) (x : Flt) : Flt := if u = 1 then x else neg x

theorem Alike.refl (x : Flt) : Alike x x := .inl rfl

theorem Alike.symm {x y : Flt} (h : Alike x y) : Alike y x := by
  rcases h with rfl | ⟨h, h'⟩
  · exact .inl rfl
  · exact .inr ⟨h', h⟩

theorem Alike.trans {x y z : Flt} (h : Alike x y) (h' : Alike y z) : Alike x z := by
  rcases h with rfl | ⟨h1, h2⟩
  · exact h'
  · rcases h' with rfl | ⟨h3, h4⟩
    · exact .inr ⟨h1, h2⟩
    · exact .inr ⟨h1, h4⟩

theorem flip_one (x : Flt) : flip 1 x = x := if_pos rfl

theorem flip_neg_one (x : Flt) : flip (-1) x = neg x := if_neg (by decide)

theorem flip_mul_flip (u v : ℤˣ) (x : Flt) : flip u (flip v x) = flip (u * v) x := by
  rcases Int.units_eq_one_or u with rfl | rfl <;> rcases Int.units_eq_one_or v with rfl | rfl <;>
    simp [flip_one, flip_neg_one, neg_twice]

theorem mul_flip (u v : ℤˣ) (x y : Flt) : mul (flip u x) (flip v y) = flip (u * v) (mul x y) := by
  have h1 := (C172_sign x y).2.2.2.2
  have h2 := (C172_sign (neg x) y).2.2.2.2
  rcases Int.units_eq_one_or u with rfl | rfl <;> rcases Int.units_eq_one_or v with rfl | rfl <;>
    simp only [flip_one, flip_neg_one, mul_one, one_mul, h1, h2, neg_twice, neg_mul_neg]

theorem div_flip (u v : ℤˣ) (x y : Flt) : div (flip u x) (flip v y) = flip (u * v⁻¹) (div x y) := by
  have h1 := (C172_sign x y).2.2.2.2
  have h2 := (C172_sign (neg x) y).2.2.2.2
  rcases Int.units_eq_one_or u with rfl | rfl <;> rcases Int.units_eq_one_or v with rfl | rfl <;>
    simp only [flip_one, flip_neg_one, mul_one, one_mul, h1, h2, neg_twice, neg_mul_neg, inv_one, Int.units_inv_eq_self]

theorem ofUnits_alike (z z' : Bool) (i : ℤ) : Alike (ofUnits z i) (ofUnits z' i) := by
  unfold ofUnits
  split
  · exact .inr ⟨⟨_, rfl⟩, _, rfl⟩
  · exact .refl _

theorem ofUnits_neg_alike (z z' : Bool) (i : ℤ) : Alike (ofUnits z (-i)) (neg (ofUnits z' i)) := by
  unfold ofUnits
  by_cases h : i = 0
  · subst h
    exact .inr ⟨⟨_, rfl⟩, _, rfl⟩
  · rw [if_neg (by omega), if_neg h, ← round_neg, Int.natAbs_neg]
    rw [show decide (-i < 0) = !decide (i < 0) from by
      by_cases h' : i < 0
      · simp [h', show ¬ 0 < i by omega]
      · simp [h', show 0 < i by omega]]
    exact .refl _

omit [Fmt] in
theorem units_not (s : Bool) (n : ℕ) : units (!s) n = - units s n := by
  cases s <;> simp [units]

omit [Fmt] in
theorem units_zero (s : Bool) : units s 0 = 0 := by cases s <;> simp [units]

theorem add_alike_left {x x' : Flt} (h : Alike x x') (y : Flt) : Alike (add x y) (add x' y) := by
  rcases h with rfl | ⟨⟨s, rfl⟩, t, rfl⟩
  · exact .refl _
  · cases y with
    | nan => exact .refl _
    | inf b => exact .refl _
    | fin b m =>
      simp only [add, units_zero]
      exact ofUnits_alike _ _ _

theorem add_alike {x x' y y' : Flt} (h : Alike x x') (h' : Alike y y') : Alike (add x y) (add x' y') := by
  refine (add_alike_left h y).trans ?_
  rw [(C172_comm x' y).1, (C172_comm x' y').1]
  exact add_alike_left h' x'

theorem add_neg_alike (x y : Flt) : Alike (add (neg x) (neg y)) (neg (add x y)) := by
  cases x with
  | nan => exact .refl _
  | inf s =>
    cases y with
    | nan => exact .refl _
    | inf t => cases s <;> cases t <;> exact .refl _
    | fin t m => exact .refl _
  | fin s n =>
    cases y with
    | nan => exact .refl _
    | inf t => exact .refl _
    | fin t m =>
      simp only [neg, add, units_not]
      rw [← Int.neg_add]
      exact ofUnits_neg_alike _ _ _

theorem round_zero (s : Bool) (d : ℕ) : round s 0 d = fin s 0 := by
  have h0 : roundNat 0 d = 0 := by
    rw [roundNat_eq]
    simp [rne]
  have h1 : 0 < limit := by unfold limit; positivity
  unfold round
  dsimp only
  rw [h0, if_pos h1]

theorem mul_alike_left {x x' : Flt} (h : Alike x x') (y : Flt) : Alike (mul x y) (mul x' y) := by
  rcases h with rfl | ⟨⟨s, rfl⟩, t, rfl⟩
  · exact .refl _
  · cases y with
    | nan => exact .refl _
    | inf b => exact .inl (by simp [mul])
    | fin b m =>
      simp only [mul, zero_mul, round_zero]
      exact .inr ⟨⟨_, rfl⟩, _, rfl⟩

theorem mul_alike {x x' y y' : Flt} (h : Alike x x') (h' : Alike y y') : Alike (mul x y) (mul x' y') := by
  refine (mul_alike_left h y).trans ?_
  rw [(C172_comm x' y).2, (C172_comm x' y').2]
  exact mul_alike_left h' x'

theorem div_alike {x x' y : Flt} (h : Alike x x') (hy : ∀ s, y ≠ fin s 0) : Alike (div x y) (div x' y) := by
  rcases h with rfl | ⟨⟨s, rfl⟩, t, rfl⟩
  · exact .refl _
  · cases y with
    | nan => exact .refl _
    | inf b => exact .inr ⟨⟨_, rfl⟩, _, rfl⟩
    | fin b m =>
      have hm : m ≠ 0 := by rintro rfl; exact hy b rfl
      simp only [div, if_neg hm, zero_mul, round_zero]
      exact .inr ⟨⟨_, rfl⟩, _, rfl⟩

theorem neg_alike {x y : Flt} (h : Alike x y) : Alike (neg x) (neg y) := by
  rcases h with rfl | ⟨⟨s, rfl⟩, t, rfl⟩
  · exact .refl _
  · exact .inr ⟨⟨_, rfl⟩, _, rfl⟩

theorem flip_zero_iff (u : ℤˣ) (x : Flt) : (∃ s, flip u x = fin s 0) ↔ ∃ s, x = fin s 0 := by
  rcases Int.units_eq_one_or u with rfl | rfl
  · rw [flip_one]
  · rw [flip_neg_one]
    cases x <;> simp [neg]

/-- `y` is `x` or, for `u = -1`, `-x`, up to the sign of zero. -/
def UpToSign (u : ℤˣ) (x y : Flt) : Prop := Alike (flip u x) y

theorem UpToSign.zero_iff {u : ℤˣ} {x y : Flt} (h : UpToSign u x y) :
    (∃ s, x = fin s 0) ↔ ∃ s, y = fin s 0 := by
  rw [← flip_zero_iff u x]
  rcases h with h | ⟨h, h'⟩
  · rw [h]
  · exact ⟨fun _ => h', fun _ => h⟩

theorem UpToSign.beq {u : ℤˣ} {x y : Flt} (h : UpToSign u x y) : eq x zero = eq y zero := by
  rw [Bool.eq_iff_iff, eq_zero_iff, eq_zero_iff]
  exact h.zero_iff

theorem UpToSign.div {u v : ℤˣ} {x y x' y' : Flt} (h : UpToSign u x y) (h' : UpToSign v x' y')
    (hz : ∀ s, x' ≠ fin s 0) : UpToSign (u * v⁻¹) (Flt.div x x') (Flt.div y y') := by
  unfold UpToSign at *
  rw [← div_flip]
  have e : flip v x' = y' := by
    rcases h' with h' | ⟨h', -⟩
    · exact h'
    · obtain ⟨s, hs⟩ := (flip_zero_iff v x').mp h'
      exact absurd hs (hz s)
  rw [e]
  refine div_alike h fun s hs => ?_
  obtain ⟨t, ht⟩ := (flip_zero_iff v x').mp ⟨s, e.trans hs⟩
  exact hz t ht

/-- The operations on floats respect signs. -/
theorem weighOps (b : Build) (powi : Flt → Int → Flt) :
    letI := field b powi
    WeighOps (fun _ => False) (UpToSign : ℤˣ → Flt → Flt → Prop) := by
  let _ := field b powi
  refine { build := rfl, zero := ?_, one := ?_, isZero := ?_, add := ?_, neg := ?_, mul := ?_, div := ?_, inv := ?_ }
  · intro u
    rcases Int.units_eq_one_or u with rfl | rfl
    · exact .inl (flip_one _)
    · exact .inr ⟨⟨_, flip_neg_one _⟩, _, rfl⟩
  · exact .inl (flip_one _)
  · intro u x y h; exact h.beq
  · intro u x y x' y' h h'
    refine Near.ok ?_
    refine Alike.trans (Alike.symm ?_) (add_alike h h')
    rcases Int.units_eq_one_or u with rfl | rfl
    · simp only [flip_one]; exact .refl _
    · simp only [flip_neg_one]; exact add_neg_alike _ _
  · intro u x y h
    refine Near.ok ?_
    have : flip u (Flt.neg x) = Flt.neg (flip u x) := by
      rw [← flip_neg_one, ← flip_neg_one, flip_mul_flip, flip_mul_flip, mul_comm]
    unfold UpToSign
    rw [this]
    exact neg_alike h
  · intro u v x y x' y' h h'
    refine Near.ok ?_
    unfold UpToSign
    rw [← mul_flip]
    exact mul_alike h h'
  · intro u v x y x' y' h h' hz
    refine Near.ok (h.div h' fun s hs => ?_)
    have : eq x' zero = true := eq_zero_iff.mpr ⟨s, hs⟩
    exact absurd (hz.symm.trans this) (by simp)
  · intro u x y h hz
    refine Near.ok ?_
    have := UpToSign.div (u := 1) (x := one) (y := one) (.inl (flip_one _)) h fun s hs => ?_
    · rw [one_mul] at this; exact this
    · have : eq x zero = true := eq_zero_iff.mpr ⟨s, hs⟩
      exact absurd (hz.symm.trans this) (by simp)

end Flt

/-! ### Exact coefficients -/

section
variable {F K : Type} [RField F] [Field K] [LawfulRField F K]

/-- `y` represents `c` times what `x` represents. -/
def Times (c : Kˣ) (x y : F) : Prop := wf x ∧ wf y ∧ val y = c * val x

/-- The same monomials in the same places; what `t` has in place of `s` is `c` times what is obtained from `s`
by putting `a i` times the variable for every variable. -/
def Poly.Scaled (c : Kˣ) (a : ℕ → Kˣ) (p q : Poly F) : Prop :=
  List.Forall₂ (fun s t => s.mdeg = t.mdeg ∧ Times (c * monomialFactor a s.mdeg) s.coef t.coef) p q

theorem near_of_spec {E : Panic → Prop} {α β : Type} {P : α → Prop} {Q : β → Prop} {x : Res α} {y : Res β}
    (h : Spec E x P) (h' : Spec E y Q) : Near E (fun a b => P a ∧ Q b) x y := by
  cases x with
  | ok a =>
    cases y with
    | ok b => exact Near.ok ⟨h, h'⟩
    | panic p => exact .inr (.inl ⟨p, h', rfl⟩)
    | diverge => exact h'.elim
  | panic p => exact .inl ⟨p, h, rfl⟩
  | diverge => exact h.elim

theorem Times.beq {c : Kˣ} {x y : F} (h : Times c x y) : RField.beq x RField.zero = RField.beq y RField.zero := by
  obtain ⟨hx, hy, h⟩ := h
  by_cases h0 : val x = (0 : K)
  · rw [beq_zero x hx h0, beq_zero y hy (by rw [h, h0, mul_zero])]
  · have h1 : val y ≠ (0 : K) := by rw [h]; exact mul_ne_zero c.ne_zero h0
    have e : ∀ z : F, val z ≠ (0 : K) → RField.beq z RField.zero = false := fun z hz => by
      cases hb : RField.beq z RField.zero with
      | false => rfl
      | true => exact absurd ((val_eq_of_beq _ _ hb).trans val_zero) hz
    rw [e x h0, e y h1]

/-- The operations on exact coefficients respect factors. -/
theorem timesOps : WeighOps (allowed F) (Times : Kˣ → F → F → Prop) where
  build := rfl
  zero u := ⟨wf_zero, wf_zero, by rw [val_zero, mul_zero]⟩
  one := ⟨wf_one, wf_one, by rw [val_one, Units.val_one, mul_one]⟩
  isZero h := h.beq
  add := fun ⟨h1, h2, h3⟩ ⟨h4, h5, h6⟩ =>
    (near_of_spec (add_spec _ _ h1 h4) (add_spec _ _ h2 h5)).imp fun a b ⟨h, h'⟩ =>
      ⟨h.1, h'.1, by rw [h.2, h'.2, h3, h6, mul_add]⟩
  neg := fun ⟨h1, h2, h3⟩ =>
    (near_of_spec (neg_spec _ h1) (neg_spec _ h2)).imp fun a b ⟨h, h'⟩ =>
      ⟨h.1, h'.1, by rw [h.2, h'.2, h3, mul_neg]⟩
  mul := fun ⟨h1, h2, h3⟩ ⟨h4, h5, h6⟩ =>
    (near_of_spec (mul_spec _ _ h1 h4) (mul_spec _ _ h2 h5)).imp fun a b ⟨h, h'⟩ =>
      ⟨h.1, h'.1, by rw [h.2, h'.2, h3, h6, Units.val_mul, mul_mul_mul_comm]⟩
  div := fun ⟨h1, h2, h3⟩ h' hz => by
    have hy : val _ ≠ (0 : K) := val_ne_zero_of_beq h'.1 hz
    have hy' : val _ ≠ (0 : K) := val_ne_zero_of_beq h'.2.1 (h'.beq ▸ hz)
    obtain ⟨h4, h5, h6⟩ := h'
    refine (near_of_spec (div_spec _ _ h1 h4 hy) (div_spec _ _ h2 h5 hy')).imp fun a b ⟨h, h'⟩ =>
      ⟨h.1, h'.1, ?_⟩
    rw [h.2, h'.2, h3, h6, Units.val_mul, Units.val_inv_eq_inv_val, mul_div_mul_comm]
    rw [div_eq_mul_inv (_ : K) (_ : K)]
  inv := fun h' hz => by
    have hy : val _ ≠ (0 : K) := val_ne_zero_of_beq h'.1 hz
    have hy' : val _ ≠ (0 : K) := val_ne_zero_of_beq h'.2.1 (h'.beq ▸ hz)
    obtain ⟨h4, h5, h6⟩ := h'
    refine (near_of_spec (inv_spec _ h4 hy) (inv_spec _ h5 hy')).imp fun a b ⟨h, h'⟩ =>
      ⟨h.1, h'.1, ?_⟩
    rw [h.2, h'.2, h6, Units.val_inv_eq_inv_val, mul_inv]

theorem factors_debug (a : ℕ → Kˣ) : Character (RField.build F) (monomialFactor a) :=
  monomialFactor_character fun h => by rw [LawfulRField.build_debug] at h; cases h

variable (O : MOrder) (a : ℕ → Kˣ)

/-- C210, arithmetic. -/
theorem C210_arith (c d : Kˣ) (p p' q q' : Poly F) (hp : p.Scaled c a p') :
    (q.Scaled c a q' → Near (allowed F) (Poly.Scaled c a) (p.add q) (p'.add q') ∧
      Near (allowed F) (Poly.Scaled c a) (p.sub q) (p'.sub q')) ∧
    (q.Scaled d a q' → Near (allowed F) (Poly.Scaled (c * d) a) (p.mul q) (p'.mul q')) :=
  ⟨fun hq => ⟨Poly.add_w timesOps hp hq, Poly.sub_w timesOps hp hq⟩,
    fun hq => Poly.mul_w timesOps (factors_debug a) hp hq⟩

/-- C210, division: with a dividend scaled by `c` and divisors scaled by factors of their own, the remainder is
scaled by `c` and the quotient by a divisor scaled by `d` is scaled by `c / d`. -/
theorem C210_divide (c : Kˣ) (f f' : Poly F) (divs divs' : List (Poly F)) (hf : f.Scaled c a f')
    (hd : List.Forall₂ (fun g g' => ∃ d : Kˣ, Poly.Scaled d a g g') divs divs') :
    Near (allowed F) (fun x y => Poly.Scaled c a x.1 y.1 ∧
        List.Forall₂ (fun x y => ∃ d : Kˣ, Poly.Scaled d a x.1 y.1 ∧ Poly.Scaled (c * d⁻¹) a x.2 y.2)
          (divs.zip x.2) (divs'.zip y.2))
      (divide O f divs) (divide O f' divs') :=
  divide_w timesOps (factors_debug a) O hf hd

/-- C210, Gröbner bases: with scaled generators the answer of `buchberger_criterion` is the same and the
elements of the basis are scaled. -/
theorem C210_groebner (gens gens' : List (Poly F))
    (hg : List.Forall₂ (fun g g' => ∃ d : Kˣ, Poly.Scaled d a g g') gens gens') :
    Near (allowed F) (List.Forall₂ fun g g' => ∃ d : Kˣ, Poly.Scaled d a g g')
      (buchbergerAlgorithm O gens) (buchbergerAlgorithm O gens') ∧
    Near (allowed F) (· = ·) (buchbergerCriterion O gens) (buchbergerCriterion O gens') :=
  ⟨buchbergerAlgorithm_w timesOps (factors_debug a) O hg, buchbergerCriterion_w timesOps (factors_debug a) O hg⟩

end

/-! ### Floats -/

section
variable [Fmt]

/-- The same monomials in the same places; what `q` has in place of a term of `p` is `u` times what is obtained
from it by putting `a i` times the variable for every variable, up to the sign of zero. -/
def Poly.UpToSigns (u : ℤˣ) (a : ℕ → ℤˣ) (p q : Poly Flt) : Prop :=
  List.Forall₂ (fun s t => s.mdeg = t.mdeg ∧ Flt.UpToSign (u * monomialFactor a s.mdeg) s.coef t.coef) p q

omit [Fmt] in
theorem factors_signs (b : Build) (a : ℕ → ℤˣ) : Character b (monomialFactor a) :=
  monomialFactor_character fun _ i => by
    rw [show 256 = 2 * 128 from rfl, pow_mul, Int.units_sq, one_pow]

variable (O : MOrder) (a : ℕ → ℤˣ) (b : Build) (powi : Flt → Int → Flt)

/-- C211, arithmetic on floats: not even rounding tells the two signs apart. -/
theorem C211_arith (u v : ℤˣ) (p p' q q' : Poly Flt) (hp : p.UpToSigns u a p') :
    letI := Flt.field b powi
    (q.UpToSigns u a q' → Rel (Poly.UpToSigns u a) (p.add q) (p'.add q') ∧
      Rel (Poly.UpToSigns u a) (p.sub q) (p'.sub q')) ∧
    (q.UpToSigns v a q' → Rel (Poly.UpToSigns (u * v) a) (p.mul q) (p'.mul q')) := by
  let _ := Flt.field b powi
  have hw := Flt.weighOps b powi
  exact ⟨fun hq => ⟨(Poly.add_w hw hp hq).rel, (Poly.sub_w hw hp hq).rel⟩,
    fun hq => (Poly.mul_w hw (factors_signs b a) hp hq).rel⟩

/-- C211, division over floats. -/
theorem C211_divide (u : ℤˣ) (f f' : Poly Flt) (divs divs' : List (Poly Flt)) (hf : f.UpToSigns u a f')
    (hd : List.Forall₂ (fun g g' => ∃ v : ℤˣ, Poly.UpToSigns v a g g') divs divs') :
    letI := Flt.field b powi
    Rel (fun x y => Poly.UpToSigns u a x.1 y.1 ∧
        List.Forall₂ (fun x y => ∃ v : ℤˣ, Poly.UpToSigns v a x.1 y.1 ∧ Poly.UpToSigns (u * v⁻¹) a x.2 y.2)
          (divs.zip x.2) (divs'.zip y.2))
      (divide O f divs) (divide O f' divs') := by
  let _ := Flt.field b powi
  exact (divide_w (Flt.weighOps b powi) (factors_signs b a) O hf hd).rel

/-- C211, Gröbner bases over floats; the two runs also panic or run for ever together. -/
theorem C211_groebner (gens gens' : List (Poly Flt))
    (hg : List.Forall₂ (fun g g' => ∃ v : ℤˣ, Poly.UpToSigns v a g g') gens gens') :
    letI := Flt.field b powi
    Rel (List.Forall₂ fun g g' => ∃ v : ℤˣ, Poly.UpToSigns v a g g')
      (buchbergerAlgorithm O gens) (buchbergerAlgorithm O gens') ∧
    buchbergerCriterion O gens = buchbergerCriterion O gens' := by
  let _ := Flt.field b powi
  exact ⟨(buchbergerAlgorithm_w (Flt.weighOps b powi) (factors_signs b a) O hg).rel,
    (buchbergerCriterion_w (Flt.weighOps b powi) (factors_signs b a) O hg).rel.eq⟩

/-- `3.0` -/
def three : Flt := Flt.fin false (3 * Flt.unit)

/-- Dividing `x^2` by `3 x + 1` and by `-3 x + 1`, with `x` turned into `-x`; a third and a ninth are rounded. -/
theorem C211_run : letI := Flt.field b (fun _ _ => Flt.nan)
    divide MOrder.lex ([⟨Flt.one, [2]⟩] : Poly Flt) [[⟨three, [1]⟩, ⟨Flt.one, []⟩]] =
      .ok ([⟨Flt.div (Flt.div Flt.one three) three, []⟩],
        [[⟨Flt.div Flt.one three, [1]⟩, ⟨Flt.neg (Flt.div (Flt.div Flt.one three) three), []⟩]]) ∧
    divide MOrder.lex ([⟨Flt.one, [2]⟩] : Poly Flt) [[⟨Flt.neg three, [1]⟩, ⟨Flt.one, []⟩]] =
      .ok ([⟨Flt.div (Flt.div Flt.one three) three, []⟩],
        [[⟨Flt.neg (Flt.div Flt.one three), [1]⟩, ⟨Flt.neg (Flt.div (Flt.div Flt.one three) three), []⟩]]) := by
  let _ := Flt.field b (fun _ _ => Flt.nan)
  refine ⟨(divideN_approx 20 _ _).eq ?_ (by simp), (divideN_approx 20 _ _).eq ?_ (by simp)⟩
  · cases b <;> fmt_decide
  · cases b <;> fmt_decide

example : Poly.UpToSigns 1 (fun _ => -1) ([⟨Flt.one, [2]⟩] : Poly Flt) [⟨Flt.one, [2]⟩] ∧
    Poly.UpToSigns 1 (fun _ => -1) ([⟨three, [1]⟩, ⟨Flt.one, []⟩] : Poly Flt)
      [⟨Flt.neg three, [1]⟩, ⟨Flt.one, []⟩] :=
  ⟨.cons ⟨rfl, .inl rfl⟩ .nil, .cons ⟨rfl, .inl rfl⟩ (.cons ⟨rfl, .inl rfl⟩ .nil)⟩

end

/-- `x^2 y + y^2` divided by `x y - 1`, and the same with `2 x` for `x` and the divisor taken three times. -/
theorem C210_run : letI := Rational.field .debug
    divide MOrder.lex ([⟨⟨1, 1⟩, [2, 1]⟩, ⟨⟨1, 1⟩, [0, 2]⟩] : Poly Rational)
      [[⟨⟨1, 1⟩, [1, 1]⟩, ⟨⟨-1, 1⟩, []⟩]] =
      .ok ([⟨⟨1, 1⟩, [1]⟩, ⟨⟨1, 1⟩, [0, 2]⟩], [[⟨⟨1, 1⟩, [1]⟩]]) ∧
    divide MOrder.lex ([⟨⟨4, 1⟩, [2, 1]⟩, ⟨⟨1, 1⟩, [0, 2]⟩] : Poly Rational)
      [[⟨⟨6, 1⟩, [1, 1]⟩, ⟨⟨-3, 1⟩, []⟩]] =
      .ok ([⟨⟨2, 1⟩, [1]⟩, ⟨⟨1, 1⟩, [0, 2]⟩], [[⟨⟨2, 3⟩, [1]⟩]]) := by
  let _ := Rational.field .debug
  exact ⟨(divideN_approx 20 _ _).eq (by decide +kernel) (by simp),
    (divideN_approx 20 _ _).eq (by decide +kernel) (by simp)⟩

example : letI D := Rational.field .debug
    letI := Rational.lawful
    Poly.Scaled (F := Rational) (Units.mk0 3 (by norm_num)) (fun i => if i = 0 then Units.mk0 2 (by norm_num) else 1)
      [⟨⟨1, 1⟩, [1, 1]⟩, ⟨⟨-1, 1⟩, []⟩] [⟨⟨6, 1⟩, [1, 1]⟩, ⟨⟨-3, 1⟩, []⟩] := by
  let _ := Rational.field .debug
  let _ := Rational.lawful
  have hw : ∀ n : ℤ, n ≠ 0 → Rational.WF ⟨n, 1⟩ := fun n hn => ⟨Int.one_pos, fun h => absurd h hn⟩
  refine .cons ⟨rfl, hw _ (by decide), hw _ (by decide), ?_⟩ (.cons ⟨rfl, hw _ (by decide), hw _ (by decide), ?_⟩ .nil)
  · change Rational.val ⟨6, 1⟩ = _ * Rational.val ⟨1, 1⟩
    simp [Rational.val, monomialFactor, powersFrom]
    norm_num
  · change Rational.val ⟨-3, 1⟩ = _ * Rational.val ⟨-1, 1⟩
    simp [Rational.val, monomialFactor, powersFrom]

end Verif
