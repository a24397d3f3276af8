import Verif.Proofs.Shrink
import Verif.Props.SimFloat
import Verif.Props.DivideError
import Verif.Props.F64Special
import Verif.Props.Difference
import Verif.Props.Endless

/-!
# Division and Buchberger's algorithm over floats end unless something overflows or underflows (C230)

`divide` and `buchberger_algorithm` need not end over `f32` and `f64` (C95, C156).  The counterexamples use products
or quotients so small that they lose their precision.  `Flt.guarded` is the arithmetic in which an operation with an
infinite or undefined result, and a product or quotient of nonzero numbers that is zero or subnormal, ends with the
panic `exceptional`; where there is no such operation, both routines end, with whatever rounding errors.
-/

namespace Verif
open Res Computer

namespace Flt
open Fmt
variable [Fmt]

/-- The panic of an operation that overflows, underflows or is undefined. -/
def exceptional : Panic := .explicit "exceptional"

/-- `r`, if it is finite. -/
def chkFinite : Flt → Res Flt
  | fin s n => .ok (fin s n)
  | _ => .panic exceptional

/-- `r`, if it is finite and zero (where `z`) or at least the smallest normal number, which is `2^sig` units. -/
def chkNormal (z : Bool) : Flt → Res Flt
  | fin s n => if z || decide (2 ^ sig ≤ n) then .ok (fin s n) else .panic exceptional
  | _ => .panic exceptional

/-- `f32` and `f64` with every operation checked for overflow and underflow. -/
@[reducible] def guarded (powi : Flt → Int → Flt) : RField Flt where
  build := .debug
  zero := zero
  one := one
  beq := eq
  add x y := chkFinite (add x y)
  sub x y := chkFinite (sub x y)
  neg x := chkFinite (neg x)
  mul x y := chkNormal (eq x zero || eq y zero) (mul x y)
  div x y := chkNormal (eq x zero) (div x y)
  inv x := chkNormal false (recip x)
  powi32 x e := chkFinite (powi x e)
  sum l := l.foldlM (fun acc y => do let y ← y; chkFinite (add acc y)) zero

theorem chkFinite_sim (r : Flt) : Sim (· = exceptional) (chkFinite r) (.ok r) := by
  cases r
  · exact .inr ⟨_, rfl, rfl⟩
  · exact .inr ⟨_, rfl, rfl⟩
  · exact .inl rfl

theorem chkNormal_sim (z : Bool) (r : Flt) : Sim (· = exceptional) (chkNormal z r) (.ok r) := by
  cases r with
  | nan => exact .inr ⟨_, rfl, rfl⟩
  | inf _ => exact .inr ⟨_, rfl, rfl⟩
  | fin s n =>
    rw [chkNormal]
    by_cases h : (z || decide (2 ^ sig ≤ n)) = true
    · rw [if_pos h]; exact .inl rfl
    · rw [if_neg h]; exact .inr ⟨_, rfl, rfl⟩

theorem chkFinite_ok {r x : Flt} (h : chkFinite r = .ok x) : x = r ∧ x.value ≠ none := by
  cases r
  · cases h
  · cases h
  · cases h; exact ⟨rfl, by rintro ⟨⟩⟩

theorem chkNormal_ok {z : Bool} {r x : Flt} (h : chkNormal z r = .ok x) :
    x = r ∧ x.value ≠ none ∧ (z = false → eq x zero = false ∧ tiny ≤ roundoff * |x.val|) := by
  cases r with
  | nan => cases h
  | inf _ => cases h
  | fin s n =>
    rw [chkNormal] at h
    by_cases hn : (z || decide (2 ^ sig ≤ n)) = true
    · rw [if_pos hn] at h
      cases h
      refine ⟨rfl, (by rintro ⟨⟩), fun hz => ?_⟩
      rw [hz, Bool.false_or, decide_eq_true_eq] at hn
      have hn0 : 0 < n := lt_of_lt_of_le (by positivity) hn
      refine ⟨?_, ?_⟩
      · rw [← Bool.not_eq_true]
        intro he
        obtain ⟨t, ht⟩ := eq_zero_iff.mp he
        cases ht
        omega
      · have hv : |(fin s n).val| = n / unit := by
          have : (fin s n).val = (units s n : ℚ) / unit := rfl
          rw [this, abs_div, abs_of_pos unit_posQ]
          cases s <;> simp [units]
        rw [hv, tiny_eq, roundoff, pow_succ]
        have h2 : (2 ^ sig : ℚ) ≤ n := by exact_mod_cast hn
        have h3 : (0 : ℚ) < 2 ^ sig := by positivity
        rw [← mul_div_assoc]
        refine div_le_div_of_nonneg_right ?_ unit_posQ.le
        rw [div_mul_eq_mul_div, one_mul, le_div_iff₀ (by positivity)]
        linarith
    · rw [if_neg hn] at h; cases h

theorem chkFinite_ends (r : Flt) : Ends (chkFinite r) := by
  rcases chkFinite_sim r with h | ⟨p, h, _⟩ <;> rw [h]
  · exact Ends.ok _
  · exact Ends.panic _

theorem chkNormal_ends (z : Bool) (r : Flt) : Ends (chkNormal z r) := by
  rcases chkNormal_sim z r with h | ⟨p, h, _⟩ <;> rw [h]
  · exact Ends.ok _
  · exact Ends.panic _

variable (powi : Flt → Int → Flt)

theorem guarded_sim : OpsSim (· = exceptional) (guarded powi) (plainOps .debug powi) where
  build := Or.inl rfl
  add _ _ := chkFinite_sim _
  sub _ _ := chkFinite_sim _
  neg _ := chkFinite_sim _
  mul _ _ := chkNormal_sim _ _
  div _ _ := chkNormal_sim _ _
  inv _ := chkNormal_sim _ _
  powi32 _ _ := chkFinite_sim _
  sum l l' h := by
    have key : ∀ c, Sim (· = exceptional)
        (l.foldlM (fun acc y => do let y ← y; chkFinite (add acc y)) c)
        (l'.foldlM (fun acc y => do let y ← y; Res.ok (add acc y)) c) := by
      induction h with
      | nil => intro c; exact Sim.refl _
      | cons hr h ih =>
        intro c
        rw [List.foldlM_cons, List.foldlM_cons]
        exact (hr.bind fun y => chkFinite_sim _).bind fun c => ih c
    exact key _

omit [Fmt] in
/-- Small relative errors in the quotient, the product and the difference leave less than there was. -/
theorem contract {u c g q p d : ℚ} (hu : u ≤ 1 / 16) (hg : g ≠ 0) (hc : c ≠ 0)
    (h1 : |q - c / g| ≤ u * |c / g| + u * |q|) (h2 : |p - g * q| ≤ u * |g * q| + u * |p|)
    (h3 : |d - (c - p)| ≤ u * |c - p|) : |d| < |c| := by
  have hc0 : 0 < |c| := abs_pos.mpr hc
  have hg0 : 0 < |g| := abs_pos.mpr hg
  have e1 : |g * q - c| ≤ u * |c| + u * |g * q| := by
    have : g * q - c = g * (q - c / g) := by field_simp
    rw [this, abs_mul, abs_mul]
    have h4 : |g| * |c / g| = |c| := by rw [abs_div, mul_div_cancel₀ _ hg0.ne']
    calc |g| * |q - c / g| ≤ |g| * (u * |c / g| + u * |q|) := mul_le_mul_of_nonneg_left h1 hg0.le
      _ = u * (|g| * |c / g|) + u * (|g| * |q|) := by ring
      _ = _ := by rw [h4]
  have b1 : ∀ x : ℚ, u * |x| ≤ 1 / 16 * |x| := fun x => mul_le_mul_of_nonneg_right hu (abs_nonneg x)
  have t1 : |g * q| ≤ |g * q - c| + |c| := by simpa using abs_add_le (g * q - c) c
  have t2 : |p| ≤ |p - g * q| + |g * q| := by simpa using abs_add_le (p - g * q) (g * q)
  have t3 : |c - p| ≤ |g * q - c| + |p - g * q| := by
    have := abs_add_le (g * q - c) (p - g * q)
    rw [show g * q - c + (p - g * q) = -(c - p) by ring, abs_neg] at this
    exact this
  have t4 : |d| ≤ |d - (c - p)| + |c - p| := by simpa using abs_add_le (d - (c - p)) (c - p)
  have := b1 c; have := b1 (g * q); have := b1 p; have := b1 (c - p)
  linarith

/-- The absolute value in units. -/
def size : Flt → ℕ
  | fin _ n => n
  | _ => 0

theorem size_lt {x y : Flt} {a b : ℚ} (hx : x.value = some a) (hy : y.value = some b) (h : |a| < |b|) :
    x.size < y.size := by
  have key : ∀ (x : Flt) (a : ℚ), x.value = some a → |a| = x.size / unit := by
    intro x a hx
    cases x with
    | nan => cases hx
    | inf _ => cases hx
    | fin s n =>
      have : a = (units s n : ℚ) / unit := by cases hx; rfl
      rw [this, abs_div, abs_of_pos unit_posQ]
      cases s <;> simp [units, size]
  rw [key x a hx, key y b hy, div_lt_div_iff_of_pos_right unit_posQ] at h
  exact_mod_cast h

theorem val_ne_zero {x : Flt} (h : eq x zero = false) (hv : x.value ≠ none) : x.val ≠ 0 := by
  intro h0
  have := value_val hv
  rw [h0] at this
  obtain ⟨s, rfl⟩ := value_eq_zero.mp this
  rw [eq_zero_iff.mpr ⟨s, rfl⟩] at h
  cases h

theorem roundoff_small : roundoff ≤ 1 / 16 := by
  unfold roundoff
  have h : (16 : ℚ) ≤ 2 ^ (sig + 1) := by
    have : (2 : ℚ) ^ 4 ≤ 2 ^ (sig + 1) := pow_le_pow_right₀ (by norm_num) (by cases ‹Fmt› <;> decide)
    norm_num at this ⊢
    exact this
  exact one_div_le_one_div_of_le (by norm_num) h

theorem guarded_shrinks : letI := guarded powi
    Shrinks (F := Flt) (fun x => x.value ≠ none) size := by
  let _ := guarded powi
  have hfin : ∀ r : Flt, Holds (fun x : Flt => x.value ≠ none) (chkFinite r) := fun r x h => (chkFinite_ok h).2
  have hnor : ∀ z (r : Flt), Holds (fun x : Flt => x.value ≠ none) (chkNormal z r) := fun z r x h => (chkNormal_ok h).2.1
  exact {
    build := rfl
    closed := {
      zero := by rintro ⟨⟩
      one := by change one.value ≠ none; rw [value_one]; rintro ⟨⟩
      add := fun _ _ _ _ => hfin _
      sub := fun _ _ _ _ => hfin _
      neg := fun _ _ => hfin _
      mul := fun _ _ _ _ => hnor _ _
      div := fun _ _ _ _ _ => hnor _ _
      inv := fun _ _ _ => hnor _ _ }
    ends := {
      add := fun _ _ => chkFinite_ends _
      neg := fun _ => chkFinite_ends _
      mul := fun _ _ => chkNormal_ends _ _
      div := fun _ _ => chkNormal_ends _ _
      inv := fun _ => chkNormal_ends _ _ }
    one_ne := by change eq one zero = false; fmt_decide
    neg_ne := by
      intro x y _ h hx
      obtain ⟨rfl, _⟩ := chkFinite_ok h
      exact (eq_zero_neg x).trans hx
    mul_ne := by
      intro x y z _ _ h hx hy
      have hx : eq x zero = false := hx
      have hy : eq y zero = false := hy
      exact ((chkNormal_ok h).2.2 (by rw [hx, hy]; rfl)).1
    div_ne := fun x y z _ _ h hx _ => ((chkNormal_ok h).2.2 hx).1
    inv_ne := fun x y _ h _ => ((chkNormal_ok h).2.2 rfl).1
    shrink := by
      intro c g q p p' d hc hg hcz hgz h1 h2 h3 h4 _
      have hcz : eq c zero = false := hcz
      have hgz : eq g zero = false := hgz
      obtain ⟨rfl, hq, hq'⟩ := chkNormal_ok h1
      obtain ⟨hqz, hqt⟩ := hq' hcz
      obtain ⟨rfl, hp, hp'⟩ := chkNormal_ok h2
      obtain ⟨-, hpt⟩ := hp' (by rw [hgz, hqz]; rfl)
      obtain ⟨rfl, hn⟩ := chkFinite_ok h3
      obtain ⟨rfl, hd⟩ := chkFinite_ok h4
      have vc := value_val hc
      have vg := value_val hg
      have vq := value_val hq
      have vp := value_val hp
      have vd := value_val hd
      have e1 := (div_error vc vg vq).2
      have e2 := mul_error vg vq vp
      have e3 := sub_error vc vp (c := (add c (neg (mul g (div c g)))).val) vd
      refine size_lt vd vc (contract (u := roundoff) (q := (div c g).val)
        (p := (mul g (div c g)).val) roundoff_small (val_ne_zero hgz hg) (val_ne_zero hcz hc)
        (by linarith) (by linarith) e3) }

/-- Canonical polynomials in `n` variables with finite coefficients. -/
def FiniteIn (n : ℕ) (p : Poly Flt) : Prop :=
  p.Degs n ∧ ((∀ t ∈ p, eq t.coef zero = false) ∧ (p.map (·.mdeg)).Nodup) ∧ ∀ t ∈ p, t.coef.value ≠ none

theorem FiniteIn.fine {n : ℕ} {p : Poly Flt} (h : FiniteIn n p) : letI := guarded powi
    Poly.Sound n (fun x : Flt => x.value ≠ none) p := by
  let _ := guarded powi
  exact ⟨h.1, ⟨h.2.1.1, h.2.1.2⟩, h.2.2⟩

omit [Fmt] in
/-- A run that does not end where the checked run ends: an operation of the checked run is exceptional. -/
theorem diverge_of_sim {α : Type} {X D R : Res α} (hX : Ends X) (h1 : Sim (· = exceptional) X D)
    (h2 : Sim IndexOverflow D R) :
    (D = .diverge → X = .panic exceptional) ∧
    (R = .diverge → X = .panic exceptional ∨ ∃ p, IndexOverflow p ∧ X = .panic p) := by
  have key : D = .diverge → X = .panic exceptional := by
    intro hD
    rcases h1 with h | ⟨p, h, rfl⟩
    · exact absurd (h.trans hD) hX
    · exact h
  refine ⟨key, fun hR => ?_⟩
  rcases h2 with h | ⟨p, h, hp⟩
  · exact .inl (key (h.trans hR))
  · rcases h1 with h' | ⟨q, h', rfl⟩
    · exact .inr ⟨p, hp, h'.trans h⟩
    · exact .inl h'

/-- C230, division.  The checked division ends, and where it is not exceptional it is the division.  So a division
that does not end has an operation that overflows, underflows or is undefined (or, in the release build, an exponent
that is reduced modulo 256). -/
theorem C230_divide {n : ℕ} (k : OrdKind) (f : Poly Flt) (divs : List (Poly Flt)) (hf : FiniteIn n f)
    (hd : ∀ g ∈ divs, FiniteIn n g) :
    letI X := @divide _ (guarded powi) (k.order .debug) f divs
    letI D := @divide _ (field .debug powi) (k.order .debug) f divs
    letI R := @divide _ (field .release powi) (k.order .release) f divs
    X ≠ .diverge ∧ (X = D ∨ X = .panic exceptional) ∧ (D = .diverge → X = .panic exceptional) ∧
    (R = .diverge → X = .panic exceptional ∨ X = .panic .overflowU8 ∨ X = .panic .overflowUsize) := by
  have hX := @Shrinks.divide _ (guarded powi) _ _ _ (guarded_shrinks powi) k f divs (hf.fine powi)
    fun g hg => (hd g hg).fine powi
  have h := guarded_sim powi
  have h1 := divide_sim h (OrdKind.sim h.build k) f divs
  have hs := diverge_of_sim (@Spec.ends _ _ _ _ hX) h1 (C188_poly powi k f [] zero [] divs).2.2.2.2.2.1
  refine ⟨@Spec.ends _ _ _ _ hX, ?_, hs.1, fun hR => ?_⟩
  · rcases h1 with h | ⟨p, h, rfl⟩
    · exact .inl h
    · exact .inr h
  · rcases hs.2 hR with h | ⟨p, rfl | rfl, h⟩
    · exact .inl h
    · exact .inr (.inl h)
    · exact .inr (.inr h)

/-- C230, the remainder of the checked division: no term of it is divisible by a leading term of a divisor. -/
theorem C230_remainder {n : ℕ} (k : OrdKind) (f : Poly Flt) (divs : List (Poly Flt)) (hf : FiniteIn n f)
    (hd : ∀ g ∈ divs, FiniteIn n g) {x : Poly Flt × List (Poly Flt)} :
    letI := guarded powi
    divide (k.order .debug) f divs = .ok x →
    @divide _ (field .debug powi) (k.order .debug) f divs = .ok x ∧ FiniteIn n x.1 ∧
    ∀ t ∈ x.1, ∀ g ∈ divs, ∀ m, leadingTerm (k.order .debug) g = .ok (some m) →
      ¬ m.mdeg.toF (Fin n) ≤ t.mdeg.toF (Fin n) := by
  let _ := guarded powi
  intro hx
  have S := guarded_shrinks powi
  have hX := (S.divide k (hf.fine powi) fun g hg => (hd g hg).fine powi).of_ok hx
  have h := guarded_sim powi
  refine ⟨?_, ⟨hX.1.degs, ⟨hX.1.canon.1, hX.1.canon.2⟩, hX.1.over⟩, fun t ht g hg m hm => ?_⟩
  · rcases divide_sim h (OrdKind.sim h.build k) f divs with h1 | ⟨p, h1, _⟩
    · exact h1.symm.trans hx
    · cases h1.symm.trans hx
  · have hl := leadingTerm_lm k (hd g hg).1 hm
    have := hX.2.1 t ht g hg (by rintro rfl; cases hm)
    rwa [← hl.2] at this

/-- C230, the criterion of Buchberger and his algorithm. -/
theorem C230_buchberger {n : ℕ} (k : OrdKind) (gens : List (Poly Flt)) (hg : ∀ g ∈ gens, FiniteIn n g ∧ g ≠ []) :
    (letI X := @buchbergerAlgorithm _ (guarded powi) (k.order .debug) gens
    letI D := @buchbergerAlgorithm _ (field .debug powi) (k.order .debug) gens
    letI R := @buchbergerAlgorithm _ (field .release powi) (k.order .release) gens
    X ≠ .diverge ∧ (X = D ∨ X = .panic exceptional) ∧ (D = .diverge → X = .panic exceptional) ∧
    (R = .diverge → X = .panic exceptional ∨ X = .panic .overflowU8 ∨ X = .panic .overflowUsize)) ∧
    (letI X := @buchbergerCriterion _ (guarded powi) (k.order .debug) gens
    letI D := @buchbergerCriterion _ (field .debug powi) (k.order .debug) gens
    letI R := @buchbergerCriterion _ (field .release powi) (k.order .release) gens
    X ≠ .diverge ∧ (X = D ∨ X = .panic exceptional) ∧ (D = .diverge → X = .panic exceptional) ∧
    (R = .diverge → X = .panic exceptional ∨ X = .panic .overflowU8 ∨ X = .panic .overflowUsize)) := by
  have hg' : @FineGens _ (guarded powi) n (fun x : Flt => x.value ≠ none) gens := fun g h =>
    ⟨(hg g h).1.fine powi, (hg g h).2⟩
  have h := guarded_sim powi
  have hO := OrdKind.sim h.build k
  have hC := (C188_poly powi k [] [] zero [] gens).2.2.2.2.2.2.2
  have close : ∀ {α : Type} {X D R : Res α}, Ends X → Sim (· = exceptional) X D → Sim IndexOverflow D R →
      X ≠ .diverge ∧ (X = D ∨ X = .panic exceptional) ∧ (D = .diverge → X = .panic exceptional) ∧
      (R = .diverge → X = .panic exceptional ∨ X = .panic .overflowU8 ∨ X = .panic .overflowUsize) := by
    intro α X D R hX h1 h2
    have hs := diverge_of_sim hX h1 h2
    refine ⟨hX, ?_, hs.1, fun hR => ?_⟩
    · rcases h1 with h | ⟨p, h, rfl⟩
      · exact .inl h
      · exact .inr h
    · rcases hs.2 hR with h | ⟨p, rfl | rfl, h⟩
      · exact .inl h
      · exact .inr (.inl h)
      · exact .inr (.inr h)
  refine ⟨close (@Shrinks.algorithm _ (guarded powi) _ _ _ (guarded_shrinks powi) k gens hg')
    (buchbergerAlgorithm_sim h hO gens) hC.2, close ?_ (buchbergerCriterion_sim h hO gens) hC.1⟩
  exact @Shrinks.criterionFor _ (guarded powi) _ _ _ (guarded_shrinks powi) k gens hg' _

/-- C230. A checked division that rounds and returns, and its arguments meet the hypotheses. -/
theorem C230_run (k : OrdKind) : letI := guarded (fun _ _ => nan)
    divide (k.order .debug) [⟨one, [2]⟩, ⟨one, [0, 1]⟩] [[⟨three, [1]⟩, ⟨one, []⟩]] =
      .ok ([⟨one, [0, 1]⟩, ⟨neg (div (neg (div one three)) three), []⟩],
        [[⟨div one three, [1]⟩, ⟨div (neg (div one three)) three, []⟩]]) ∧
    FiniteIn 2 [⟨one, [2]⟩, ⟨one, [0, 1]⟩] ∧ FiniteIn 2 [⟨three, [1]⟩, ⟨one, []⟩] := by
  let _ := guarded (fun _ _ => nan)
  have hdeg : ∀ m : MDeg, MDeg.Clean m → m.length ≤ 2 → MDeg.Clean m ∧ MDeg.InVars (Fin 2) m := fun m h1 h2 =>
    ⟨h1, (MDeg.inVars_fin h1).mpr h2⟩
  have h1 := (C229_run k).2.2.1
  have h2 := (C229_run k).2.2.2
  refine ⟨(divideN_approx 20 _ _).eq (by cases k <;> fmt_decide) (by simp), ⟨h1, ⟨?_, by simp⟩, ?_⟩, h2,
    ⟨?_, by simp⟩, ?_⟩ <;>
  · intro t ht
    rcases List.mem_cons.mp ht with rfl | ht
    · fmt_decide
    · rw [List.mem_singleton.mp ht]; fmt_decide

/-- C230. The runs of C95 and C156, which do not end, are exceptional: a quotient is below the smallest number. -/
theorem C230_sharp (k : OrdKind) : letI := guarded (fun _ _ => nan)
    divide (k.order .debug) tinyX [xMisfit] = .panic exceptional ∧
    buchbergerAlgorithm (k.order .debug) [squareX, fourX] = .panic exceptional ∧
    FiniteIn 1 tinyX ∧ FiniteIn 1 xMisfit ∧ FiniteIn 1 squareX ∧ FiniteIn 1 fourX := by
  let _ := guarded (fun _ _ => nan)
  have hdeg : ∀ m : MDeg, MDeg.Clean m → m.length ≤ 1 → MDeg.Clean m ∧ MDeg.InVars (Fin 1) m := fun m h1 h2 =>
    ⟨h1, (MDeg.inVars_fin h1).mpr h2⟩
  have single : ∀ (c : Flt), eq c zero = false → c.value ≠ none → FiniteIn 1 [⟨c, [1]⟩] := by
    intro c hc hv
    refine ⟨?_, ⟨?_, by simp⟩, ?_⟩ <;> (intro t ht; rw [List.mem_singleton.mp ht])
    · exact hdeg _ ⟨by simp, by simp⟩ (by simp)
    · exact hc
    · exact hv
  refine ⟨(divideN_approx 20 _ _).eq (by cases k <;> fmt_decide) (by simp),
    (buchbergerAlgorithmN_approx 20 _).eq (by cases k <;> fmt_decide) (by simp),
    single _ (by fmt_decide) (by fmt_decide), single _ (by fmt_decide) (by fmt_decide), ⟨?_, ⟨?_, by simp [squareX]⟩, ?_⟩,
    single _ (by fmt_decide) (by fmt_decide)⟩ <;>
  · intro t ht
    rcases List.mem_cons.mp ht with rfl | ht
    · first | fmt_decide | exact hdeg _ ⟨by simp, by simp⟩ (by simp)
    · rw [List.mem_singleton.mp ht]
      first | fmt_decide | exact hdeg _ ⟨by simp, by simp⟩ (by simp)

end Flt
end Verif
