import Verif.Props.F64Exact
import Verif.Props.F64Poly
import Verif.Props.Refine
import Verif.Props.Comp
import Verif.Proofs.Run

/-!
# Properties C155 and C156: where division and Buchberger's algorithm do not end

Without overflow checks the exponents wrap around, and a multidegree can end in a zero.  Such a
multidegree is greater than the one of the constant term and is not removed by a constant divisor.
Over `f32` and `f64` the quotient of two coefficients can be zero.
-/

namespace Verif
open Res Computer

variable {F : Type}

/-- A loop that keeps an invariant and never leaves does not end. -/
theorem loop_diverge {S R : Type} {step : S → Res (S ⊕ R)} (Inv : S → Prop)
    (h : ∀ s, Inv s → ∃ s', step s = .ok (.inl s') ∧ Inv s') {s : S} (hs : Inv s) :
    Res.loop step s = .diverge := by
  by_contra hd
  obtain ⟨n, hn⟩ := iter_of_loop_ne_diverge hd
  rw [← hn] at hd
  clear hn
  induction n generalizing s with
  | zero => exact hd rfl
  | succ n ih =>
    obtain ⟨s', h1, h2⟩ := h s hs
    rw [iter, h1, bind_ok] at hd
    exact ih h2 hd

/-- A loop whose first iteration leads to a state from which it does not end. -/
theorem loop_diverge_step {S R : Type} {step : S → Res (S ⊕ R)} {s s' : S}
    (h : step s = .ok (.inl s')) (h' : Res.loop step s' = .diverge) :
    Res.loop step s = .diverge := by
  rw [loop_unfold, h, bind_ok]; exact h'

theorem Rational.add_release (x y : Rational) : ∃ z, Rational.add .release x y = .ok z := by
  have hn : ∀ i, ∃ j, I64.norm .release i = .ok j := by
    intro i; unfold I64.norm; split <;> exact ⟨_, rfl⟩
  have hm : ∀ i j, ∃ k, Integer.mul .release i j = .ok k := fun i j => hn _
  have ha : ∀ i j, ∃ k, Integer.add .release i j = .ok k := fun i j => hn _
  unfold Rational.add
  obtain ⟨p, hp⟩ := hm x.numer y.denom
  obtain ⟨q, hq⟩ := hm y.numer x.denom
  obtain ⟨r, hr⟩ := ha p q
  obtain ⟨d, hd⟩ := hm x.denom y.denom
  rw [hp, bind_ok, hq, bind_ok, hr, bind_ok]
  split
  · exact ⟨_, rfl⟩
  · rw [hd, bind_ok]; exact ⟨_, rfl⟩

theorem addTerm_release (p : Poly Rational) (t : Term Rational) :
    letI := Rational.field .release
    ∃ q, Poly.addTerm p t = .ok q := by
  let _ := Rational.field .release
  have h : ∀ p : Poly Rational, ∃ q, Poly.addNonzeroTerm p t = .ok q := by
    intro p
    induction p with
    | nil => exact ⟨_, rfl⟩
    | cons s p ih =>
      unfold Poly.addNonzeroTerm
      split
      · obtain ⟨c, hc⟩ := Rational.add_release s.coef t.coef
        have hc : RField.add s.coef t.coef = .ok c := hc
        rw [hc, bind_ok]
        dsimp only
        split <;> exact ⟨_, rfl⟩
      · obtain ⟨q, hq⟩ := ih
        rw [hq, bind_ok]
        exact ⟨_, rfl⟩
  unfold Poly.addTerm
  split
  · exact ⟨_, rfl⟩
  · split
    · exact ⟨_, rfl⟩
    · exact h p

/-- The variable that leads `x - y`, and the other one, multiplied out: `x y^255` or `x^255 y`. -/
def wrapF : OrdKind → Poly Rational
  | .revLex => [⟨⟨1, 1⟩, [255, 1]⟩]
  | _ => [⟨⟨1, 1⟩, [1, 255]⟩]

/-- `x - y` -/
def wrapG : Poly Rational := [⟨⟨1, 1⟩, [1]⟩, ⟨⟨-1, 1⟩, [0, 1]⟩]

/-- `1` -/
def wrapOne : Poly Rational := [⟨⟨1, 1⟩, []⟩]

/-- What the exponent 256 wraps to. -/
def wrapZ : OrdKind → Term Rational
  | .revLex => ⟨⟨1, 1⟩, [0]⟩
  | _ => ⟨⟨1, 1⟩, [0, 0]⟩

/-- The constants that the state of `divide` can contain. -/
def wrapC : OrdKind → Rational → Prop
  | .gRevLex, c => c = ⟨-1, 1⟩
  | _, _ => True

/-- The states of `f` while it is divided by `1`. -/
def wrapSt (k : OrdKind) (f : Poly Rational) : Prop :=
  f = [wrapZ k] ∨ ∃ c, wrapC k c ∧ f = [wrapZ k, ⟨c, []⟩]

/-- The leading term of such an `f`: no term of `x - y` or `wrapF` divides it, and dividing it by
`1` leads to such an `f` again. -/
theorem wrap_for (k : OrdKind) (f : Poly Rational) (hf : wrapSt k f) (q : Poly Rational) :
    letI := Rational.field .release
    ∃ lt, leadingTerm (k.order .release) f = .ok (some lt) ∧
      (∃ l, leadingTerm (k.order .release) wrapG = .ok (some l) ∧ lt.tryDiv l = .ok none) ∧
      (∃ l, leadingTerm (k.order .release) (wrapF k) = .ok (some l) ∧ lt.tryDiv l = .ok none) ∧
      ∃ f' q', divideFor (k.order .release) lt f [(wrapOne, q)] = .ok (some ([q'], f')) ∧
        wrapSt k f' := by
  let _ := Rational.field .release
  have hit : ∀ (lt a : Term Rational) (ag f' : Poly Rational),
      lt.tryDiv ⟨⟨1, 1⟩, []⟩ = .ok (some a) → Poly.mulTerm wrapOne a = .ok ag →
      Poly.sub f ag = .ok f' →
      ∃ q', divideFor (k.order .release) lt f [(wrapOne, q)] = .ok (some ([q'], f')) := by
    intro lt a ag f' h1 h2 h3
    obtain ⟨q', hq⟩ := addTerm_release q a
    refine ⟨q', ?_⟩
    rw [divideFor, show leadingTerm (k.order .release) wrapOne = .ok (some ⟨⟨1, 1⟩, []⟩) from rfl,
      bind_ok]
    dsimp only
    rw [h1, bind_ok]
    dsimp only
    rw [hq, bind_ok, h2, bind_ok, h3, bind_ok]
    rfl
  by_cases hk : k = .gRevLex
  · subst hk
    rcases hf with rfl | ⟨c, rfl, rfl⟩
    · obtain ⟨q', hq⟩ := hit (wrapZ .gRevLex) ⟨⟨1, 1⟩, [0, 0]⟩ [⟨⟨1, 1⟩, []⟩]
        [wrapZ .gRevLex, ⟨⟨-1, 1⟩, []⟩] (by decide +kernel) (by decide +kernel) (by decide +kernel)
      exact ⟨_, rfl, ⟨_, rfl, by decide +kernel⟩, ⟨_, rfl, by decide +kernel⟩, _, q', hq,
        .inr ⟨_, rfl, rfl⟩⟩
    · obtain ⟨q', hq⟩ := hit ⟨⟨-1, 1⟩, []⟩ ⟨⟨-1, 1⟩, []⟩ [⟨⟨-1, 1⟩, []⟩]
        [wrapZ .gRevLex] (by decide +kernel) (by decide +kernel) (by decide +kernel)
      exact ⟨_, by decide +kernel, ⟨_, rfl, by decide +kernel⟩, ⟨_, rfl, by decide +kernel⟩, _, q',
        hq, .inl rfl⟩
  · have hC : ∀ c, wrapC k c := by
      intro c
      cases k <;> first | exact absurd rfl hk | trivial
    have hL : leadingTerm (k.order .release) f = .ok (some (wrapZ k)) := by
      rcases hf with rfl | ⟨c, -, rfl⟩
      · rfl
      · cases k <;> first | exact absurd rfl hk | rfl
    refine ⟨wrapZ k, hL, ?_, ?_, ?_⟩
    · cases k <;> exact ⟨_, rfl, by decide +kernel⟩
    · cases k <;> exact ⟨_, rfl, by decide +kernel⟩
    · have h1 : (wrapZ k).tryDiv ⟨⟨1, 1⟩, []⟩ = .ok (some (wrapZ k)) := by
        cases k <;> decide +kernel
      have h2 : Poly.mulTerm wrapOne (wrapZ k) = .ok [⟨⟨1, 1⟩, []⟩] := by
        cases k <;> decide +kernel
      have hn : Poly.neg [(⟨⟨1, 1⟩, []⟩ : Term Rational)] = .ok [⟨⟨-1, 1⟩, []⟩] := by
        decide +kernel
      have hz : (wrapZ k).mdeg ≠ [] := by cases k <;> simp [wrapZ]
      rcases hf with rfl | ⟨c, -, rfl⟩
      · obtain ⟨q', hq⟩ := hit (wrapZ k) (wrapZ k) _ [wrapZ k, ⟨⟨-1, 1⟩, []⟩] h1 h2
          (by cases k <;> decide +kernel)
        exact ⟨_, q', hq, .inr ⟨_, hC _, rfl⟩⟩
      · obtain ⟨c', hc⟩ := Rational.add_release c ⟨-1, 1⟩
        have hc : RField.add c (⟨-1, 1⟩ : Rational) = .ok c' := hc
        have h3 : Poly.sub [wrapZ k, ⟨c, []⟩] [⟨⟨1, 1⟩, []⟩] =
            .ok (if Term.isZero (⟨c', []⟩ : Term Rational) then [wrapZ k] else
              [wrapZ k, ⟨c', []⟩]) := by
          rw [Poly.sub, hn, bind_ok, Poly.add, List.foldlM_cons, Poly.addTerm,
            if_neg (by simp [Poly.isZero]), if_neg (by decide), Poly.addNonzeroTerm, if_neg hz,
            Poly.addNonzeroTerm, if_pos rfl]
          dsimp only
          rw [hc, bind_ok]
          split <;> rfl
        obtain ⟨q', hq⟩ := hit (wrapZ k) (wrapZ k) _ _ h1 h2 h3
        refine ⟨_, q', hq, ?_⟩
        split
        · exact .inl rfl
        · exact .inr ⟨_, hC _, rfl⟩

theorem divideFor_skip [RField F] {O : MOrder} {lt l : Term F} {f g q : Poly F}
    {rest : List (Poly F × Poly F)} {qs : List (Poly F)} {f' : Poly F}
    (h1 : leadingTerm O g = .ok (some l)) (h2 : lt.tryDiv l = .ok none)
    (h3 : divideFor O lt f rest = .ok (some (qs, f'))) :
    divideFor O lt f ((g, q) :: rest) = .ok (some (q :: qs, f')) := by
  rw [divideFor, h1, bind_ok]
  dsimp only
  rw [h2, bind_ok]
  dsimp only
  rw [h3, bind_ok]
  rfl

theorem wrap_diverge (k : OrdKind) (f : Poly Rational) (hf : wrapSt k f) (qs : List (Poly Rational))
    (r : Poly Rational) :
    letI := Rational.field .release
    (qs.length = 2 → Res.loop (divideStep (k.order .release) [wrapG, wrapOne]) ⟨f, qs, r⟩ =
      .diverge) ∧
    (qs.length = 3 → Res.loop (divideStep (k.order .release) [wrapG, wrapF k, wrapOne]) ⟨f, qs, r⟩ =
      .diverge) := by
  let _ := Rational.field .release
  constructor
  · intro hq
    refine loop_diverge (fun s => wrapSt k s.f ∧ s.quotients.length = 2) ?_ ⟨hf, hq⟩
    rintro ⟨f, qs, r⟩ ⟨hf, hq⟩
    obtain ⟨q₀, q₁, rfl⟩ := List.length_eq_two.mp hq
    obtain ⟨lt, h0, ⟨l, h1, h2⟩, -, f', q', h3, h4⟩ := wrap_for k f hf q₁
    refine ⟨⟨f', [q₀, q'], r⟩, ?_, h4, rfl⟩
    rw [divideStep, h0, bind_ok]
    dsimp only
    rw [show [wrapG, wrapOne].zip [q₀, q₁] = [(wrapG, q₀), (wrapOne, q₁)] from rfl,
      divideFor_skip h1 h2 h3, bind_ok]
    rfl
  · intro hq
    refine loop_diverge (fun s => wrapSt k s.f ∧ s.quotients.length = 3) ?_ ⟨hf, hq⟩
    rintro ⟨f, qs, r⟩ ⟨hf, hq⟩
    obtain ⟨q₀, q₁, q₂, rfl⟩ := List.length_eq_three.mp hq
    obtain ⟨lt, h0, ⟨l, h1, h2⟩, ⟨l', h1', h2'⟩, f', q', h3, h4⟩ := wrap_for k f hf q₂
    refine ⟨⟨f', [q₀, q₁, q'], r⟩, ?_, h4, rfl⟩
    rw [divideStep, h0, bind_ok]
    dsimp only
    rw [show [wrapG, wrapF k, wrapOne].zip [q₀, q₁, q₂] =
      [(wrapG, q₀), (wrapF k, q₁), (wrapOne, q₂)] from rfl,
      divideFor_skip h1 h2 (divideFor_skip h1' h2' h3), bind_ok]
    rfl

/-- C155. Without overflow checks `divide` need not end, for any of the four orders. -/
theorem C155_refuted (k : OrdKind) :
    letI := Rational.field .release
    sampleOk 2 (wrapF k) ∧ sampleOk 2 wrapG ∧ sampleOk 2 wrapOne ∧
    divide (k.order .release) (wrapF k) [wrapG, wrapOne] = .diverge ∧
    buchbergerAlgorithm (k.order .release) [wrapG, wrapF k, wrapOne] = .diverge := by
  let _ := Rational.field .release
  have h1 : divideStep (k.order .release) [wrapG, wrapOne] ⟨wrapF k, [[], []], []⟩ =
      .ok (.inl ⟨[wrapZ k], [[⟨if k = .revLex then ⟨-1, 1⟩ else ⟨1, 1⟩, if k = .revLex then [255] else [0, 255]⟩], []], []⟩) := by
    cases k <;> decide +kernel
  refine ⟨by cases k <;> decide, by decide, by decide, ?_, ?_⟩
  · exact loop_diverge_step h1 ((wrap_diverge k _ (.inl rfl) _ _).1 rfl)
  · have h0 : extendStep (k.order .release) ([wrapG, wrapF k, wrapOne], 0) =
        .ok (.inl ([wrapG, wrapF k, wrapOne], 1)) := by
      cases k <;> decide +kernel
    have hS : tryReduce (k.order .release) (wrapF k) wrapG = .ok (some [wrapZ k]) := by
      cases k <;> decide +kernel
    have hd : divide (k.order .release) [wrapZ k] [wrapG, wrapF k, wrapOne] = .diverge :=
      (wrap_diverge k _ (.inl rfl) _ _).2 rfl
    have hx : extendStep (k.order .release) ([wrapG, wrapF k, wrapOne], 1) = .diverge := by
      rw [extendStep, if_pos (by simp)]
      have : extendFor (k.order .release) [wrapG, wrapF k, wrapOne] 1 (List.range 1) =
          .diverge := by
        change extendFor (k.order .release) [wrapG, wrapF k, wrapOne] 1 [0] = _
        rw [extendFor, show index [wrapG, wrapF k, wrapOne] 1 = .ok (wrapF k) from rfl, bind_ok,
          show index [wrapG, wrapF k, wrapOne] 0 = .ok wrapG from rfl, bind_ok, hS, bind_ok]
        dsimp only
        rw [hd]
        rfl
      rw [this]
      rfl
    have : buchbergerExtend (k.order .release) [wrapG, wrapF k, wrapOne] = .diverge := by
      refine loop_diverge_step h0 ?_
      rw [loop_unfold, hx]
      rfl
    rw [buchbergerAlgorithm, this]
    rfl

/-- C155. Where `divide` does not end without overflow checks, it panics with them: an exponent or
an integer overflows.  (Missing: that it always ends, which is false, see `C155_refuted`.) -/
theorem C155_divide_partial {n : ℕ} (k : OrdKind) (f : Poly Rational) (divs : List (Poly Rational)) :
    letI D := Rational.field .debug
    letI := Rational.lawful
    Poly.Clean (Fin n) f → (∀ g ∈ divs, Poly.Clean (Fin n) g) →
    @divide _ (Rational.field .release) (k.order .release) f divs = .diverge →
    ∃ p, @divide _ D (k.order .debug) f divs = .panic p ∧ PolyPanic Rational p := by
  let _ := Rational.field .debug
  let _ := Rational.lawful
  intro hf hd hr
  have h := C39_divide_terminates (k.implements n) f divs hf hd
  cases hx : divide (k.order .debug) f divs with
  | ok x =>
    have := divide_refines releaseOps_refine (Flt.order_refines .release k) _ _ _ hx
    rw [release_eq, hr] at this
    cases this
  | panic p => exact ⟨p, rfl, h.2 p hx⟩
  | diverge => exact absurd hx h.1

/-- C155, for Buchberger's algorithm: where it does not end without overflow checks, it panics with
them. -/
theorem C155_buchberger_partial {n : ℕ} (k : OrdKind) (gens : List (Poly Rational)) :
    letI D := Rational.field .debug
    letI := Rational.lawful
    (∀ g ∈ gens, Poly.Clean (Fin n) g ∧ Poly.den (Fin n) g ≠ 0) →
    @buchbergerAlgorithm _ (Rational.field .release) (k.order .release) gens = .diverge →
    ∃ p, @buchbergerAlgorithm _ D (k.order .debug) gens = .panic p ∧ PolyPanic Rational p := by
  let _ := Rational.field .debug
  let _ := Rational.lawful
  intro hg hr
  have h := C45_terminates (k.implements n) gens hg
  cases hx : buchbergerAlgorithm (k.order .debug) gens with
  | ok x =>
    have := buchbergerAlgorithm_refines releaseOps_refine (Flt.order_refines .release k) _ _ hx
    rw [release_eq, hr] at this
    cases this
  | panic p => exact ⟨p, rfl, h.2 p hx⟩
  | diverge => exact absurd hx h.1

/-- The operations of an exact field do not depend on the build; the exponents do. -/
def exactOps (K : Type) [Field K] [DecidableEq K] : Ops K where
  build := .release
  add x y := .ok (x + y)
  sub x y := .ok (x - y)
  neg x := .ok (-x)
  mul x y := .ok (x * y)
  div x y := if y = 0 then .panic (.explicit "denominator cannot be zero") else .ok (x / y)
  inv x := if x = 0 then .panic (.explicit "denominator cannot be zero") else .ok (x⁻¹)
  powi32 x p := .ok (x ^ p)
  sum l := l.foldlM (fun acc y => do let y ← y; .ok (acc + y)) 0

theorem exactOps_refine (K : Type) [Field K] [DecidableEq K] :
    OpsRefine (exactField .debug K) (exactOps K) where
  build := rfl
  add _ _ _ h := h
  sub _ _ _ h := h
  neg _ _ h := h
  mul _ _ _ h := h
  div _ _ _ h := h
  inv _ _ h := h
  powi32 _ _ _ h := h
  sum l l' h := by
    have : ∀ a : K, Refines (l.foldlM (fun acc y => do let y ← y; .ok (acc + y)) a)
        (l'.foldlM (fun acc y => do let y ← y; Res.ok (acc + y)) a) := by
      induction h with
      | nil => exact fun _ _ h => h
      | cons hx _ ih =>
        intro a r hr
        rw [List.foldlM_cons, bind_eq_ok] at hr ⊢
        obtain ⟨b, hb, hr⟩ := hr
        obtain ⟨c, hc, hb⟩ := bind_eq_ok.mp hb
        exact ⟨b, bind_eq_ok.mpr ⟨c, hx _ hc, hb⟩, ih b r hr⟩
    exact this 0

/-- C155. Over an exact field, with a degree-compatible order and total degrees at most 255,
`divide` returns without overflow checks, and the same as with them. -/
theorem C155_graded_partial {n : ℕ} (k : OrdKind) (hk : k.graded = true) (K : Type) [Field K]
    [DecidableEq K] (f : Poly K) (divs : List (Poly K)) :
    letI D := exactField .debug K
    letI := exactLawful K
    ∀ (_ : Poly.Clean (Fin n) f) (_ : ∀ g ∈ divs, Poly.Clean (Fin n) g)
      (_ : ∀ t ∈ f, t.mdeg.sum ≤ 255) (_ : ∀ g ∈ divs, ∀ t ∈ g, t.mdeg.sum ≤ 255),
      ∃ x, @divide _ D (k.order .debug) f divs = .ok x ∧
        @divide _ (exactField .release K) (k.order .release) f divs = .ok x := by
  intro hf hd hf' hd'
  obtain ⟨x, hx⟩ := C39_divide_total k hk K f divs hf hd hf' hd'
  exact ⟨x, hx, divide_refines (exactOps_refine K) (Flt.order_refines .release k) _ _ _ hx⟩

/-- With overflow checks the two runs of `C155_refuted` panic. -/
example (k : OrdKind) : letI := Rational.field .debug
    divide (k.order .debug) (wrapF k) [wrapG, wrapOne] = .panic .overflowU8 ∧
    buchbergerAlgorithm (k.order .debug) [wrapG, wrapF k, wrapOne] = .panic .overflowU8 := by
  let _ := Rational.field .debug
  constructor
  · cases k <;> exact loop_eq_of_iter (n := 10) (by decide +kernel) (by simp)
  · cases k <;> exact (buchbergerAlgorithmN_approx 30 _).eq (by decide +kernel) (by simp)

namespace Flt
open Fmt
variable [Fmt]

set_option exponentiation.threshold 3000

/-- `4 x` -/
def fourX : Poly Flt := [⟨fin false (4 * unit), [1]⟩]

/-- `x^2` and the smallest positive number times `x`. -/
def squareX : Poly Flt := [⟨one, [2]⟩, ⟨fin false 1, [1]⟩]

/-- The S-polynomial of the two. -/
def negTinyX : Poly Flt := [⟨fin true 1, [1]⟩]

/-- C156. `buchberger_algorithm` and `buchberger_criterion` need not end over `f32` and `f64`. -/
theorem C156_refuted (b : Build) (k : OrdKind) :
    letI := field b (fun _ _ => nan)
    buchbergerAlgorithm (k.order b) [squareX, fourX] = .diverge ∧
    buchbergerCriterion (k.order b) [squareX, fourX] = .diverge := by
  let _ := field b (fun _ _ => nan)
  have hstep : ∀ p : Poly Flt, p = tinyX ∨ p = negTinyX →
      divideStep (k.order b) [squareX, fourX] ⟨p, [[], []], []⟩ = .ok (.inl ⟨p, [[], []], []⟩) := by
    rintro p (rfl | rfl)
    · cases b <;> cases k <;> fmt_decide
    · cases b <;> cases k <;> fmt_decide
  have hd : ∀ p : Poly Flt, p = tinyX ∨ p = negTinyX →
      divide (k.order b) p [squareX, fourX] = .diverge := by
    intro p hp
    refine loop_diverge (fun s => s = ⟨p, [[], []], []⟩) ?_ rfl
    rintro _ rfl
    exact ⟨_, hstep p hp, rfl⟩
  have hS : tryReduce (k.order b) fourX squareX = .ok (some negTinyX) := by
    cases b <;> cases k <;> fmt_decide
  have hS' : tryReduce (k.order b) squareX fourX = .ok (some tinyX) := by
    cases b <;> cases k <;> fmt_decide
  constructor
  · have h0 : extendStep (k.order b) ([squareX, fourX], 0) = .ok (.inl ([squareX, fourX], 1)) := rfl
    have hx : extendStep (k.order b) ([squareX, fourX], 1) = .diverge := by
      rw [extendStep, if_pos (by simp)]
      have : extendFor (k.order b) [squareX, fourX] 1 (List.range 1) = .diverge := by
        change extendFor (k.order b) [squareX, fourX] 1 [0] = _
        rw [extendFor, show index [squareX, fourX] 1 = .ok fourX from rfl, bind_ok,
          show index [squareX, fourX] 0 = .ok squareX from rfl, bind_ok, hS, bind_ok]
        dsimp only
        rw [hd _ (.inr rfl)]
        rfl
      rw [this]
      rfl
    have : buchbergerExtend (k.order b) [squareX, fourX] = .diverge := by
      refine loop_diverge_step h0 ?_
      rw [loop_unfold, hx]
      rfl
    rw [buchbergerAlgorithm, this]
    rfl
  · rw [buchbergerCriterion]
    change criterionFor (k.order b) [squareX, fourX] [(0, 1), (1, 0)] = _
    rw [criterionFor, show index [squareX, fourX] 0 = .ok squareX from rfl, bind_ok,
      show index [squareX, fourX] 1 = .ok fourX from rfl, bind_ok, hS', bind_ok]
    dsimp only
    rw [hd _ (.inl rfl)]
    rfl

/-- C156. Where `buchberger_algorithm` does not end over `f32` and `f64`, some operation rounds or
overflows.  (Missing: that it always ends, which is false, see `C156_refuted`.) -/
theorem C156_partial {n : ℕ} (b : Build) (powi : Flt → Int → Flt) (k : OrdKind)
    (gens : List (Poly Flt)) :
    letI X := exact powi
    letI := exactF64 powi
    (∀ g ∈ gens, Poly.Clean (Fin n) g ∧ Poly.den (Fin n) g ≠ 0) →
    @buchbergerAlgorithm _ (field b powi) (k.order b) gens = .diverge →
    ∃ p, @buchbergerAlgorithm _ X (k.order .debug) gens = .panic p := by
  let _ := exact powi
  let _ := exactF64 powi
  intro hg hr
  cases hx : buchbergerAlgorithm (k.order .debug) gens with
  | ok x =>
    have := ((C108_buchberger (powi := powi) b k gens hg).2 x hx).1
    rw [hr] at this
    cases this
  | panic p => exact ⟨p, rfl⟩
  | diverge => exact absurd hx (C45_terminates (k.implements n) gens hg).1

/-- The generators of `C156_refuted` are clean. -/
example : letI := exact (fun _ _ => nan); sampleOk 1 fourX ∧ sampleOk 1 squareX := by
  let _ := exact (fun _ _ => nan)
  constructor <;> fmt_decide

end Flt

end Verif
