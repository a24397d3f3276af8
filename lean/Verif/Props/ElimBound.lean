import Verif.Proofs.Sized
import Verif.Props.Wrapping
import Verif.Props.Refine

/-!
# Property C161: elimination of small rational matrices does not overflow
-/

namespace Verif
open Res LinAlg

namespace Rational

/-- Bounds on numerator and denominator. -/
structure Size (p q : ℕ) (x : Rational) : Prop where
  wf : WF x
  numer : x.numer.natAbs ≤ p
  denom : x.denom.natAbs ≤ q

theorem inRange_of_natAbs {u : ℤ} (h : u.natAbs < 9223372036854775808) : I64.InRange u := by
  unfold I64.InRange; omega

/-- What `new` returns is not larger than its arguments. -/
theorem new_size {n d : ℤ} (hn : n.natAbs < 9223372036854775808) (hd : d.natAbs < 9223372036854775808)
    (h0 : d ≠ 0) : ∃ z, new .debug n d = .ok z ∧ WF z ∧ z.numer.natAbs ≤ n.natAbs ∧
      z.denom.natAbs ≤ d.natAbs := by
  have hn' := inRange_of_natAbs hn
  have hd' := inRange_of_natAbs hd
  obtain ⟨z, hz⟩ := (C84_new n d hn' hd').mpr ⟨h0, by unfold I64.MIN; omega, by unfold I64.MIN; omega⟩
  refine ⟨z, hz, ((new_spec n d h0).of_ok hz).1.wf, ?_⟩
  obtain ⟨z', hz', h1, h2, -⟩ := (C158_new n d hn' hd').2.2 h0 (by unfold I64.MIN; omega)
  have := new_refines n d z hz
  rw [this] at hz'
  cases hz'
  have hg : 0 < Int.gcd n d := Int.gcd_pos_of_ne_zero_right n h0
  constructor
  · rw [← h1]; exact Nat.le_mul_of_pos_right _ hg
  · rw [← h2]; exact Nat.le_mul_of_pos_right _ hg

/-- Rational arithmetic with bounds: operations return as long as the bounds are below `2^63`. -/
def sizes :
    letI := field .debug
    letI := stability .debug
    Sizes Rational (fun _ => False) 9223372036854775808 :=
  let _ := field .debug
  let _ := stability .debug
  { size := Size
    mono := fun h hp hq => ⟨h.wf, h.numer.trans hp, h.denom.trans hq⟩
    zero := ⟨⟨by decide, by decide⟩, by decide, by decide⟩
    one := ⟨⟨by decide, by decide⟩, by decide, by decide⟩
    mul := by
      intro p q p' q' x y hx hy h1 h2
      have e1 : (x.numer * y.numer).natAbs ≤ p * p' := by
        rw [Int.natAbs_mul]; exact Nat.mul_le_mul hx.numer hy.numer
      have e2 : (x.denom * y.denom).natAbs ≤ q * q' := by
        rw [Int.natAbs_mul]; exact Nat.mul_le_mul hx.denom hy.denom
      obtain ⟨z, hz, hw, z1, z2⟩ := new_size (n := x.numer * y.numer) (d := x.denom * y.denom)
        (by omega) (by omega) (mul_pos hx.wf.denom_pos hy.wf.denom_pos).ne'
      have : Rational.mul .debug x y = .ok z := by
        unfold Rational.mul Integer.mul
        rw [I64.norm_eq (inRange_of_natAbs (by omega)), bind_ok,
          I64.norm_eq (inRange_of_natAbs (by omega)), bind_ok, hz]
      change Spec _ (Rational.mul .debug x y) _
      rw [this]
      exact ⟨hw, z1.trans e1, z2.trans e2⟩
    add := by
      intro p q p' q' x y hx hy h1 h2
      have e1 : (x.numer * y.denom).natAbs ≤ p * q' := by
        rw [Int.natAbs_mul]; exact Nat.mul_le_mul hx.numer hy.denom
      have e2 : (y.numer * x.denom).natAbs ≤ p' * q := by
        rw [Int.natAbs_mul]; exact Nat.mul_le_mul hy.numer hx.denom
      have e3 : (x.denom * y.denom).natAbs ≤ q * q' := by
        rw [Int.natAbs_mul]; exact Nat.mul_le_mul hx.denom hy.denom
      have e4 := Int.natAbs_add_le (x.numer * y.denom) (y.numer * x.denom)
      change Spec _ (Rational.add .debug x y) _
      by_cases h0 : x.numer * y.denom + y.numer * x.denom = 0
      · rw [(C84_add x y ZERO).mpr ⟨inRange_of_natAbs (by omega), inRange_of_natAbs (by omega),
          inRange_of_natAbs (by omega), .inl ⟨h0, rfl⟩⟩]
        refine ⟨⟨by decide, by decide⟩, by simp [ZERO], ?_⟩
        have := Int.natAbs_pos.mpr (mul_pos hx.wf.denom_pos hy.wf.denom_pos).ne'
        change 1 ≤ _
        omega
      · have := (C84_add x y _).mpr ⟨inRange_of_natAbs (by omega), inRange_of_natAbs (by omega),
          inRange_of_natAbs (by omega), .inr ⟨h0, inRange_of_natAbs (by omega), rfl⟩⟩
        rw [this]
        exact ⟨((add_spec x y hx.wf.denom_pos hy.wf.denom_pos).of_ok this).1, by simp only; omega, e3⟩
    neg := by
      intro p q x hx h1 h2
      have a1 := hx.numer
      have a2 := hx.denom
      have a3 := hx.wf.denom_pos
      change Spec _ (Rational.sub .debug ZERO x) _
      by_cases h0 : x.numer = 0
      · rw [(C84_sub ZERO x ZERO).mpr ⟨inRange_of_natAbs (by simp [ZERO]), inRange_of_natAbs (by simp [ZERO, h0]),
          inRange_of_natAbs (by simp [ZERO, h0]), .inl ⟨by simp [ZERO, h0], rfl⟩⟩]
        refine ⟨⟨by decide, by decide⟩, by simp [ZERO], ?_⟩
        change 1 ≤ _
        omega
      · have e : ZERO.numer * x.denom - x.numer * ZERO.denom = -x.numer := by
          change 0 * x.denom - x.numer * 1 = _
          ring
        have e' : ZERO.denom * x.denom = x.denom := one_mul _
        have := (C84_sub ZERO x _).mpr ⟨inRange_of_natAbs (by simp [ZERO]),
          inRange_of_natAbs (by change (x.numer * 1).natAbs < _; rw [mul_one]; omega),
          inRange_of_natAbs (by rw [e]; omega),
          .inr ⟨by rw [e]; omega, inRange_of_natAbs (by rw [e']; omega), rfl⟩⟩
        rw [this]
        refine ⟨((sub_spec ZERO x (by decide) a3).of_ok this).1, ?_, ?_⟩
        · simp only [e]; omega
        · simp only [e']; omega
    recip := by
      intro p q x hx h1 h2 h0
      have hx0 : x.numer ≠ 0 := by
        intro h
        have : x = ZERO := by
          have := hx.wf.zero_canon h
          cases x; simp_all [ZERO]
        rw [this] at h0
        revert h0
        decide
      have a1 := hx.numer
      have a2 := hx.denom
      obtain ⟨z, hz, hw, z1, z2⟩ := new_size (n := x.denom) (d := x.numer) (by omega) (by omega) hx0
      have : Rational.div .debug ONE x = .ok z := by
        unfold Rational.div Integer.mul
        rw [show ONE.numer * x.denom = x.denom from one_mul _,
          show ONE.denom * x.numer = x.numer from one_mul _,
          I64.norm_eq (inRange_of_natAbs (by omega)), bind_ok,
          I64.norm_eq (inRange_of_natAbs (by omega)), bind_ok, hz]
      change Spec _ (Rational.div .debug ONE x) _
      rw [this]
      exact ⟨hw, by omega, by omega⟩
    eps := fun x y => trivial
    stab := by
      intro p q x y hx hy h
      change Spec _ (stabilityCmp .debug x y) _
      have a1 := hx.numer
      have a2 := hx.denom
      have a3 := hy.numer
      have a4 := hy.denom
      unfold stabilityCmp Integer.abs Integer.add
      split
      · exact nofun
      split
      · exact nofun
      rw [I64.norm_eq (inRange_of_natAbs (by omega)), bind_ok,
        I64.norm_eq (inRange_of_natAbs (by omega)), bind_ok,
        I64.norm_eq (inRange_of_natAbs (by omega)), bind_ok,
        I64.norm_eq (inRange_of_natAbs (by omega)), bind_ok,
        I64.norm_eq (inRange_of_natAbs (by omega)), bind_ok,
        I64.norm_eq (inRange_of_natAbs (by omega)), bind_ok]
      exact nofun }

end Rational

/-! ### C161 -/

namespace Rational

/-- `M` is an `n × m` matrix of fractions that are stored properly (positive denominators, zero as
`0/1`), with numerators up to `p` in absolute value and denominators up to `q`. -/
def Bounded (M : Mat Rational) (n m p q : ℕ) : Prop :=
  ∃ a : ℕ → ℕ → Rational, M.Has n m a ∧
    ∀ i j, i < n → j < m → WF (a i j) ∧ |(a i j).numer| ≤ p ∧ (a i j).denom ≤ q

/-- As `Bounded`, with a bound for each row. -/
def RowBounded (M : Mat Rational) (n m : ℕ) (γ : ℕ → ℕ) : Prop :=
  ∃ a : ℕ → ℕ → Rational, M.Has n m a ∧
    ∀ i j, i < n → j < m → WF (a i j) ∧ |(a i j).numer| ≤ γ i ∧ (a i j).denom ≤ γ i

theorem Bounded.each {M : Mat Rational} {n m p q : ℕ} (h : Bounded M n m p q) :
    M.Each n m (fun _ _ => Size p q) := by
  obtain ⟨a, h1, h2⟩ := h
  refine ⟨a, h1, fun i j hi hj => ?_⟩
  obtain ⟨h3, h4, h5⟩ := h2 i j hi hj
  rw [Int.abs_eq_natAbs] at h4
  exact ⟨h3, by omega, by have := h3.denom_pos; omega⟩

theorem RowBounded.of_each {M : Mat Rational} {n m : ℕ} {γ : ℕ → ℕ}
    (h : M.Each n m (fun i _ => Size (γ i) (γ i))) : RowBounded M n m γ := by
  obtain ⟨a, h1, h2⟩ := h
  refine ⟨a, h1, fun i j hi hj => ?_⟩
  obtain ⟨h3, h4, h5⟩ := h2 i j hi hj
  exact ⟨h3, by rw [Int.abs_eq_natAbs]; omega, by omega⟩

theorem RowBounded.each {M : Mat Rational} {n m : ℕ} {γ : ℕ → ℕ} (h : RowBounded M n m γ) :
    M.Each n m (fun i _ => Size (γ i) (γ i)) := by
  obtain ⟨a, h1, h2⟩ := h
  refine ⟨a, h1, fun i j hi hj => ?_⟩
  obtain ⟨h3, h4, h5⟩ := h2 i j hi hj
  rw [Int.abs_eq_natAbs] at h4
  exact ⟨h3, by omega, by have := h3.denom_pos; omega⟩

/-- **C161 (row_echelon).** With `elimBound` the recursion `(P, Q) ↦ (2 P² Q², P Q³)` started at the
bounds `(p, q)` of the entries, and `rowBound` the product of the two: if `rowBound` after
`min (n-1) m` steps is below `2^63 - 1`, then `row_echelon` returns, in debug builds and in release
builds the same, and in row `i` of the echelon form and of the transformation no numerator or
denominator exceeds `rowBound` after `i` steps. -/
theorem C161_row_echelon {M : Mat Rational} {n m p q : ℕ} (hp : 0 < p) (hq : 0 < q)
    (hM : Bounded M n m p q) (hL : rowBound p q (min (n - 1) m) + 1 < 2 ^ 63)
    (hn : n * n < 2 ^ 64) :
    ∃ f, @Mat.rowEchelon _ (field .debug) _ (stability .debug) M = .ok f ∧
      @Mat.rowEchelon _ (field .release) _ (stability .release) M = .ok f ∧ f.original = M ∧
      RowBounded f.p n n (rowBound p q) ∧ RowBounded f.b n m (rowBound p q) := by
  let _ := field .debug
  let _ := stability .debug
  obtain ⟨f, hf, h1, h2, h3⟩ := (Mat.rowEchelon_sized sizes hp hq hL hn hM.each).total
  exact ⟨f, hf, (C76_elimination M ⟨M, M, M⟩ id).2.1 f hf, h1, .of_each h2, .of_each h3⟩

/-- **C161 (lu).** Under the same condition `lu` returns, the same in both builds; the entries in column
`j` of `l` have numerators and denominators up to `elimBound` after `j` steps. -/
theorem C161_lu {M : Mat Rational} {n m p q : ℕ} (hp : 0 < p) (hq : 0 < q)
    (hM : Bounded M n m p q) (hL : rowBound p q (min (n - 1) m) + 1 < 2 ^ 63)
    (hn : n * n < 2 ^ 64) :
    ∃ d, @Mat.lu _ (field .debug) _ (stability .debug) M = .ok d ∧
      @Mat.lu _ (field .release) _ (stability .release) M = .ok d ∧
      RowBounded d.u n m (rowBound p q) ∧
      ∃ a : ℕ → ℕ → Rational, d.l.Has n n a ∧ ∀ i j, i < n → j < n → WF (a i j) ∧
        |(a i j).numer| ≤ (elimBound p q j).1 ∧ (a i j).denom ≤ (elimBound p q j).2 := by
  let _ := field .debug
  let _ := stability .debug
  obtain ⟨d, hd, ⟨a, h1, h1'⟩, h2⟩ := (Mat.lu_sized sizes hp hq hL hn hM.each).total
  refine ⟨d, hd, (C76_elimination M ⟨M, M, M⟩ id).1 d hd, .of_each h2, a, h1, fun i j hi hj => ?_⟩
  obtain ⟨h3, h4, h5⟩ := h1' i j hi hj
  exact ⟨h3, by rw [Int.abs_eq_natAbs]; omega, by omega⟩

/-- **C161 (to_rref).** Bounds for the reduction of what `row_echelon` returned: it returns, the same
in both builds, if the recursion `rrefBound`, which clears the columns above the pivots from the last
row upwards, stays below `2^63`. -/
theorem C161_to_rref {f : Form Rational} {n m : ℕ} {γ : ℕ → ℕ} (hγ : ∀ i, 0 < γ i)
    (hP : RowBounded f.p n n γ) (hB : RowBounded f.b n m γ)
    (hL : ∀ i, i < n → rrefBound γ n (n - 1) i < 2 ^ 63) :
    ∃ g, @Form.toRref _ (field .debug) _ f = .ok g ∧ @Form.toRref _ (field .release) _ f = .ok g ∧
      g.original = f.original ∧ RowBounded g.p n n (rrefBound γ n (n - 1)) ∧
      RowBounded g.b n m (rrefBound γ n (n - 1)) := by
  let _ := field .debug
  let _ := stability .debug
  obtain ⟨g, hg, h1, h2, h3⟩ := (Form.toRref_sized sizes hγ hL hP.each hB.each).total
  exact ⟨g, hg, (C76_elimination f.b f id).2.2.1 g hg, h1, .of_each h2, .of_each h3⟩

/-- **C161 (compute_kernel).** -/
theorem C161_compute_kernel {f : Form Rational} {n m : ℕ} {γ : ℕ → ℕ}
    (hB : RowBounded f.b n m γ) (hL : ∀ i, i < n → γ i < 2 ^ 63) :
    ∃ vs, @Form.computeKernel _ (field .debug) _ f = .ok vs ∧
      @Form.computeKernel _ (field .release) _ f = .ok vs := by
  let _ := field .debug
  let _ := stability .debug
  obtain ⟨g, hg, -⟩ := (Form.computeKernel_sized sizes hL hB.each).total
  exact ⟨g, hg, (C76_elimination f.b f id).2.2.2.2.2.1 g hg⟩

/-- **C161 for integer matrices.** `row_echelon` and `lu` return, the same in both builds, for every
matrix of integers with any number of columns and two rows and entries up to 1664510, three rows and
entries up to 41, four rows and entries up to 2, five rows and entries up to 1. -/
theorem C161_integers {M : Mat Rational} {n m p : ℕ} (hM : Bounded M n m p 1)
    (h : n ≤ 2 ∧ p ≤ 1664510 ∨ n ≤ 3 ∧ p ≤ 41 ∨ n ≤ 4 ∧ p ≤ 2 ∨ n ≤ 5 ∧ p ≤ 1) :
    (∃ f, @Mat.rowEchelon _ (field .debug) _ (stability .debug) M = .ok f ∧
      @Mat.rowEchelon _ (field .release) _ (stability .release) M = .ok f) ∧
    ∃ d, @Mat.lu _ (field .debug) _ (stability .debug) M = .ok d ∧
      @Mat.lu _ (field .release) _ (stability .release) M = .ok d := by
  have key : ∃ P, 0 < P ∧ p ≤ P ∧ rowBound P 1 (min (n - 1) m) + 1 < 2 ^ 63 := by
    have step : ∀ P N : ℕ, 0 < P → n ≤ N → rowBound P 1 (N - 1) + 1 < 2 ^ 63 →
        rowBound P 1 (min (n - 1) m) + 1 < 2 ^ 63 := fun P N hP hN hlt =>
      lt_of_le_of_lt (Nat.succ_le_succ (rowBound_mono hP one_pos (by omega))) hlt
    rcases h with ⟨h1, h2⟩ | ⟨h1, h2⟩ | ⟨h1, h2⟩ | ⟨h1, h2⟩
    · exact ⟨_, by norm_num, h2, step _ 2 (by norm_num) h1 (by decide)⟩
    · exact ⟨_, by norm_num, h2, step _ 3 (by norm_num) h1 (by decide)⟩
    · exact ⟨_, by norm_num, h2, step _ 4 (by norm_num) h1 (by decide)⟩
    · exact ⟨_, by norm_num, h2, step _ 5 (by norm_num) h1 (by decide)⟩
  obtain ⟨P, hP, hpP, hL⟩ := key
  have hM' : Bounded M n m P 1 := by
    obtain ⟨a, h1, h2⟩ := hM
    refine ⟨a, h1, fun i j hi hj => ?_⟩
    obtain ⟨h3, h4, h5⟩ := h2 i j hi hj
    exact ⟨h3, by omega, h5⟩
  have hn : n ≤ 5 := by omega
  have hnn : n * n < 2 ^ 64 := lt_of_le_of_lt (Nat.mul_le_mul hn hn) (by norm_num)
  obtain ⟨f, h1, h2, -⟩ := C161_row_echelon hP one_pos hM' hL hnn
  obtain ⟨d, h3, h4, -⟩ := C161_lu hP one_pos hM' hL hnn
  exact ⟨⟨f, h1, h2⟩, d, h3, h4⟩

/-- **C161 for integer matrices, reduced form and kernel.** `row_echelon`, `to_rref` and
`compute_kernel` one after the other return, the same in both builds, for every matrix of integers
with two rows and entries up to 4705 or three rows and entries up to 2. -/
theorem C161_kernel_integers {M : Mat Rational} {n m p : ℕ} (hM : Bounded M n m p 1)
    (h : n ≤ 2 ∧ p ≤ 4705 ∨ n ≤ 3 ∧ p ≤ 2) :
    ∃ f g vs, @Mat.rowEchelon _ (field .debug) _ (stability .debug) M = .ok f ∧
      @Form.toRref _ (field .debug) _ f = .ok g ∧ @Form.computeKernel _ (field .debug) _ g = .ok vs ∧
      @Mat.rowEchelon _ (field .release) _ (stability .release) M = .ok f ∧
      @Form.toRref _ (field .release) _ f = .ok g ∧
      @Form.computeKernel _ (field .release) _ g = .ok vs := by
  have key : ∃ P, 0 < P ∧ p ≤ P ∧ rowBound P 1 (min (n - 1) m) + 1 < 2 ^ 63 ∧
      ∀ i, i < n → rrefBound (rowBound P 1) n (n - 1) i < 2 ^ 63 := by
    have step : ∀ P N : ℕ, 0 < P → n ≤ N → rowBound P 1 (N - 1) + 1 < 2 ^ 63 →
        rowBound P 1 (min (n - 1) m) + 1 < 2 ^ 63 := fun P N hP hN hlt =>
      lt_of_le_of_lt (Nat.succ_le_succ (rowBound_mono hP one_pos (by omega))) hlt
    rcases h with ⟨h1, h2⟩ | ⟨h1, h2⟩
    · refine ⟨_, by norm_num, h2, step _ 2 (by norm_num) h1 (by decide), ?_⟩
      interval_cases n <;> decide
    · refine ⟨_, by norm_num, h2, step _ 3 (by norm_num) h1 (by decide), ?_⟩
      interval_cases n <;> decide
  obtain ⟨P, hP, hpP, hL, hR⟩ := key
  have hM' : Bounded M n m P 1 := by
    obtain ⟨a, h1, h2⟩ := hM
    refine ⟨a, h1, fun i j hi hj => ?_⟩
    obtain ⟨h3, h4, h5⟩ := h2 i j hi hj
    exact ⟨h3, by omega, h5⟩
  have hn : n ≤ 3 := by omega
  have hnn : n * n < 2 ^ 64 := lt_of_le_of_lt (Nat.mul_le_mul hn hn) (by norm_num)
  obtain ⟨f, h1, h2, -, h3, h4⟩ := C161_row_echelon hP one_pos hM' hL hnn
  obtain ⟨g, h5, h6, -, -, h7⟩ := C161_to_rref (fun i => rowBound_pos hP one_pos i) h3 h4 hR
  obtain ⟨vs, h8, h9⟩ := C161_compute_kernel h7 hR
  exact ⟨f, g, vs, h1, h5, h8, h2, h6, h9⟩

/-- A matrix of integers with two rows and one entry of absolute value 1664512. -/
def limit : Mat Rational :=
  ⟨[⟨1664511, 1⟩, ⟨1664507, 1⟩, ⟨-1664509, 1⟩, ⟨-1664512, 1⟩, ⟨1664512, 1⟩, ⟨1664508, 1⟩], 2, 3⟩

theorem limit_bounded : Bounded limit 2 3 1664512 1 := by
  refine ⟨fun i j => limit.entries.getD (i * 3 + j) ZERO,
    ⟨rfl, rfl, rfl, by norm_num, by norm_num, by norm_num, fun i j hi hj => ?_⟩, fun i j hi hj => ?_⟩
  · interval_cases i <;> interval_cases j <;> rfl
  · interval_cases i <;> interval_cases j <;> exact ⟨⟨by decide, by decide⟩, by decide, by decide⟩

/-- **C161, the bound for two rows is the best but for one.** With entries up to 1664512 in place of
1664510 both algorithms overflow on some matrix. -/
theorem C161_limit :
    Bounded limit 2 3 1664512 1 ∧
    @Mat.rowEchelon _ (field .debug) _ (stability .debug) limit = .panic .overflowI64 ∧
    @Mat.lu _ (field .debug) _ (stability .debug) limit = .panic .overflowI64 :=
  ⟨limit_bounded, by decide +kernel, by decide +kernel⟩

/-- The hypotheses hold for `(3 -4 41; 0 7 1; 5 5 2)`. -/
example : ∃ f, @Mat.rowEchelon _ (field .debug) _ (stability .debug)
    ⟨[⟨3, 1⟩, ⟨-4, 1⟩, ⟨41, 1⟩, ⟨0, 1⟩, ⟨7, 1⟩, ⟨1, 1⟩, ⟨5, 1⟩, ⟨5, 1⟩, ⟨2, 1⟩], 3, 3⟩ = .ok f := by
  refine (C161_integers (n := 3) (m := 3) (p := 41) ?_ (by omega)).1.imp fun f hf => hf.1
  refine ⟨fun i j => [⟨3, 1⟩, ⟨-4, 1⟩, ⟨41, 1⟩, ⟨0, 1⟩, ⟨7, 1⟩, ⟨1, 1⟩, ⟨5, 1⟩, ⟨5, 1⟩, ⟨2, 1⟩].getD
    (i * 3 + j) ZERO,
    ⟨rfl, rfl, rfl, by norm_num, by norm_num, by norm_num, fun i j hi hj => ?_⟩, fun i j hi hj => ?_⟩
  · interval_cases i <;> interval_cases j <;> rfl
  · interval_cases i <;> interval_cases j <;> exact ⟨⟨by decide, by decide⟩, by decide, by decide⟩

/-- Fractions: two rows with numerators up to 9 and denominators up to 4. -/
example : rowBound 9 4 1 + 1 < 2 ^ 63 := by decide

end Rational
end Verif
