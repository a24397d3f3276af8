import Verif.Props.Wrapping
import Verif.Props.OrdWrap
import Verif.Props.Surplus
import Verif.Proofs.Divide
import Verif.LinAlg.Algorithm
import Mathlib.Data.List.Lex
import Mathlib.Data.Prod.Lex
import Mathlib.Algebra.Order.Ring.Int
import Mathlib.Tactic.Linarith

/-!
# Properties C193 and C194: the loops behind the shortcuts of the model

Where a definition of the model is not the loop of the source or of the standard library but what it
computes, this file has the loop itself and proves that it does the same.
-/

namespace Verif
open Res

/-! ## `i64::pow`, `usize::pow` -/

namespace I64

theorem pow_out_mono {x : ℤ} {a b : ℕ} (hab : a ≤ b) (h : ¬ InRange (x ^ a)) : ¬ InRange (x ^ b) := by
  rcases Nat.eq_or_lt_of_le hab with rfl | hlt
  · exact h
  have hx : 2 ≤ |x| := by
    by_contra hx
    have : |x| = 0 ∨ |x| = 1 := by have := abs_nonneg x; omega
    apply h
    rcases this with h0 | h1
    · rw [abs_eq_zero.mp h0]
      rcases a with _ | a
      · decide
      · rw [zero_pow (Nat.succ_ne_zero a)]; decide
    · have := abs_pow x a
      rw [h1, one_pow, abs_eq (by norm_num)] at this
      rcases this with h | h <;> rw [h] <;> decide
  have h1 : 9223372036854775808 ≤ |x ^ a| := by
    unfold InRange at h
    rw [le_abs]
    omega
  have h2 : 2 * |x ^ a| ≤ |x ^ b| := by
    obtain ⟨d, rfl⟩ := Nat.exists_eq_add_of_lt hlt
    have hp : 1 ≤ |x| ^ d := one_le_pow₀ (by omega)
    rw [abs_pow, abs_pow, show a + d + 1 = a + (d + 1) by ring, pow_add, pow_succ]
    have h0 : 0 ≤ |x| ^ a := by positivity
    nlinarith [mul_le_mul hp hx (by norm_num) (by positivity)]
  unfold InRange
  intro h3
  have : |x ^ b| ≤ 9223372036854775808 := by rw [abs_le]; omega
  omega

end I64

namespace Integer

/-- `i64::pow` of the standard library for `exp > 0`: square and multiply.
`while exp > 1 { if exp & 1 == 1 { acc = acc * base; } exp /= 2; base = base * base; } acc * base` -/
def powLoop (b : Build) (base acc : ℤ) (exp : ℕ) : Res ℤ :=
  if exp ≤ 1 then mul b acc base
  else do
    let acc ← if exp % 2 = 1 then mul b acc base else pure acc
    let base ← mul b base base
    powLoop b base acc (exp / 2)
termination_by exp
decreasing_by omega

/-- `i64::pow` of the standard library. -/
def powStd (b : Build) (x : ℤ) (exp : ℕ) : Res ℤ := if exp = 0 then .ok 1 else powLoop b x 1 exp

theorem powLoop_debug (x : ℤ) (e i j : ℕ) (he : 0 < e) :
    powLoop .debug (x ^ j) (x ^ i) e = I64.norm .debug (x ^ (i + j * e)) := by
  induction e using Nat.strong_induction_on generalizing i j with
  | _ e ih =>
    have hbad : ∀ k, k ≤ i + j * e → ¬ I64.InRange (x ^ k) →
        I64.norm .debug (x ^ (i + j * e)) = .panic .overflowI64 := fun k hk h => by
      unfold I64.norm
      rw [if_neg (I64.pow_out_mono hk h)]
    have hn : ∀ {v : ℤ}, ¬ I64.InRange v → I64.norm .debug v = .panic .overflowI64 := fun h => by
      unfold I64.norm; rw [if_neg h]
    have hy : ∀ {v : ℤ}, I64.InRange v → I64.norm .debug v = .ok v := fun h => by
      unfold I64.norm; rw [if_pos h]
    rw [powLoop]
    split
    · obtain rfl : e = 1 := by omega
      unfold mul
      rw [mul_one, pow_add]
    · rename_i h1
      have hsq : x ^ j * x ^ j = x ^ (j * 2) := by rw [← pow_add]; congr 1; omega
      have key : ∀ i', i' + j * 2 * (e / 2) = i + j * e →
          (mul .debug (x ^ j) (x ^ j) >>= fun base => powLoop .debug base (x ^ i') (e / 2)) =
            I64.norm .debug (x ^ (i + j * e)) := by
        intro i' hi'
        unfold mul
        rw [hsq]
        by_cases hr : I64.InRange (x ^ (j * 2))
        · rw [hy hr, bind_ok, ih (e / 2) (by omega) _ _ (by omega), hi']
        · rw [hn hr, bind_panic, hbad _ _ hr]
          have : j * 2 ≤ j * e := Nat.mul_le_mul_left _ (by omega)
          omega
      split
      · rename_i h2
        have hm : mul .debug (x ^ i) (x ^ j) = I64.norm .debug (x ^ (i + j)) := by
          unfold mul; rw [pow_add]
        rw [hm]
        by_cases hr : I64.InRange (x ^ (i + j))
        · rw [hy hr, bind_ok]
          refine key (i + j) ?_
          have : e = 2 * (e / 2) + 1 := by omega
          conv_rhs => rw [this]
          ring
        · rw [hn hr, bind_panic, hbad _ _ hr]
          have : j * 1 ≤ j * e := Nat.mul_le_mul_left _ (by omega)
          omega
      · refine key i ?_
        have : e = 2 * (e / 2) := by omega
        conv_rhs => rw [this]
        ring

theorem powLoop_release (base acc : ℤ) (e : ℕ) (he : 0 < e) :
    powLoop .release base acc e = I64.norm .release (acc * base ^ e) := by
  have hw : ∀ {u v : ℤ}, u ≡ v [ZMOD 18446744073709551616] → I64.wrap u = I64.wrap v := fun {u v} h => by
    unfold I64.wrap
    rw [← Int.emod_bmod u, ← Int.emod_bmod v]
    exact congrArg (Int.bmod · 18446744073709551616) h
  induction e using Nat.strong_induction_on generalizing base acc with
  | _ e ih =>
    rw [powLoop]
    split
    · obtain rfl : e = 1 := by omega
      unfold mul
      rw [pow_one]
    · rename_i h1
      have hb : ∀ acc', acc' ≡ acc * base ^ (e % 2) [ZMOD 18446744073709551616] →
          (mul .release base base >>= fun base => powLoop .release base acc' (e / 2)) =
            I64.norm .release (acc * base ^ e) := by
        intro acc' ha
        unfold mul
        rw [I64.norm_release, bind_ok, ih (e / 2) (by omega) _ _ (by omega), I64.norm_release,
          I64.norm_release]
        refine congrArg Res.ok (hw ?_)
        have := ha.mul ((I64.wrap_modEq (base * base)).pow (e / 2))
        have he : e = e % 2 + 2 * (e / 2) := by omega
        have h : acc * base ^ (e % 2) * (base * base) ^ (e / 2) = acc * base ^ e := by
          conv_rhs => rw [he, pow_add, pow_mul]
          ring
        rwa [h] at this
      split
      · rename_i h2
        dsimp only
        rw [show mul .release acc base = .ok (I64.wrap (acc * base)) from I64.norm_release _, bind_ok]
        refine hb _ ?_
        rw [h2, pow_one]
        exact I64.wrap_modEq _
      · rename_i h2
        refine hb _ ?_
        rw [show e % 2 = 0 by omega, pow_zero, mul_one]

/-- C194. The model of `Integer::pow` is the loop of `i64::pow` in both builds: an intermediate product leaves
the range only if the result does. -/
theorem _root_.Verif.C194_pow (b : Build) (x exp : ℤ) : powStd b x (asU32 exp) = pow b x exp := by
  unfold powStd pow
  split
  · rename_i h
    rw [h, pow_zero]
    unfold I64.norm
    rw [if_pos (by decide)]
  · rename_i h
    cases b with
    | debug =>
      have := powLoop_debug x (asU32 exp) 0 1 (Nat.pos_of_ne_zero h)
      rwa [pow_one, pow_zero, zero_add, one_mul] at this
    | release =>
      have := powLoop_release x 1 (asU32 exp) (Nat.pos_of_ne_zero h)
      rwa [one_mul] at this

/-! ## `gcd` -/

/-- int.rs:71-75, one iteration of `while b != 0 { t = b; b = a % b; a = t; }`. -/
def gcdStep (s : ℤ × ℤ) : Res (ℤ × ℤ ⊕ ℤ) :=
  if s.2 = 0 then .ok (.inr s.1)
  else do
    let r ← rem s.1 s.2
    pure (.inl (s.2, r))

/-- The bounded loop of the model is the unbounded loop of the source. -/
theorem gcdLoop_eq (n : ℕ) (a b : ℤ) (h : b.natAbs < n) : Res.loop gcdStep (a, b) = gcdLoop n a b := by
  induction n generalizing a b with
  | zero => omega
  | succ n ih =>
    rw [loop_unfold, gcdLoop]
    unfold gcdStep
    dsimp only
    split
    · rfl
    · rename_i hb
      unfold rem
      rw [if_neg hb]
      split
      · rfl
      · rw [bind_ok]
        refine ih _ _ ?_
        rw [Int.natAbs_tmod]
        have := Nat.mod_lt a.natAbs (Int.natAbs_pos.2 hb)
        omega

/-- C194. `Integer::gcd` is the loop of the source, whose number of iterations nothing bounds. -/
theorem _root_.Verif.C194_gcd (bd : Build) (a b : ℤ) : gcd bd a b = Res.loop gcdStep (a, b) >>= abs bd := by
  unfold gcd
  rw [gcdLoop_eq _ a b (Nat.lt_succ_self _)]

end Integer

namespace Usize

/-- `usize::pow` of the standard library for `exp > 0`; see `Integer.powLoop`. -/
def powLoop (b : Build) (base acc exp : ℕ) : Res ℕ :=
  if exp ≤ 1 then mul b acc base
  else do
    let acc ← if exp % 2 = 1 then mul b acc base else pure acc
    let base ← mul b base base
    powLoop b base acc (exp / 2)
termination_by exp
decreasing_by omega

/-- `usize::pow` of the standard library. -/
def powStd (b : Build) (x exp : ℕ) : Res ℕ := if exp = 0 then .ok 1 else powLoop b x 1 exp

theorem pow_out_mono {x a b : ℕ} (hab : a ≤ b) (h : ¬ x ^ a < 18446744073709551616) :
    ¬ x ^ b < 18446744073709551616 := by
  have hx : 0 < x := by
    rcases Nat.eq_zero_or_pos x with rfl | hx
    · exfalso
      apply h
      rcases a with _ | a
      · norm_num
      · rw [zero_pow (Nat.succ_ne_zero a)]; norm_num
    · exact hx
  have := Nat.pow_le_pow_right hx hab
  omega

theorem powLoop_debug (x e i j : ℕ) (he : 0 < e) :
    powLoop .debug (x ^ j) (x ^ i) e = norm .debug (x ^ (i + j * e)) := by
  induction e using Nat.strong_induction_on generalizing i j with
  | _ e ih =>
    have hn : ∀ {v : ℕ}, ¬ v < 18446744073709551616 → norm .debug v = .panic .overflowUsize :=
      fun h => by unfold norm; rw [if_neg h]
    have hy : ∀ {v : ℕ}, v < 18446744073709551616 → norm .debug v = .ok v := fun h => by
      unfold norm; rw [if_pos h]
    have hbad : ∀ k, k ≤ i + j * e → ¬ x ^ k < 18446744073709551616 →
        norm .debug (x ^ (i + j * e)) = .panic .overflowUsize := fun k hk h =>
      hn (pow_out_mono hk h)
    rw [powLoop]
    split
    · obtain rfl : e = 1 := by omega
      unfold mul
      rw [mul_one, pow_add]
    · rename_i h1
      have hsq : x ^ j * x ^ j = x ^ (j * 2) := by rw [← pow_add]; congr 1; omega
      have key : ∀ i', i' + j * 2 * (e / 2) = i + j * e →
          (mul .debug (x ^ j) (x ^ j) >>= fun base => powLoop .debug base (x ^ i') (e / 2)) =
            norm .debug (x ^ (i + j * e)) := by
        intro i' hi'
        unfold mul
        rw [hsq]
        by_cases hr : x ^ (j * 2) < 18446744073709551616
        · rw [hy hr, bind_ok, ih (e / 2) (by omega) _ _ (by omega), hi']
        · rw [hn hr, bind_panic, hbad _ _ hr]
          have : j * 2 ≤ j * e := Nat.mul_le_mul_left _ (by omega)
          omega
      split
      · rename_i h2
        have hm : mul .debug (x ^ i) (x ^ j) = norm .debug (x ^ (i + j)) := by
          unfold mul; rw [pow_add]
        rw [hm]
        by_cases hr : x ^ (i + j) < 18446744073709551616
        · rw [hy hr, bind_ok]
          refine key (i + j) ?_
          have : e = 2 * (e / 2) + 1 := by omega
          conv_rhs => rw [this]
          ring
        · rw [hn hr, bind_panic, hbad _ _ hr]
          have : j * 1 ≤ j * e := Nat.mul_le_mul_left _ (by omega)
          omega
      · refine key i ?_
        have : e = 2 * (e / 2) := by omega
        conv_rhs => rw [this]
        ring

theorem norm_release (x : ℕ) : norm .release x = .ok (x % 18446744073709551616) := by
  unfold norm
  split
  · rw [Nat.mod_eq_of_lt (by assumption)]
  · rfl

theorem powLoop_release (base acc e : ℕ) (he : 0 < e) :
    powLoop .release base acc e = norm .release (acc * base ^ e) := by
  induction e using Nat.strong_induction_on generalizing base acc with
  | _ e ih =>
    rw [powLoop]
    split
    · obtain rfl : e = 1 := by omega
      unfold mul
      rw [pow_one]
    · rename_i h1
      have hb : ∀ acc', acc' ≡ acc * base ^ (e % 2) [MOD 18446744073709551616] →
          (mul .release base base >>= fun base => powLoop .release base acc' (e / 2)) =
            norm .release (acc * base ^ e) := by
        intro acc' ha
        unfold mul
        rw [norm_release, bind_ok, ih (e / 2) (by omega) _ _ (by omega), norm_release, norm_release]
        refine congrArg Res.ok ?_
        have := ha.mul ((Nat.mod_modEq (base * base) 18446744073709551616).pow (e / 2))
        have he : e = e % 2 + 2 * (e / 2) := by omega
        have h : acc * base ^ (e % 2) * (base * base) ^ (e / 2) = acc * base ^ e := by
          conv_rhs => rw [he, pow_add, pow_mul]
          ring
        rwa [h] at this
      split
      · rename_i h2
        dsimp only
        rw [show mul .release acc base = .ok ((acc * base) % 18446744073709551616) from
          norm_release _, bind_ok]
        refine hb _ ?_
        rw [h2, pow_one]
        exact Nat.mod_modEq _ _
      · rename_i h2
        refine hb _ ?_
        rw [show e % 2 = 0 by omega, pow_zero, mul_one]

/-- C194. The model of `usize::pow` is its loop in both builds. -/
theorem _root_.Verif.C194_usize_pow (b : Build) (x exp : ℕ) : powStd b x exp = pow b x exp := by
  unfold powStd pow
  split
  · rename_i h
    rw [h, pow_zero]
    rfl
  · rename_i h
    cases b with
    | debug =>
      have := powLoop_debug x exp 0 1 (Nat.pos_of_ne_zero h)
      rwa [pow_one, pow_zero, zero_add, one_mul] at this
    | release =>
      have := powLoop_release x 1 exp (Nat.pos_of_ne_zero h)
      rwa [one_mul] at this

end Usize

/-! ## `Polynomial + Term` -/

namespace Poly

variable {F : Type} [RField F]

/-- elts.rs:330-342 as written: `position`, then an update in place and `remove`, or `push`. -/
def addNonzeroTermAt (p : Poly F) (rhs : Term F) : Res (Poly F) :=
  match p.findIdx? fun t => decide (t.mdeg = rhs.mdeg) with
  | some i => do
    let t ← Mat.nth p i
    let c ← RField.add t.coef rhs.coef
    let terms := p.set i ⟨c, t.mdeg⟩
    let t ← Mat.nth terms i
    if t.isZero then pure (terms.eraseIdx i) else pure terms
  | none => .ok (p ++ [rhs])

/-- C194. Adding a term in one pass over the polynomial does the same as searching for its multidegree
and then changing the vector of terms at the index found. -/
theorem _root_.Verif.C194_add_term (p : Poly F) (rhs : Term F) :
    addNonzeroTermAt p rhs = addNonzeroTerm p rhs := by
  induction p with
  | nil => rfl
  | cons t ts ih =>
    unfold addNonzeroTermAt addNonzeroTerm
    rw [List.findIdx?_cons]
    by_cases h : t.mdeg = rhs.mdeg
    · rw [if_pos (by simpa using h), if_pos h]
      rfl
    · rw [if_neg (by simpa using h), if_neg h, ← ih]
      unfold addNonzeroTermAt
      cases ts.findIdx? fun t => decide (t.mdeg = rhs.mdeg) with
      | none => rfl
      | some i =>
        change (Mat.nth ts i >>= _) = (_ >>= _) >>= _
        rw [bind_assoc]
        congr 1
        funext s
        rw [bind_assoc]
        congr 1
        funext c
        change (Mat.nth (ts.set i ⟨c, s.mdeg⟩) i >>= _) = _
        rw [bind_assoc]
        congr 1
        funext u
        by_cases hu : u.isZero = true
        · rw [if_pos hu]; simp only [hu, if_true]; rfl
        · rw [if_neg hu]; simp only [hu]; rfl

end Poly

/-! ## Sorting -/

section
variable {α S : Type} [LinearOrder S]

theorem insertBy_stable {cmp : α → α → Res Ordering} (key : α → S) (x : α) (l : List α)
    (h : ∀ b ∈ l, cmp x b = .ok (compare (key x) (key b)))
    (hs : l.Pairwise fun a b => key a ≤ key b) :
    ∃ r, insertBy cmp x l = .ok r ∧ (∀ y ∈ r, y = x ∨ y ∈ l) ∧
      (r.Pairwise fun a b => key a ≤ key b) ∧
      ∀ s, r.filter (fun a => decide (key a = s)) =
        (l ++ [x]).filter (fun a => decide (key a = s)) := by
  induction l with
  | nil => exact ⟨[x], rfl, by simp, by simp, fun s => rfl⟩
  | cons y ys ih =>
    rw [List.pairwise_cons] at hs
    rw [insertBy, h y (by simp), bind_ok]
    have tail : key y ≤ key x → ∃ r, (do let ys' ← insertBy cmp x ys; pure (y :: ys')) = Res.ok r ∧
        (∀ z ∈ r, z = x ∨ z ∈ y :: ys) ∧ (r.Pairwise fun a b => key a ≤ key b) ∧
        ∀ s, r.filter (fun a => decide (key a = s)) =
          (y :: ys ++ [x]).filter (fun a => decide (key a = s)) := by
      intro hle
      obtain ⟨r, h1, h2, h3, h4⟩ := ih (fun b hb => h b (by simp [hb])) hs.2
      refine ⟨y :: r, by rw [h1]; rfl, ?_, ?_, ?_⟩
      · intro z hz
        rcases List.mem_cons.mp hz with rfl | hz
        · simp
        · rcases h2 z hz with h | h
          · exact .inl h
          · exact .inr (by simp [h])
      · rw [List.pairwise_cons]
        refine ⟨fun z hz => ?_, h3⟩
        rcases h2 z hz with rfl | h
        · exact hle
        · exact hs.1 z h
      · intro s
        rw [List.cons_append, List.filter_cons, List.filter_cons, h4]
    rcases lt_trichotomy (key x) (key y) with hlt | heq | hgt
    · rw [compare_lt_iff_lt.mpr hlt]
      refine ⟨x :: y :: ys, rfl, by simp, ?_, ?_⟩
      · rw [List.pairwise_cons, List.pairwise_cons]
        refine ⟨fun z hz => ?_, hs⟩
        rcases List.mem_cons.mp hz with rfl | hz
        · exact hlt.le
        · exact hlt.le.trans (hs.1 z hz)
      · intro s
        rw [List.filter_append, List.filter_cons]
        by_cases hx : key x = s
        · have : (y :: ys).filter (fun a => decide (key a = s)) = [] := by
            rw [List.filter_eq_nil_iff]
            intro a ha
            have : key x < key a := by
              rcases List.mem_cons.mp ha with rfl | ha
              · exact hlt
              · exact lt_of_lt_of_le hlt (hs.1 a ha)
            simp only [decide_eq_true_eq]
            exact fun h => absurd (hx.trans h.symm) this.ne
          rw [this]
          simp [hx]
        · simp [hx]
    · rw [compare_eq_iff_eq.mpr heq]; exact tail heq.ge
    · rw [compare_gt_iff_gt.mpr hgt]; exact tail hgt.le

/-- The sort of the model puts the elements in ascending order and keeps elements that compare equal in
the order they had. -/
theorem sortBy_stable {cmp : α → α → Res Ordering} (key : α → S) (l : List α)
    (h : ∀ a ∈ l, ∀ b ∈ l, cmp a b = .ok (compare (key a) (key b))) :
    ∃ r, sortBy cmp l = .ok r ∧ (r.Pairwise fun a b => key a ≤ key b) ∧
      ∀ s, r.filter (fun a => decide (key a = s)) = l.filter (fun a => decide (key a = s)) := by
  have aux : ∀ (l acc done : List α), (∀ x ∈ l, ∀ b, b ∈ l ∨ b ∈ acc →
      cmp x b = .ok (compare (key x) (key b))) → (acc.Pairwise fun a b => key a ≤ key b) →
      (∀ s, acc.filter (fun a => decide (key a = s)) = done.filter (fun a => decide (key a = s))) →
      ∃ r, l.foldlM (fun acc x => insertBy cmp x acc) acc = .ok r ∧
        (r.Pairwise fun a b => key a ≤ key b) ∧
        ∀ s, r.filter (fun a => decide (key a = s)) =
          (done ++ l).filter (fun a => decide (key a = s)) := by
    intro l
    induction l with
    | nil => intro acc done _ hs hf; exact ⟨acc, rfl, hs, by simpa using hf⟩
    | cons x l ih =>
      intro acc done hc hs hf
      obtain ⟨r, h1, h2, h3, h4⟩ := insertBy_stable key x acc (fun b hb => hc x (by simp) b (.inr hb)) hs
      obtain ⟨r', h1', h3', h4'⟩ := ih r (done ++ [x]) (fun y hy b hb => hc y (by simp [hy]) b (by
        rcases hb with hb | hb
        · exact .inl (by simp [hb])
        · rcases h2 b hb with rfl | hb
          · exact .inl (by simp)
          · exact .inr hb)) h3 (fun s => by
            rw [h4, List.filter_append, List.filter_append, hf])
      refine ⟨r', by rw [List.foldlM_cons, h1, bind_ok, h1'], h3', fun s => ?_⟩
      rw [h4', List.append_assoc]; rfl
  obtain ⟨r, h1, h2, h3⟩ := aux l [] [] (fun x hx b hb => h x hx b (by simpa using hb)) (by simp)
    (fun _ => rfl)
  exact ⟨r, h1, h2, by simpa using h3⟩

/-- There is only one list that is in ascending order and keeps the elements of each key as they were;
so every stable sorting algorithm returns the same. -/
theorem stable_unique (key : α → S) (l r : List α)
    (hl : l.Pairwise fun a b => key a ≤ key b) (hr : r.Pairwise fun a b => key a ≤ key b)
    (h : ∀ s, l.filter (fun a => decide (key a = s)) = r.filter (fun a => decide (key a = s))) :
    l = r := by
  induction l generalizing r with
  | nil =>
    rcases r with _ | ⟨b, r⟩
    · rfl
    · have := h (key b)
      rw [List.filter_cons_of_pos (by simp)] at this
      cases this
  | cons a l ih =>
    rcases r with _ | ⟨b, r⟩
    · have := h (key a)
      rw [List.filter_cons_of_pos (by simp)] at this
      cases this
    · have mem : ∀ {x : α} {u v : List α}, x ∈ u →
          u.filter (fun a => decide (key a = key x)) = v.filter (fun a => decide (key a = key x)) →
          x ∈ v := fun {x u v} hx he => by
        have : x ∈ u.filter (fun a => decide (key a = key x)) := by simp [hx]
        rw [he] at this
        exact List.mem_of_mem_filter this
      have hab : key a ≤ key b := by
        rcases List.mem_cons.mp (mem (x := b) (List.mem_cons_self) (h _).symm) with rfl | hb
        · exact le_refl _
        · exact (List.pairwise_cons.mp hl).1 b hb
      have hba : key b ≤ key a := by
        rcases List.mem_cons.mp (mem (x := a) (List.mem_cons_self) (h _)) with rfl | hb
        · exact le_refl _
        · exact (List.pairwise_cons.mp hr).1 a hb
      have hk := le_antisymm hab hba
      obtain rfl : a = b := by
        have := h (key a)
        rw [List.filter_cons_of_pos (by simp), List.filter_cons_of_pos (by simp [hk])] at this
        exact (List.cons.inj this).1
      refine congrArg (a :: ·) (ih r (List.pairwise_cons.mp hl).2 (List.pairwise_cons.mp hr).2 ?_)
      intro s
      have := h s
      rw [List.filter_cons, List.filter_cons] at this
      split at this
      · exact (List.cons.inj this).2
      · exact this

end

/-- The comparison of a linear order (the instance `Ord` of lists and pairs may be another one). -/
def ordOf {S : Type} [LinearOrder S] (a b : S) : Ordering := compare a b

theorem ordOf_lt {S : Type} [LinearOrder S] {a b : S} (h : a < b) : ordOf a b = .lt :=
  compare_lt_iff_lt.mpr h

theorem ordOf_gt {S : Type} [LinearOrder S] {a b : S} (h : b < a) : ordOf a b = .gt :=
  compare_gt_iff_gt.mpr h

theorem ordOf_self {S : Type} [LinearOrder S] (a : S) : ordOf a a = .eq := compare_eq_iff_eq.mpr rfl

theorem MOrder.lexCmp_eq_ordOf (a b : List ℕ) : lexCmp a b = ordOf a b := by
  induction a generalizing b with
  | nil =>
    cases b with
    | nil => exact (ordOf_self ([] : List ℕ)).symm
    | cons y b => exact (ordOf_lt (List.nil_lt_cons y b)).symm
  | cons x a ih =>
    cases b with
    | nil => exact (ordOf_gt (List.nil_lt_cons x a)).symm
    | cons y b =>
      rw [lexCmp]
      rcases lt_trichotomy x y with h | rfl | h
      · rw [Nat.compare_eq_lt.mpr h, ordOf_lt (List.cons_lt_cons_iff.mpr (.inl h))]
      · rw [Nat.compare_eq_eq.mpr rfl]
        dsimp only
        rw [ih]
        rcases lt_trichotomy a b with h | rfl | h
        · rw [ordOf_lt h, ordOf_lt (List.cons_lt_cons_iff.mpr (.inr ⟨rfl, h⟩))]
        · rw [ordOf_self, ordOf_self]
        · rw [ordOf_gt h, ordOf_gt (List.cons_lt_cons_iff.mpr (.inr ⟨rfl, h⟩))]
      · rw [Nat.compare_eq_gt.mpr h, ordOf_gt (List.cons_lt_cons_iff.mpr (.inl h))]

theorem ordOf_toLex {A B : Type} [LinearOrder A] [LinearOrder B] (a a' : A) (b b' : B) :
    ordOf (toLex (a, b)) (toLex (a', b')) = (ordOf a a').then (ordOf b b') := by
  rcases lt_trichotomy a a' with h | rfl | h
  · rw [ordOf_lt h, ordOf_lt (Prod.Lex.toLex_lt_toLex.mpr (.inl h))]; rfl
  · rw [ordOf_self]
    rcases lt_trichotomy b b' with h | rfl | h
    · rw [ordOf_lt h, ordOf_lt (show toLex (a, b) < toLex (a, b') from
        Prod.Lex.toLex_lt_toLex.mpr (.inr ⟨by simp, h⟩))]; rfl
    · rw [ordOf_self, ordOf_self]; rfl
    · rw [ordOf_gt h, ordOf_gt (show toLex (a, b') < toLex (a, b) from
        Prod.Lex.toLex_lt_toLex.mpr (.inr ⟨by simp, h⟩))]; rfl
  · rw [ordOf_gt h, ordOf_gt (Prod.Lex.toLex_lt_toLex.mpr (.inl h))]; rfl

theorem MOrder.firstDiff_zip (a b : List ℕ) (h : a.length = b.length) :
    firstDiff (a.zip b) = lexCmp a b := by
  induction a generalizing b with
  | nil => cases b with
    | nil => rfl
    | cons y b => cases h
  | cons x a ih =>
    cases b with
    | nil => cases h
    | cons y b =>
      rw [List.zip_cons_cons, firstDiff, lexCmp, ih b (Nat.succ.inj h)]

theorem MOrder.revLexCmp_eq_ordOf (a b : List ℕ) :
    revLexCmp a b = ordOf (toLex (a.length, a.reverse)) (toLex (b.length, b.reverse)) := by
  rw [ordOf_toLex]
  unfold revLexCmp MDeg.len
  rcases lt_trichotomy a.length b.length with h | h | h
  · rw [Nat.compare_eq_lt.mpr h, ordOf_lt h]; rfl
  · rw [Nat.compare_eq_eq.mpr h, h, ordOf_self]
    dsimp only [Ordering.then]
    rw [List.zip, List.reverse_zipWith h, ← List.zip, firstDiff_zip _ _ (by simpa using h), lexCmp_eq_ordOf]
  · rw [Nat.compare_eq_gt.mpr h, ordOf_gt h]; rfl

theorem ordOf_toDual {A : Type} [LinearOrder A] (a b : A) :
    ordOf (OrderDual.toDual a) (OrderDual.toDual b) = (ordOf a b).swap := by
  rcases lt_trichotomy a b with h | rfl | h
  · rw [ordOf_lt h, ordOf_gt (show OrderDual.toDual b < OrderDual.toDual a from h)]; rfl
  · rw [ordOf_self, ordOf_self]; rfl
  · rw [ordOf_gt h, ordOf_lt (show OrderDual.toDual a < OrderDual.toDual b from h)]; rfl

theorem MDeg.totalDeg_debug (a : MDeg) (h : a.sum < 256) : a.totalDeg .debug = .ok a.sum := by
  have key : ∀ (l : List Nat) (acc : Nat), acc + l.sum < 256 →
      l.foldlM (fun acc d => U8.norm .debug (acc + d)) acc = .ok (acc + l.sum) := by
    intro l
    induction l with
    | nil => intro acc _; rfl
    | cons d l ih =>
      intro acc h
      rw [List.sum_cons] at h
      rw [List.foldlM_cons, U8.norm, if_pos (by omega), bind_ok, ih _ (by omega), List.sum_cons]
      congr 1
      omega
  have := key a 0 (by omega)
  rwa [Nat.zero_add] at this

/-- Each of the four comparisons orders the multidegrees, trimmed or not, by a key. -/
theorem OrdKind.exists_key (k : OrdKind) (bd : Build) :
    ∃ (S : Type) (_ : LinearOrder S) (key : MDeg → S), Function.Injective key ∧
      ∀ a b : MDeg, (bd = .release ∨ k.graded = false ∨ a.sum < 256 ∧ b.sum < 256) →
        (k.order bd).cmp a b = .ok (ordOf (key a) (key b)) := by
  have ht : ∀ a : MDeg, (bd = .release ∨ a.sum < 256) → a.totalDeg bd = .ok (a.sum % 256) := by
    intro a h
    cases bd with
    | release => exact MDeg.totalDeg_release a
    | debug =>
      have := h.resolve_left nofun
      rw [MDeg.totalDeg_debug a this, Nat.mod_eq_of_lt this]
  have hrev : Function.Injective fun a : MDeg => toLex (a.length, a.reverse) := fun a b h =>
    List.reverse_injective (congrArg (fun p => (ofLex p).2) h)
  have hg : ∀ a b : MDeg, (bd = .release ∨ true = false ∨ a.sum < 256 ∧ b.sum < 256) →
      MOrder.grad bd a b = .ok (ordOf (a.sum % 256) (b.sum % 256)) := by
    intro a b h
    unfold MOrder.grad
    rw [ht a (by tauto), ht b (by tauto)]; rfl
  cases k with
  | lex =>
    exact ⟨List ℕ, inferInstance, id, fun _ _ h => h, fun a b _ =>
      congrArg Res.ok (MOrder.lexCmp_eq_ordOf a b)⟩
  | revLex =>
    exact ⟨_, inferInstance, fun a : MDeg => toLex (a.length, a.reverse), hrev, fun a b _ =>
      congrArg Res.ok (MOrder.revLexCmp_eq_ordOf a b)⟩
  | grLex =>
    refine ⟨ℕ ×ₗ List ℕ, inferInstance, fun a => toLex (a.sum % 256, a), fun a b h =>
      congrArg (fun p => (ofLex p).2) h, fun a b h => ?_⟩
    change (MOrder.grad bd a b >>= _) = _
    rw [hg a b h, bind_ok, ordOf_toLex]
    cases ordOf (a.sum % 256) (b.sum % 256)
    · rfl
    · exact congrArg Res.ok (MOrder.lexCmp_eq_ordOf a b)
    · rfl
  | gRevLex =>
    refine ⟨ℕ ×ₗ (ℕ ×ₗ List ℕ)ᵒᵈ, inferInstance,
      fun a => toLex (a.sum % 256, OrderDual.toDual (toLex (a.length, a.reverse))), fun a b h =>
      hrev (congrArg (fun p => OrderDual.ofDual (ofLex p).2) h), fun a b h => ?_⟩
    change (MOrder.grad bd a b >>= _) = _
    rw [hg a b h, bind_ok, ordOf_toLex, ordOf_toDual]
    cases ordOf (a.sum % 256) (b.sum % 256)
    · rfl
    · exact congrArg (fun o : Ordering => Res.ok o.swap) (MOrder.revLexCmp_eq_ordOf a b)
    · rfl

/-- C193. `sort_terms` returns the one list of terms that is ascending and in which the terms of each
multidegree are those of the polynomial, in the order they have there: also for polynomials that are
not canonical, and also without overflow checks, when total degrees wrap around. -/
theorem C193_sort_terms {F : Type} (k : OrdKind) (bd : Build) (f : Poly F)
    (h : bd = .release ∨ k.graded = false ∨ ∀ t ∈ f, t.mdeg.sum < 256) :
    ∃ r, Computer.sortTerms (k.order bd) f = .ok r ∧ ∀ r' : Poly F, r' = r ↔
      (r'.Pairwise fun s t => (k.order bd).cmp s.mdeg t.mdeg = .ok .lt ∨ s.mdeg = t.mdeg) ∧
      ∀ m, r'.filter (fun t => decide (t.mdeg = m)) = f.filter (fun t => decide (t.mdeg = m)) := by
  obtain ⟨S, _, key, hinj, hkey⟩ := k.exists_key bd
  have hk : ∀ s ∈ f, ∀ t ∈ f, (k.order bd).cmp s.mdeg t.mdeg =
      .ok (compare (key s.mdeg) (key t.mdeg)) := by
    intro s hs t ht
    refine hkey _ _ ?_
    rcases h with h | h | h
    · exact .inl h
    · exact .inr (.inl h)
    · exact .inr (.inr ⟨h s hs, h t ht⟩)
  have hmem : ∀ r' : Poly F, (∀ m, r'.filter (fun t => decide (t.mdeg = m)) =
      f.filter (fun t => decide (t.mdeg = m))) → ∀ t ∈ r', t ∈ f := by
    intro r' hr t ht
    have : t ∈ r'.filter (fun u => decide (u.mdeg = t.mdeg)) := by simp [ht]
    rw [hr] at this
    exact List.mem_of_mem_filter this
  have hpw : ∀ r' : Poly F, (∀ t ∈ r', t ∈ f) →
      ((r'.Pairwise fun s t => (k.order bd).cmp s.mdeg t.mdeg = .ok .lt ∨ s.mdeg = t.mdeg) ↔
      r'.Pairwise fun s t => key s.mdeg ≤ key t.mdeg) := by
    intro r' hr
    refine List.Pairwise.iff_of_mem fun {s t} hs ht => ?_
    rw [hk s (hr s hs) t (hr t ht), le_iff_lt_or_eq, hinj.eq_iff, ← compare_lt_iff_lt]
    simp
  have hfil : ∀ r' : Poly F, (∀ m, r'.filter (fun t => decide (t.mdeg = m)) =
      f.filter (fun t => decide (t.mdeg = m))) ↔ ∀ s, r'.filter (fun t => decide (key t.mdeg = s)) =
      f.filter (fun t => decide (key t.mdeg = s)) := by
    intro r'
    constructor
    · intro hr s
      by_cases hs : ∃ m, key m = s
      · obtain ⟨m, rfl⟩ := hs
        simp only [hinj.eq_iff]
        exact hr m
      · have : ∀ t : Term F, decide (key t.mdeg = s) = false := fun t => by
          simp only [decide_eq_false_iff_not]
          exact fun h => hs ⟨_, h⟩
        simp only [this, List.filter_false]
    · intro hr m
      have := hr (key m)
      simpa only [hinj.eq_iff] using this
  obtain ⟨r, h1, h2, h3⟩ := sortBy_stable (cmp := fun s t : Term F => (k.order bd).cmp s.mdeg t.mdeg)
    (fun t => key t.mdeg) f hk
  refine ⟨r, h1, fun r' => ⟨?_, ?_⟩⟩
  · rintro rfl
    have := (hfil r').mpr h3
    exact ⟨(hpw r' (hmem r' this)).mpr h2, this⟩
  · rintro ⟨h4, h5⟩
    exact stable_unique (fun t : Term F => key t.mdeg) r' r ((hpw r' (hmem r' h5)).mp h4) h2
      (fun s => ((hfil r').mp h5 s).trans (h3 s).symm)

/-! ## The search for a pivot -/

namespace Mat
open LinAlg

variable {F : Type} [RField F]

/-- util.rs:15-24 `get_max_index` on an iterator whose items are computed when they are asked for:
`max_by` takes the next item, then compares. -/
def maxIndexInTurn {T : Type} (le : T → T → Res (Option Ordering)) : List (Res T) → Res ℕ
  | [] => .panic .unwrapNone
  | x :: xs => do
    let x ← x
    let best ← (xs.zipIdx 1).foldlM (fun (best : ℕ × T) (y, i) => do
      let y ← y
      match ← le best.2 y with
      | some .gt => pure best
      | some _ => pure (i, y)
      | none => .panic .unwrapNone) (0, x)
    pure best.1

/-- algorithm.rs:16-26 `get_stable_column_index_under_row` as it runs: `skip` reads and drops the first
`r` entries, every other entry is read just before it is compared. -/
def getStableInTurn [EpsilonEquality F] [StabilityCmp F] (M : Mat F) (c r : ℕ) :
    Res (Option (ℕ × F)) := do
  let _ ← ((List.range M.rows).take r).mapM fun i => M.get i c
  let k ← maxIndexInTurn StabilityCmp.stabilityCmp (((List.range M.rows).drop r).map fun i => M.get i c)
  let i := k + r
  let scalar ← M.get i c
  if ← EpsilonEquality.epsilonEquals scalar RField.zero then pure none
  else pure (some (i, scalar))

theorem map_ok_iff {α β : Type} {f : α → β} {x : Res α} {b : β} :
    f <$> x = .ok b ↔ ∃ a, x = .ok a ∧ f a = b := by
  cases x with
  | ok a => exact ⟨fun h => ⟨a, rfl, by cases h; rfl⟩, fun ⟨a', h, h'⟩ => by cases h; cases h'; rfl⟩
  | panic p => exact ⟨nofun, fun ⟨_, h, _⟩ => nomatch h⟩
  | diverge => exact ⟨nofun, fun ⟨_, h, _⟩ => nomatch h⟩

theorem maxIndexInTurn_ok_iff {T : Type} (le : T → T → Res (Option Ordering)) (items : List (Res T))
    (k : ℕ) : maxIndexInTurn le items = .ok k ↔
      ∃ l, items.mapM (m := Res) id = .ok l ∧ getMaxIndex l le = .ok k := by
  have aux : ∀ (xs : List (Res T)) (n : ℕ) (best b : ℕ × T),
      (xs.zipIdx n).foldlM (fun (best : ℕ × T) (y, i) => do
        let y ← y
        match ← le best.2 y with
        | some .gt => pure best
        | some _ => pure (i, y)
        | none => .panic .unwrapNone) best = Res.ok b ↔
      ∃ l, xs.mapM (m := Res) id = .ok l ∧
        ((l.zipIdx n).map fun (x, i) => (i, x)).foldlM (fun (best y : ℕ × T) => do
          match ← (do
            match ← le best.2 y.2 with
            | some o => pure o
            | none => .panic .unwrapNone : Res Ordering) with
          | .gt => pure best
          | _ => pure y) best = Res.ok b := by
    intro xs
    induction xs with
    | nil =>
      intro n best b
      constructor
      · intro h; exact ⟨[], rfl, h⟩
      · rintro ⟨l, h1, h2⟩; cases h1; exact h2
    | cons x xs ih =>
      intro n best b
      rw [List.zipIdx_cons, List.foldlM_cons, List.mapM_cons]
      cases x with
      | panic p => exact ⟨nofun, fun ⟨l, h, _⟩ => nomatch h⟩
      | diverge => exact ⟨nofun, fun ⟨l, h, _⟩ => nomatch h⟩
      | ok x =>
        have hl : ∀ l, (do let y ← id (Res.ok x); let ys ← xs.mapM (m := Res) id; pure (y :: ys)) =
            Res.ok l ↔ ∃ ys, xs.mapM (m := Res) id = .ok ys ∧ l = x :: ys := by
          intro l
          change (xs.mapM (m := Res) id >>= fun ys => pure (x :: ys)) = .ok l ↔ _
          rw [bind_eq_ok]
          exact exists_congr fun ys => and_congr_right fun _ => ⟨fun h => by cases h; rfl, fun h => by
            rw [h]; rfl⟩
        simp only [hl]
        have push : ∀ P : List T → Prop, (∃ l, (∃ ys, xs.mapM (m := Res) id = .ok ys ∧ l = x :: ys) ∧ P l) ↔
            ∃ ys, xs.mapM (m := Res) id = .ok ys ∧ P (x :: ys) := fun P => ⟨by
          rintro ⟨_, ⟨ys, h, rfl⟩, hp⟩; exact ⟨ys, h, hp⟩, by
          rintro ⟨ys, h, hp⟩; exact ⟨_, ⟨ys, h, rfl⟩, hp⟩⟩
        rw [push]
        simp only [List.zipIdx_cons, List.map_cons, List.foldlM_cons]
        change ((le best.2 x >>= _) >>= _) = _ ↔ _
        cases hle : le best.2 x with
        | panic p =>
          exact ⟨nofun, fun ⟨l, _, h⟩ => nomatch h⟩
        | diverge =>
          exact ⟨nofun, fun ⟨l, _, h⟩ => nomatch h⟩
        | ok o =>
          cases o with
          | none => exact ⟨nofun, fun ⟨l, _, h⟩ => nomatch h⟩
          | some o =>
            cases o
            · exact ih _ _ _
            · exact ih _ _ _
            · exact ih _ _ _
  cases items with
  | nil => exact ⟨nofun, fun ⟨l, h, h'⟩ => by cases h; cases h'⟩
  | cons x xs =>
    rw [List.mapM_cons]
    cases x with
    | panic p => exact ⟨nofun, fun ⟨l, h, _⟩ => nomatch h⟩
    | diverge => exact ⟨nofun, fun ⟨l, h, _⟩ => nomatch h⟩
    | ok x =>
      constructor
      · intro h
        rw [maxIndexInTurn, bind_ok] at h
        obtain ⟨b, hb, h⟩ := bind_eq_ok.mp h
        cases h
        obtain ⟨l, h1, h2⟩ := (aux xs 1 (0, x) b).mp hb
        refine ⟨x :: l, by rw [h1]; rfl, ?_⟩
        unfold getMaxIndex maxBy
        rw [List.zipIdx_cons, List.map_cons]
        dsimp only
        refine (congrArg (fun r => (some <$> r) >>= _) h2).trans ?_
        rfl
      · rintro ⟨l, h, h'⟩
        obtain ⟨y, hy, h⟩ := bind_eq_ok.mp h
        obtain ⟨ys, h1, h⟩ := bind_eq_ok.mp h
        cases hy
        cases h
        unfold getMaxIndex maxBy at h'
        rw [List.zipIdx_cons, List.map_cons] at h'
        obtain ⟨o, ho, h'⟩ := bind_eq_ok.mp h'
        obtain ⟨b, hb, hb'⟩ := map_ok_iff.mp ho
        cases hb'
        cases h'
        rw [maxIndexInTurn, bind_ok, (aux xs 1 (0, x) b).mpr ⟨ys, h1, hb⟩]
        rfl

/-- C194. Reading the entries in turn finds the same pivot as reading them all first. -/
theorem _root_.Verif.C194_pivot_result [EpsilonEquality F] [StabilityCmp F] (M : Mat F) (c r : ℕ)
    (o : Option (ℕ × F)) : M.getStableInTurn c r = .ok o ↔ M.getStable c r = .ok o := by
  have hsplit : ∀ col, M.getColIter c = .ok col ↔ ∃ u v,
      ((List.range M.rows).take r).mapM (fun i => M.get i c) = .ok u ∧
      (((List.range M.rows).drop r).map fun i => M.get i c).mapM (m := Res) id = .ok v ∧
      col = u ++ v := by
    intro col
    unfold getColIter
    conv_lhs => rw [← List.take_append_drop r (List.range M.rows)]
    rw [List.mapM_append, bind_eq_ok, List.mapM_map]
    constructor
    · rintro ⟨u, hu, h⟩
      obtain ⟨v, hv, h⟩ := bind_eq_ok.mp h
      cases h
      exact ⟨u, v, hu, hv, rfl⟩
    · rintro ⟨u, v, hu, hv, rfl⟩
      exact ⟨u, hu, bind_eq_ok.mpr ⟨v, hv, rfl⟩⟩
  have hdrop : ∀ u v, ((List.range M.rows).take r).mapM (fun i => M.get i c) = .ok u →
      (((List.range M.rows).drop r).map fun i => M.get i c).mapM (m := Res) id = .ok v →
      (u ++ v).drop r = v := by
    intro u v hu hv
    have h1 := mapM_ok_length hu
    have h2 := mapM_ok_length hv
    rw [List.length_take, List.length_range] at h1
    rw [List.length_map, List.length_drop, List.length_range] at h2
    rcases Nat.le_total r M.rows with h | h
    · exact List.drop_left' (by omega)
    · rw [List.drop_eq_nil_of_le (by rw [List.length_append]; omega)]
      exact (List.eq_nil_of_length_eq_zero (by omega)).symm
  unfold getStableInTurn getStable
  constructor
  · intro h
    obtain ⟨u, hu, h⟩ := bind_eq_ok.mp h
    obtain ⟨k, hk, h⟩ := bind_eq_ok.mp h
    obtain ⟨v, hv, hk⟩ := (maxIndexInTurn_ok_iff _ _ _).mp hk
    rw [(hsplit _).mpr ⟨u, v, hu, hv, rfl⟩, bind_ok, hdrop u v hu hv, hk]
    exact h
  · intro h
    obtain ⟨col, hcol, h⟩ := bind_eq_ok.mp h
    obtain ⟨u, v, hu, hv, rfl⟩ := (hsplit _).mp hcol
    rw [hdrop u v hu hv] at h
    obtain ⟨k, hk, h⟩ := bind_eq_ok.mp h
    rw [hu, bind_ok, (maxIndexInTurn_ok_iff _ _ _).mpr ⟨v, hv, hk⟩]
    exact h

theorem maxIndexInTurn_map_ok {T : Type} (le : T → T → Res (Option Ordering)) (l : List T) :
    maxIndexInTurn le (l.map .ok) = getMaxIndex l le := by
  have aux : ∀ (xs : List T) (n : ℕ) (best : ℕ × T),
      ((xs.map Res.ok).zipIdx n).foldlM (m := Res) (fun (best : ℕ × T) (y, i) => do
        let y ← y
        match ← le best.2 y with
        | some .gt => pure best
        | some _ => pure (i, y)
        | none => .panic .unwrapNone) best =
      ((xs.zipIdx n).map fun (x, i) => (i, x)).foldlM (m := Res) (fun (best y : ℕ × T) => do
          match ← (do
            match ← le best.2 y.2 with
            | some o => pure o
            | none => .panic .unwrapNone : Res Ordering) with
          | .gt => pure best
          | _ => pure y) best := by
    intro xs
    induction xs with
    | nil => intro n best; rfl
    | cons x xs ih =>
      intro n best
      rw [List.map_cons, List.zipIdx_cons, List.zipIdx_cons, List.map_cons, List.foldlM_cons,
        List.foldlM_cons]
      change ((le best.2 x >>= _) >>= _) = (((le best.2 x >>= _) >>= _) >>= _)
      cases le best.2 x with
      | panic p => rfl
      | diverge => rfl
      | ok o =>
        cases o with
        | none => rfl
        | some o =>
          cases o
          · exact ih _ _
          · exact ih _ _
          · exact ih _ _
  cases l with
  | nil => rfl
  | cons x xs =>
    rw [List.map_cons, maxIndexInTurn, bind_ok]
    refine (congrArg (· >>= _) (aux xs 1 (0, x))).trans ?_
    unfold getMaxIndex maxBy
    rw [List.zipIdx_cons, List.map_cons]
    dsimp only
    generalize List.foldlM (m := Res) _ _ _ = r
    cases r <;> rfl

/-- C194. Where every entry of the column can be read, so in every matrix of the right number of
entries, the two also fail alike. -/
theorem _root_.Verif.C194_pivot [EpsilonEquality F] [StabilityCmp F] (M : Mat F) (c r : ℕ)
    (h : ∀ i < M.rows, ∃ x, M.get i c = .ok x) : M.getStableInTurn c r = M.getStable c r := by
  have hm : ∀ l : List ℕ, (∀ i ∈ l, i < M.rows) → ∃ v : List F,
      l.mapM (fun i => M.get i c) = .ok v ∧ (l.map fun i => M.get i c) = v.map .ok := by
    intro l
    induction l with
    | nil => intro _; exact ⟨[], rfl, rfl⟩
    | cons i l ih =>
      intro hl
      obtain ⟨x, hx⟩ := h i (hl i (by simp))
      obtain ⟨v, h1, h2⟩ := ih fun j hj => hl j (by simp [hj])
      refine ⟨x :: v, ?_, ?_⟩
      · rw [List.mapM_cons, hx, bind_ok, h1]; rfl
      · rw [List.map_cons, hx, h2]; rfl
  obtain ⟨u, hu, -⟩ := hm ((List.range M.rows).take r) fun i hi =>
    List.mem_range.mp (List.mem_of_mem_take hi)
  obtain ⟨v, hv, hv'⟩ := hm ((List.range M.rows).drop r) fun i hi =>
    List.mem_range.mp (List.mem_of_mem_drop hi)
  have hcol : M.getColIter c = .ok (u ++ v) := by
    unfold getColIter
    conv_lhs => rw [← List.take_append_drop r (List.range M.rows)]
    rw [List.mapM_append, hu, bind_ok, hv]; rfl
  have hdrop : (u ++ v).drop r = v := by
    have h1 := mapM_ok_length hu
    have h2 := mapM_ok_length hv
    rw [List.length_take, List.length_range] at h1
    rw [List.length_drop, List.length_range] at h2
    rcases Nat.le_total r M.rows with h | h
    · exact List.drop_left' (by omega)
    · rw [List.drop_eq_nil_of_le (by rw [List.length_append]; omega)]
      exact (List.eq_nil_of_length_eq_zero (by omega)).symm
  unfold getStableInTurn getStable
  rw [hu, bind_ok, hcol, bind_ok, hdrop, hv', maxIndexInTurn_map_ok]

end Mat

/-! ## Examples -/

/-- `(-2)^63` is the smallest `i64`; one more factor is too much for a debug build and gives `0` in a
release build. -/
example : Integer.powStd .debug (-2) (Integer.asU32 63) = .ok (-9223372036854775808) ∧
    Integer.powStd .debug (-2) (Integer.asU32 64) = .panic .overflowI64 ∧
    Integer.powStd .release (-2) (Integer.asU32 64) = .ok 0 :=
  ⟨(C194_pow _ _ _).trans (by decide +kernel), (C194_pow _ _ _).trans (by decide +kernel),
    (C194_pow _ _ _).trans (by decide +kernel)⟩

example : Usize.powStd .debug 3 40 = .ok 12157665459056928801 ∧
    Usize.powStd .debug 3 41 = .panic .overflowUsize :=
  ⟨(C194_usize_pow _ _ _).trans (by decide +kernel), (C194_usize_pow _ _ _).trans (by decide +kernel)⟩

/-- Two terms of the same multidegree keep their order: `x + 2 + 3x` sorts to `2 + x + 3x`. -/
example : letI := Rational.field .debug
    Computer.sortTerms (OrdKind.grLex.order .debug)
      ([⟨⟨1, 1⟩, [1]⟩, ⟨⟨2, 1⟩, []⟩, ⟨⟨3, 1⟩, [1]⟩] : Poly Rational) =
    .ok [⟨⟨2, 1⟩, []⟩, ⟨⟨1, 1⟩, [1]⟩, ⟨⟨3, 1⟩, [1]⟩] := by decide +kernel

/-- In the second column of the matrix with rows `(1, 2)`, `(3, -5)`, `(0, 4)` the pivot found
from the second row on is `4`: it has the smallest numerator and denominator. -/
example : letI := Rational.field .debug; letI := Rational.stability .debug
    Mat.getStableInTurn (F := Rational) ⟨[⟨1, 1⟩, ⟨2, 1⟩, ⟨3, 1⟩, ⟨-5, 1⟩, ⟨0, 1⟩, ⟨4, 1⟩], 3, 2⟩ 1 1 =
    .ok (some (2, ⟨4, 1⟩)) := by decide +kernel

end Verif
