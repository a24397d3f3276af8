import Verif.Proofs.F64Ops
import Verif.Proofs.Refine
import Verif.Props.Cone

/-!
# Runs over `f32` and `f64` in which nothing is rounded

`Flt.exact` is the arithmetic of `f32` and `f64` in which an operation whose result is not the exact one
(because it was rounded, overflowed, or is not a number) panics instead of returning.  It is a lawful
field, and whatever it returns, the operation of the standard library returns.
-/

namespace Verif
open Res LawfulRField

namespace Flt
open Fmt
variable [Fmt]

/-- The panic of an operation that is not exact. -/
def inexact : Panic := .explicit "inexact"

/-- The value of a finite number, and `0` for the others. -/
def rat (x : Flt) : ℚ := x.value.getD 0

/-- `r`, if it is the number `v`. -/
def chk (r : Flt) (v : ℚ) : Res Flt := if r.value = some v then .ok r else .panic inexact

/-- `f32` and `f64` with every operation checked for exactness. -/
@[reducible] def exact (powi : Flt → Int → Flt) : RField Flt where
  build := .debug
  zero := zero
  one := one
  beq := eq
  add x y := chk (add x y) (x.rat + y.rat)
  sub x y := chk (sub x y) (x.rat - y.rat)
  neg x := chk (neg x) (- x.rat)
  mul x y := chk (mul x y) (x.rat * y.rat)
  div x y := chk (div x y) (x.rat / y.rat)
  inv x := chk (recip x) (x.rat)⁻¹
  powi32 x e := chk (powi x e) (x.rat ^ e)
  sum l := l.foldlM (fun acc y => do let y ← y; chk (add acc y) (acc.rat + y.rat)) zero

/-- `epsilon_equals` with a check that it is equality. -/
@[reducible] def exactEps : EpsilonEquality Flt where
  epsilonEquals x y := if epsilonEquals x y = decide (x.value = y.value) then
    .ok (epsilonEquals x y) else .panic inexact

/-- cone.rs:23: the bound `PartialOrd`, for `f32` and `f64` the `partial_cmp` of the standard library. -/
@[reducible] def fieldOrd : FieldOrd Flt where
  partialCmp x y := .ok (partialCmp x y)

/-- The plain operations. -/
def plainOps (b : Build) (powi : Flt → Int → Flt) : Ops Flt where
  build := b
  add x y := .ok (add x y)
  sub x y := .ok (sub x y)
  neg x := .ok (neg x)
  mul x y := .ok (mul x y)
  div x y := .ok (div x y)
  inv x := .ok (recip x)
  powi32 x e := .ok (powi x e)
  sum l := l.foldlM (fun acc y => do let y ← y; .ok (add acc y)) zero

variable {powi : Flt → Int → Flt}

theorem withOps_eq (b : Build) : (exact powi).withOps (plainOps b powi) = field b powi := rfl

theorem chk_refines (r : Flt) (v : ℚ) : Refines (chk r v) (.ok r) := by
  intro a h
  unfold chk at h
  split at h
  · exact h
  · cases h

theorem ops_refine (b : Build) : OpsRefine (exact powi) (plainOps b powi) where
  build := rfl
  add _ _ := chk_refines _ _
  sub _ _ := chk_refines _ _
  neg _ := chk_refines _ _
  mul _ _ := chk_refines _ _
  div _ _ := chk_refines _ _
  inv _ := chk_refines _ _
  powi32 _ _ := chk_refines _ _
  sum l l' h := by
    have key : ∀ c, Refines
        (l.foldlM (fun acc y => do let y ← y; chk (add acc y) (acc.rat + y.rat)) c)
        (l'.foldlM (fun acc y => do let y ← y; Res.ok (add acc y)) c) := by
      induction h with
      | nil => intro c; exact Refines.refl _
      | cons hr h ih =>
        intro c
        rw [List.foldlM_cons, List.foldlM_cons]
        exact (hr.bind fun y => chk_refines _ _).bind fun c => ih c
    exact key _

theorem eps_refines (x y : Flt) : Refines (exactEps.epsilonEquals x y)
    (Flt.epsilonEquality.epsilonEquals x y) := by
  intro a h
  change (if epsilonEquals x y = decide (x.value = y.value) then
    Res.ok (epsilonEquals x y) else .panic inexact) = _ at h
  split at h
  · exact h
  · cases h

theorem chk_spec {r : Flt} {v : ℚ} :
    Spec (· = inexact) (chk r v) (fun c => c.value.isSome ∧ c.rat = v) := by
  unfold chk
  split
  · rename_i h
    refine ⟨by rw [h]; rfl, ?_⟩
    rw [rat, h]; rfl
  · exact rfl

theorem value_some {x : Flt} (h : x.value.isSome) : x.value = some x.rat := by
  rw [rat]
  cases hv : x.value with
  | none => rw [hv] at h; cases h
  | some v => rfl

theorem finite_iff {x : Flt} : x.value.isSome = true ↔ ∃ s n, x = fin s n := by
  cases x <;> simp [value]

theorem rat_fin (s : Bool) (n : ℕ) : (fin s n).rat = (units s n : ℚ) / unit := rfl

theorem rat_zero : zero.rat = 0 := by
  rw [zero, rat_fin]; simp [units]

theorem rat_one : one.rat = 1 := by
  rw [one, rat_fin]
  have := unit_posQ
  simp only [units, Bool.false_eq_true, if_false, Int.cast_natCast]
  exact div_self this.ne'

theorem rat_inj_fin {s t : Bool} {n k : ℕ} : (fin s n).rat = (fin t k).rat ↔ units s n = units t k := by
  rw [rat_fin, rat_fin, div_left_inj' unit_posQ.ne']
  exact Int.cast_inj

theorem eq_fin (s t : Bool) (n k : ℕ) : eq (fin s n) (fin t k) = decide (units s n = units t k) := by
  unfold eq partialCmp
  by_cases h : units s n = units t k
  · simp [h]
  · have : compare (units s n) (units t k) ≠ .eq := by
      rw [Ne, compare_eq_iff_eq]; exact h
    simp only [h, decide_false, beq_eq_false_iff_ne, ne_eq, Option.some.injEq]
    exact this

theorem rat_eq_of_eq (a b : Flt) (h : eq a b = true) : a.rat = b.rat := by
  cases a with
  | nan => cases b <;> cases h
  | inf s =>
    cases b with
    | nan => cases h
    | inf t => rfl
    | fin t k => cases s <;> cases h
  | fin s n =>
    cases b with
    | nan => cases h
    | inf t => cases t <;> cases h
    | fin t k =>
      rw [eq_fin, decide_eq_true_iff] at h
      exact rat_inj_fin.mpr h

/-- The checked arithmetic is that of the rational numbers. -/
@[reducible] def exactF64 (powi : Flt → Int → Flt) : @LawfulRField Flt (exact powi) ℚ _ :=
  letI := exact powi
  { wf := fun x => x.value.isSome
    val := rat
    allowed := (· = inexact)
    build_debug := rfl
    wf_zero := rfl
    val_zero := rat_zero
    wf_one := rfl
    val_one := rat_one
    val_eq_of_beq := rat_eq_of_eq
    beq_zero := fun a ha h => by
      obtain ⟨s, n, rfl⟩ := finite_iff.mp ha
      change eq _ zero = true
      rw [zero, eq_fin, decide_eq_true_iff]
      exact rat_inj_fin.mp (h.trans rat_zero.symm)
    add_spec := fun _ _ _ _ => chk_spec
    sub_spec := fun _ _ _ _ => chk_spec
    neg_spec := fun _ _ => chk_spec
    mul_spec := fun _ _ _ _ => chk_spec
    div_spec := fun _ _ _ _ _ => chk_spec
    inv_spec := fun _ _ _ => chk_spec
    pow_spec := fun a n _ _ => chk_spec.imp fun c hc => ⟨hc.1, by rw [hc.2]; exact zpow_natCast _ _⟩
    sum_spec := fun E hE l vs h => by
      have key : ∀ (c : Flt) (v : ℚ), c.value.isSome → c.rat = v → Spec E
          (l.foldlM (fun acc y => do let y ← y; chk (add acc y) (acc.rat + y.rat)) c)
          (fun z => z.value.isSome ∧ z.rat = v + vs.sum) := by
        induction h with
        | nil => intro c v hc hv; exact ⟨hc, by simpa using hv⟩
        | @cons r w l vs hr h ih =>
          intro c v hc hv
          rw [List.foldlM_cons]
          refine Spec.bind (P := fun z => z.value.isSome ∧ z.rat = v + w) (hr.bind fun y hy => ?_) ?_
          · refine (chk_spec (r := add c y) (v := c.rat + y.rat)).mono (fun p hp => hE p hp) ?_
            intro z hz
            refine ⟨hz.1, ?_⟩
            rw [hz.2, hv, hy.2]
          · intro z hz
            refine (ih z _ hz.1 hz.2).imp fun u hu => ⟨hu.1, ?_⟩
            rw [hu.2, List.sum_cons, add_assoc]
      exact (key zero 0 rfl rat_zero).imp fun z hz => ⟨hz.1, by rw [hz.2, zero_add]⟩
    sum_strict := fun l c h => by
      have key : ∀ c₀ : Flt,
          l.foldlM (fun acc y => do let y ← y; chk (add acc y) (acc.rat + y.rat)) c₀ = .ok c →
          ∀ r ∈ l, ∃ a, r = .ok a := by
        clear h
        induction l with
        | nil => intro _ _ r hr; cases hr
        | cons r l ih =>
          intro c₀ h
          rw [List.foldlM_cons, bind_eq_ok] at h
          obtain ⟨c₁, h1, h2⟩ := h
          rw [bind_eq_ok] at h1
          obtain ⟨y, hy, -⟩ := h1
          intro r' hr'
          rcases List.mem_cons.mp hr' with rfl | hr'
          · exact ⟨y, hy⟩
          · exact ih _ h2 _ hr'
      exact key _ h }

theorem exactPivot (powi : Flt → Int → Flt) :
    @LawfulPivot Flt (exact powi) ℚ _ (exactF64 powi) exactEps Flt.stability :=
  letI := exact powi
  letI := exactF64 powi
  letI := exactEps
  { eps_zero := fun a ha => by
      change Spec _ (if epsilonEquals a zero = decide (a.value = zero.value) then
        Res.ok (epsilonEquals a zero) else .panic inexact) (fun r => r = true ↔ a.rat = 0)
      split
      · rename_i h
        change epsilonEquals a zero = true ↔ _
        rw [h, decide_eq_true_iff, value_some ha, value_some (x := zero) rfl, rat_zero, Option.some_inj]
      · exact rfl
    stab := fun a b ha hb => by
      obtain ⟨s, n, rfl⟩ := finite_iff.mp ha
      obtain ⟨t, k, rfl⟩ := finite_iff.mp hb
      have h0 : ∀ s n, (fin s n).rat = 0 ↔ n = 0 := by
        intro s n
        rw [← rat_zero, zero, rat_inj_fin]
        unfold units
        split <;> simp
      refine ⟨compare (n : ℤ) k, ?_, ?_, ?_⟩
      · simp [stabilityCmp, abs, partialCmp, units]
      · intro ha hb
        have h1 : n ≠ 0 := fun h => ha ((h0 s n).mpr h)
        have h2 : k = 0 := (h0 t k).mp hb
        rw [compare_gt_iff_gt]; omega
      · intro ha hb
        have h1 : n = 0 := (h0 s n).mp ha
        rw [Ne, compare_gt_iff_gt]; omega }

theorem exactOrd (powi : Flt → Int → Flt) :
    @LawfulOrd Flt (exact powi) ℚ _ _ (exactF64 powi) fieldOrd :=
  letI := exact powi
  letI := exactF64 powi
  letI := fieldOrd
  { cmp_spec := fun x y hx hy => by
      obtain ⟨s, n, rfl⟩ := finite_iff.mp hx
      obtain ⟨t, k, rfl⟩ := finite_iff.mp hy
      change some (compare (units s n) (units t k)) = some (compare (fin s n).rat (fin t k).rat)
      rw [rat_fin, rat_fin]
      congr 1
      have hu := unit_posQ
      rcases lt_trichotomy (units s n) (units t k) with h | h | h
      · rw [compare_lt_iff_lt.mpr h, eq_comm, compare_lt_iff_lt]
        gcongr
      · rw [h, compare_eq_iff_eq.mpr rfl, compare_eq_iff_eq.mpr rfl]
      · rw [compare_gt_iff_gt.mpr h, eq_comm, compare_gt_iff_gt]
        gcongr }

end Flt
end Verif
