import Verif.LinAlg.Util
import Verif.Proofs.Divide

/-!
# `get_max_index` returns the last of the greatest elements

No field laws are used: the lemma also applies to `f64`.
-/

namespace Verif
open Res LinAlg

variable {T S : Type} [LinearOrder S] {E : Panic → Prop} {le : T → T → Res (Option Ordering)}

/-- If `le` compares by `key` (an undefined comparison must be an allowed panic), `get_max_index`
returns the last index whose element has the greatest key. -/
theorem getMaxIndex_last (key : T → S) (l : List T) (hl : l ≠ [])
    (h : ∀ a ∈ l, ∀ b ∈ l, Spec E (le a b) (fun o => match o with
      | none => E .unwrapNone
      | some r => (r = .gt ↔ key b < key a))) :
    Spec E (getMaxIndex l le) (fun i => ∃ x, l[i]? = some x ∧
      (∀ (j : ℕ) y, l[j]? = some y → key y ≤ key x) ∧
      (∀ (j : ℕ) y, i < j → l[j]? = some y → key y < key x)) := by
  obtain ⟨x, xs, rfl⟩ := List.exists_cons_of_ne_nil hl
  have hz : ((x :: xs).zipIdx.map fun (x, i) => (i, x)) =
      (0, x) :: (xs.zipIdx 1).map fun (x, i) => (i, x) := by simp [List.zipIdx_cons]
  unfold getMaxIndex
  rw [hz, maxBy]
  have hfold : Spec E (((xs.zipIdx 1).map fun (x, i) => (i, x)).foldlM
      (fun (best y : ℕ × T) => do
        match ← (do
          match ← le best.2 y.2 with
          | some o => pure o
          | none => .panic .unwrapNone : Res Ordering) with
        | .gt => pure best
        | _ => pure y) (0, x))
      (fun b => (x :: xs)[b.1]? = some b.2 ∧
        (∀ (j : ℕ) y, (x :: xs)[j]? = some y → key y ≤ key b.2) ∧
        (∀ (j : ℕ) y, b.1 < j → (x :: xs)[j]? = some y → key y < key b.2)) := by
    refine (foldlM_spec (fun done b => (x :: xs)[b.1]? = some b.2 ∧ b.1 ≤ done.length ∧
      (∀ (j : ℕ) y, j ≤ done.length → (x :: xs)[j]? = some y → key y ≤ key b.2) ∧
      (∀ (j : ℕ) y, j ≤ done.length → b.1 < j → (x :: xs)[j]? = some y → key y < key b.2))
      ⟨rfl, by simp, fun j y hj hy => ?_, fun j y hj hj' _ => ?_⟩ ?_).imp ?_
    · have : j = 0 := by simpa using hj
      subst this
      rw [List.getElem?_cons_zero, Option.some.injEq] at hy
      rw [hy]
    · simp at hj; omega
    · rintro done ⟨i, y⟩ rest ⟨bi, bx⟩ heq ⟨h1, h2, h3, h4⟩
      have hi : ((xs.zipIdx 1).map fun (x, i) => (i, x))[done.length]? = some (i, y) := by
        rw [heq]; simp
      rw [List.getElem?_map, List.getElem?_zipIdx] at hi
      obtain ⟨z, hz1, hz2⟩ : ∃ z, xs[done.length]? = some z ∧ (1 + done.length, z) = (i, y) := by
        cases hx : xs[done.length]? with
        | none => rw [hx] at hi; simp at hi
        | some z => rw [hx] at hi; exact ⟨z, rfl, by simpa using hi⟩
      obtain ⟨rfl, rfl⟩ := Prod.mk.injEq .. ▸ hz2
      have hy : (x :: xs)[1 + done.length]? = some z := by
        rw [Nat.add_comm, List.getElem?_cons_succ, hz1]
      refine Spec.bind (P := fun r => (r = .gt ↔ key z < key bx)) ?_ ?_
      · refine (h bx (List.mem_of_getElem? h1) z (List.mem_of_getElem? hy)).bind ?_
        rintro (_ | r) hr
        · exact hr
        · exact hr
      · intro r hr
        by_cases hgt : r = .gt
        · subst hgt
          have hlt := hr.mp rfl
          refine ⟨h1, by simp; omega, fun j w hj hw => ?_, fun j w hj hj' hw => ?_⟩
          · by_cases hjl : j ≤ done.length
            · exact h3 j w hjl hw
            · have : j = 1 + done.length := by simp at hj; omega
              subst this
              rw [hy, Option.some.injEq] at hw
              subst hw; exact hlt.le
          · by_cases hjl : j ≤ done.length
            · exact h4 j w hjl hj' hw
            · have : j = 1 + done.length := by simp at hj; omega
              subst this
              rw [hy, Option.some.injEq] at hw
              subst hw; exact hlt
        · have hle : key bx ≤ key z := not_lt.mp fun hc => hgt (hr.mpr hc)
          have : Spec E (pure (1 + done.length, z) : Res (ℕ × T)) (fun b => (x :: xs)[b.1]? = some b.2 ∧
              b.1 ≤ (done ++ [(1 + done.length, z)]).length ∧
              (∀ (j : ℕ) y, j ≤ (done ++ [(1 + done.length, z)]).length → (x :: xs)[j]? = some y →
                key y ≤ key b.2) ∧
              (∀ (j : ℕ) y, j ≤ (done ++ [(1 + done.length, z)]).length → b.1 < j →
                (x :: xs)[j]? = some y → key y < key b.2)) := by
            refine ⟨hy, by simp; omega, fun j w hj hw => ?_, fun j w hj hj' hw => ?_⟩
            · by_cases hjl : j ≤ done.length
              · exact (h3 j w hjl hw).trans hle
              · have : j = 1 + done.length := by simp at hj; omega
                subst this
                rw [hy, Option.some.injEq] at hw
                subst hw; exact le_refl _
            · simp at hj hj'; omega
          cases r with
          | gt => exact absurd rfl hgt
          | lt => exact this
          | eq => exact this
    · rintro b ⟨h1, _, h3, h4⟩
      have hlen : ((xs.zipIdx 1).map fun (x, i) => (i, x)).length = xs.length := by simp
      refine ⟨h1, fun j y hy => h3 j y ?_ hy, fun j y hj hy => h4 j y ?_ hj hy⟩
      all_goals
        rw [hlen]
        have := (List.getElem?_eq_some_iff.mp hy).1
        simp at this; omega
  refine Spec.bind (P := fun o => ∃ b, o = some b ∧ (x :: xs)[b.1]? = some b.2 ∧
        (∀ (j : ℕ) y, (x :: xs)[j]? = some y → key y ≤ key b.2) ∧
        (∀ (j : ℕ) y, b.1 < j → (x :: xs)[j]? = some y → key y < key b.2)) ?_ ?_
  · exact Spec.map (hfold.imp fun b hb => ⟨b, rfl, hb⟩)
  · rintro _ ⟨b, rfl, h1, h2, h3⟩
    exact ⟨b.2, h1, h2, h3⟩

end Verif
