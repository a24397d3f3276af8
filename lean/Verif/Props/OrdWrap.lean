import Verif.Props.Ord

/-!
# Property C160: the monomial orders in builds without overflow checks
-/

namespace Verif
open Res

theorem MDeg.totalDeg_release (a : MDeg) : a.totalDeg .release = .ok (a.sum % 256) := by
  have norm : ∀ x, U8.norm .release x = .ok (x % 256) := by
    intro x
    unfold U8.norm
    split
    · rw [Nat.mod_eq_of_lt (by assumption)]
    · rfl
  have key : ∀ (l : List Nat) (acc : Nat),
      l.foldlM (fun acc d => U8.norm .release (acc + d)) (acc % 256) =
        .ok ((acc + l.sum) % 256) := by
    intro l
    induction l with
    | nil => intro acc; rfl
    | cons d l ih =>
      intro acc
      rw [List.foldlM_cons, norm, bind_ok, ih, List.sum_cons]
      congr 1
      omega
  have := key a 0
  rw [Nat.zero_mod, Nat.zero_add] at this
  exact this

theorem MOrder.revLexCmp_swap (a b : MDeg) : (revLexCmp a b).swap = revLexCmp b a := by
  have h1 : ∀ l : List (ℕ × ℕ), (firstDiff l).swap = firstDiff (l.map Prod.swap) := by
    intro l
    induction l with
    | nil => rfl
    | cons p l ih =>
      obtain ⟨x, y⟩ := p
      simp only [List.map_cons, Prod.swap, firstDiff]
      rw [← Nat.compare_swap x y]
      cases compare x y
      · rfl
      · exact ih
      · rfl
  unfold revLexCmp
  rw [← Nat.compare_swap a.len b.len]
  cases compare a.len b.len
  · rfl
  · change (firstDiff _).swap = firstDiff _
    rw [h1, List.map_reverse, List.zip_swap]
  · rfl

/-- C160. Without overflow checks the graded orders compare the total degrees modulo 256 first and then
as `Lex`, or opposite to `RevLex`; the other two orders are the same in both builds. -/
theorem C160_description (a b : MDeg) :
    (OrdKind.grLex.order .release).cmp a b =
      (if a.sum % 256 < b.sum % 256 then .ok .lt
      else if b.sum % 256 < a.sum % 256 then .ok .gt
      else (OrdKind.lex.order .debug).cmp a b) ∧
    (OrdKind.gRevLex.order .release).cmp a b =
      (if a.sum % 256 < b.sum % 256 then .ok .lt
      else if b.sum % 256 < a.sum % 256 then .ok .gt
      else (OrdKind.revLex.order .debug).cmp b a) ∧
    (OrdKind.lex.order .release).cmp a b = (OrdKind.lex.order .debug).cmp a b ∧
    (OrdKind.revLex.order .release).cmp a b = (OrdKind.revLex.order .debug).cmp a b := by
  refine ⟨?_, ?_, rfl, rfl⟩
  · change (MOrder.grad .release a b >>= _) = _
    rw [MOrder.grad, MDeg.totalDeg_release, MDeg.totalDeg_release, bind_ok, bind_ok]
    rcases lt_trichotomy (a.sum % 256) (b.sum % 256) with h | h | h
    · rw [if_pos h, Nat.compare_eq_lt.mpr h]; rfl
    · rw [if_neg (by omega), if_neg (by omega), Nat.compare_eq_eq.mpr h]; rfl
    · rw [if_neg (by omega), if_pos h, Nat.compare_eq_gt.mpr h]; rfl
  · change (MOrder.grad .release a b >>= _) = _
    rw [MOrder.grad, MDeg.totalDeg_release, MDeg.totalDeg_release, bind_ok, bind_ok]
    rcases lt_trichotomy (a.sum % 256) (b.sum % 256) with h | h | h
    · rw [if_pos h, Nat.compare_eq_lt.mpr h]; rfl
    · rw [if_neg (by omega), if_neg (by omega), Nat.compare_eq_eq.mpr h]
      change Res.ok (MOrder.revLexCmp a b).swap = .ok (MOrder.revLexCmp b a)
      rw [MOrder.revLexCmp_swap]
    · rw [if_neg (by omega), if_pos h, Nat.compare_eq_gt.mpr h]; rfl

/-- C160. Without overflow checks each comparison is a total order on all canonical multidegrees. -/
theorem C160_total_order (k : OrdKind) (a b c : MDeg) (ha : a.Clean) (hb : b.Clean) (hc : c.Clean) :
    (∃ o, (k.order .release).cmp a b = .ok o ∧ (k.order .release).cmp b a = .ok o.swap ∧
      (o = .eq ↔ a = b)) ∧
    ((k.order .release).cmp a b = .ok .lt → (k.order .release).cmp b c = .ok .lt →
      (k.order .release).cmp a c = .ok .lt) := by
  have L := fun a b c ha hb hc => C21_total_order .lex a b c ha hb hc (fun h => by cases h)
    (fun h => by cases h) (fun h => by cases h)
  have R := fun a b c ha hb hc => C21_total_order .revLex a b c ha hb hc (fun h => by cases h)
    (fun h => by cases h) (fun h => by cases h)
  have aux : ∀ f g : MDeg → MDeg → Res Ordering,
      (∀ a b, f a b = if a.sum % 256 < b.sum % 256 then .ok .lt
        else if b.sum % 256 < a.sum % 256 then .ok .gt else g a b) →
      (∃ o, g a b = .ok o ∧ g b a = .ok o.swap ∧ (o = .eq ↔ a = b)) →
      (g a b = .ok .lt → g b c = .ok .lt → g a c = .ok .lt) →
      (∃ o, f a b = .ok o ∧ f b a = .ok o.swap ∧ (o = .eq ↔ a = b)) ∧
      (f a b = .ok .lt → f b c = .ok .lt → f a c = .ok .lt) := by
    intro f g hf h1 h2
    constructor
    · obtain ⟨o, e1, e2, e3⟩ := h1
      rcases lt_trichotomy (a.sum % 256) (b.sum % 256) with h | h | h
      · refine ⟨.lt, ?_, ?_, ?_⟩
        · rw [hf, if_pos h]
        · rw [hf, if_neg (by omega), if_pos h]; rfl
        · refine ⟨nofun, ?_⟩
          rintro rfl; omega
      · refine ⟨o, ?_, ?_, e3⟩
        · rw [hf, if_neg (by omega), if_neg (by omega), e1]
        · rw [hf, if_neg (by omega), if_neg (by omega), e2]
      · refine ⟨.gt, ?_, ?_, ?_⟩
        · rw [hf, if_neg (by omega), if_pos h]
        · rw [hf, if_pos h]; rfl
        · refine ⟨nofun, ?_⟩
          rintro rfl; omega
    · rw [hf a b, hf b c, hf a c]
      split_ifs <;> first | omega | exact h2 | exact fun _ _ => rfl | exact nofun
  cases k
  · exact L a b c ha hb hc
  · exact R a b c ha hb hc
  · exact aux _ _ (fun a b => (C160_description a b).1) (L a b c ha hb hc).1 (L a b c ha hb hc).2
  · refine aux _ (fun a b => (OrdKind.revLex.order .debug).cmp b a)
      (fun a b => (C160_description a b).2.1) ?_ fun h1 h2 => (R c b a hc hb ha).2 h2 h1
    obtain ⟨o, e1, e2, e3⟩ := (R b a b hb ha hb).1
    exact ⟨o, e1, e2, e3.trans eq_comm⟩

/-- Multidegrees of total degree above 255. -/
example : MDeg.Clean [200, 100] ∧ (OrdKind.grLex.order .debug).cmp [200, 100] [200] = .panic .overflowU8 ∧
    (OrdKind.grLex.order .release).cmp [200, 100] [44] = .ok .gt ∧
    (OrdKind.gRevLex.order .release).cmp [200, 100] [44] = .ok .lt := by decide

/-- C160. But the graded orders no longer respect multiplication, even where no exponent overflows
(`1 < x`, but `x y^255` is below `y^255`), and `GRevLex` puts `x y^255` below `1`. -/
theorem C160_not_multiplicative (k : OrdKind) (hk : k.graded = true) :
    (k.order .release).cmp [] [1] = .ok .lt ∧
    MDeg.add .debug [] [0, 255] = .ok [0, 255] ∧ MDeg.add .debug [1] [0, 255] = .ok [1, 255] ∧
    (k.order .release).cmp [0, 255] [1, 255] = .ok .gt ∧
    (OrdKind.gRevLex.order .release).cmp [1, 255] [] = .ok .lt := by
  cases k <;> first | (exact absurd hk (by decide)) | decide

end Verif
