import Verif.Props.Elim

/-!
# Elimination leaves echelon forms alone (C150)

A matrix already in row echelon form with unit pivots is returned unchanged by `row_echelon` and by
`lu`, with identity matrices for `p` and `l`; one already in reduced row echelon form is returned
unchanged by `row_echelon().to_rref()`.  In particular eliminating twice is eliminating once.
-/

set_option linter.unusedSectionVars false

namespace Verif
open Res LawfulRField LinAlg

variable {F : Type} [RField F] {K : Type} [Field K] [LawfulRField F K] [EpsilonEquality F]
  [StabilityCmp F] [LawfulPivot F K]

/-- The entries of the identity matrix. -/
def ident (i j : ℕ) : K := if i = j then 1 else 0

/-- After `r` pivots and `c` columns of an echelon form: the pivots met so far are the first `r`. -/
structure Met (k : ℕ) (piv : ℕ → ℕ) (c r : ℕ) : Prop where
  le : r ≤ k
  before : ∀ i, i < r → piv i < c
  after : ∀ i, r ≤ i → i < k → c ≤ piv i

section
variable {n m k c r : ℕ} {piv : ℕ → ℕ} {b : ℕ → ℕ → K}

theorem Met.pivot (h : Met k piv c r) (he : Ech n m k piv b) {s : ℕ} (hs : r ≤ s) (hn : s < n)
    (hc : c < m) (hne : b s c ≠ 0) :
    s = r ∧ b s c = 1 ∧ (∀ i, r < i → i < n → b i c = 0) ∧ Met k piv (c + 1) (r + 1) := by
  have hsk : s < k := by
    by_contra hk
    exact hne (he.below s (by omega) hn c hc)
  have hpc : piv s = c := by
    rcases lt_or_eq_of_le (h.after s hs hsk) with hlt | heq
    · exact absurd (he.left s hsk c hlt) hne
    · exact heq.symm
  have hsr : s = r := by
    by_contra hsr
    have h1 := he.mono r s (by omega) hsk
    have h2 := h.after r le_rfl (by omega)
    omega
  subst hsr
  have hb : b s c = 1 := by
    have := he.one s hsk
    rwa [hpc] at this
  refine ⟨rfl, hb, fun i hi hin => ?_, ⟨hsk, fun i hi => ?_, fun i hi hik => ?_⟩⟩
  · by_cases hik : i < k
    · exact he.left i hik c (by have := he.mono s i hi hik; omega)
    · exact he.below i (by omega) hin c hc
  · rcases Nat.lt_or_eq_of_le (Nat.le_of_lt_succ hi) with hlt | rfl
    · have := h.before i hlt; omega
    · omega
  · have := he.mono s i hi hik; omega

theorem Met.skip (h : Met k piv c r) (he : Ech n m k piv b)
    (hz : ∀ i, r ≤ i → i < n → b i c = 0) : Met k piv (c + 1) r := by
  refine ⟨h.le, fun i hi => (h.before i hi).trans (Nat.lt_succ_self c), fun i hi hik => ?_⟩
  rcases lt_or_eq_of_le (h.after i hi hik) with hlt | heq
  · omega
  · have h1 := he.one i hik
    have := he.le
    rw [← heq, hz i hi (by omega)] at h1
    exact absurd h1 zero_ne_one

end

/-! ### The row operations that do nothing -/

namespace Form
variable {f : Form F} {M : Mat F} {n m : ℕ} {p b : ℕ → ℕ → K}

/-- The parts of a form. -/
structure Parts (f : Form F) (M : Mat F) (n m : ℕ) (p b : ℕ → ℕ → K) : Prop where
  original : f.original = M
  p_is : f.p.Is n n p
  b_is : f.b.Is n m b

theorem Parts.permuteRows (h : f.Parts M n m p b) {r : ℕ} (hr : r < n) :
    Spec (allowed F) (f.permuteRows r r) (fun f' => f'.Parts M n m p b) := by
  refine (h.p_is.permuteRows hr hr).bind fun p' hp' => ?_
  refine (h.b_is.permuteRows hr hr).bind fun b' hb' => ?_
  simp only [Equiv.swap_self, Equiv.refl_apply] at hp' hb'
  exact ⟨h.original, hp', hb'⟩

theorem Parts.scaleRow (h : f.Parts M n m p b) {r : ℕ} {v : F} (hr : r < n) (hv : wf v)
    (hv1 : val v = (1 : K)) :
    Spec (allowed F) (f.scaleRow r v) (fun f' => f'.Parts M n m p b) := by
  refine (h.p_is.scaleRow hr hv).bind fun p' hp' => ?_
  refine (h.b_is.scaleRow hr hv).bind fun b' hb' => ?_
  refine ⟨h.original, hp'.congr fun i j _ _ => ?_, hb'.congr fun i j _ _ => ?_⟩
  all_goals
    split
    · rename_i hi; rw [hv1, one_mul, hi]
    · rfl

theorem Parts.replaceStep (h : f.Parts M n m p b) {r c r2 : ℕ} (hr : r < n) (hr2 : r2 < n)
    (hc : c < m) (hz : b r2 c = 0) :
    Spec (allowed F) (Form.replaceStep r c f r2) (fun f' => f'.Parts M n m p b) := by
  refine (h.b_is.get_spec hr2 hc).bind fun x hx => ?_
  refine (sub_spec _ x wf_zero hx.1).bind' fun s hs hs' => ?_
  have hs0 : val s = (0 : K) := by rw [hs'.2, val_zero, hx.2, hz, sub_zero]
  refine (h.p_is.replaceRow hr hr2 hs'.1).bind fun p' hp' => ?_
  rw [hs, bind_ok]
  refine (h.b_is.replaceRow hr hr2 hs'.1).bind fun b' hb' => ?_
  refine ⟨h.original, hp'.congr fun i j _ _ => ?_, hb'.congr fun i j _ _ => ?_⟩
  all_goals
    split
    · rename_i hi; rw [hs0, mul_zero, add_zero, hi]
    · rfl

theorem Parts.replaceColUnderRow (h : f.Parts M n m p b) {r c : ℕ} (hr : r < n) (hc : c < m)
    (hz : ∀ i, r < i → i < n → b i c = 0) :
    Spec (allowed F) (f.replaceColUnderRow r c) (fun f' => f'.Parts M n m p b) := by
  unfold Form.replaceColUnderRow
  rw [h.b_is.rows]
  exact foldlM_range'_spec (fun _ (f' : Form F) => f'.Parts M n m p b) h fun i f' hi hi' hf' =>
    hf'.replaceStep hr (by omega) hc (hz i (by omega) (by omega))

theorem Parts.replaceColAboveRow (h : f.Parts M n m p b) {r c : ℕ} (hr : r < n) (hc : c < m)
    (hz : ∀ i, i < r → b i c = 0) :
    Spec (allowed F) (f.replaceColAboveRow r c) (fun f' => f'.Parts M n m p b) := by
  unfold Form.replaceColAboveRow
  exact foldlM_range_spec (fun _ (f' : Form F) => f'.Parts M n m p b) h fun i f' hi hf' =>
    hf'.replaceStep hr (by omega) hc (hz i hi)

theorem Parts.toRref {k : ℕ} {piv : ℕ → ℕ} (h : f.Parts M n m p b) (he : REch n m k piv b) :
    Spec (allowed F) f.toRref (fun f' => f'.Parts M n m p b) := by
  unfold Form.toRref
  rw [h.b_is.rows]
  refine foldlM_range'_rev_spec (fun _ (f' : Form F) => f'.Parts M n m p b) h ?_
  intro r f' hr hrn hf'
  refine (hf'.b_is.firstNonzero_ech he.toEch (by omega)).bind ?_
  rintro _ rfl
  by_cases hk : r < k
  · rw [if_pos hk]
    exact hf'.replaceColAboveRow (by omega) (he.lt r hk) fun i hi => he.above r hk i hi
  · rw [if_neg hk]
    exact hf'

end Form

namespace Mat
variable {M : Mat F} {n m k : ℕ} {piv : ℕ → ℕ} {p b : ℕ → ℕ → K}

theorem rowEchelonFor_same {f : Form F} (he : Ech n m k piv b) (l c r : ℕ) (hcl : c + l = m)
    (h : f.Parts M n m p b) (hm : Met k piv c r) :
    Spec (allowed F) (Mat.rowEchelonFor n (List.range' c l) r f) (fun f' => f'.Parts M n m p b) := by
  induction l generalizing c f r with
  | zero => exact h
  | succ l ih =>
    rw [List.range'_succ, Mat.rowEchelonFor]
    by_cases hrn : r ≥ n
    · rw [if_pos hrn]; exact h
    · rw [if_neg hrn]
      push Not at hrn
      have hc : c < m := by omega
      refine (h.b_is.getStable hc hrn).bind ?_
      rintro (_ | ⟨s, v⟩) ho
      · exact ih (c + 1) r (by omega) h (hm.skip he ho)
      · obtain ⟨hs, hsn, hv, hva, hne⟩ := ho
        obtain ⟨rfl, h1, hz, hm'⟩ := hm.pivot he hs hsn hc hne
        refine (h.permuteRows hrn).bind fun f₁ hf₁ => ?_
        refine (div_spec _ v wf_one hv (by rw [hva]; exact hne)).bind fun w hw => ?_
        have hwv : val w = (1 : K) := by rw [hw.2, val_one, hva, h1, div_one]
        refine (hf₁.scaleRow hrn hw.1 hwv).bind fun f₂ hf₂ => ?_
        refine (hf₂.replaceColUnderRow hrn hc hz).bind fun f₃ hf₃ => ?_
        exact ih (c + 1) (s + 1) (by omega) hf₃ hm'

theorem luFor_same {lu : LUInternal F} (he : Ech n m k piv b) (l c r : ℕ) (hcl : c + l = m)
    (h : lu.Is n m (fun i => i) ident b) (hm : Met k piv c r) :
    Spec (allowed F) (Mat.luFor n (List.range' c l) r lu)
      (fun lu' => lu'.Is n m (fun i => i) ident b) := by
  induction l generalizing c lu r with
  | zero => exact h
  | succ l ih =>
    rw [List.range'_succ, Mat.luFor]
    by_cases hrn : r ≥ n
    · rw [if_pos hrn]; exact h
    · rw [if_neg hrn]
      push Not at hrn
      have hc : c < m := by omega
      refine (h.u_is.getStable hc hrn).bind ?_
      rintro (_ | ⟨s, v⟩) ho
      · exact ih (c + 1) r (by omega) h (hm.skip he ho)
      · obtain ⟨hs, hsn, hv, hva, hne⟩ := ho
        obtain ⟨rfl, h1, hz, hm'⟩ := hm.pivot he hs hsn hc hne
        refine (h.permute hrn hrn).bind fun f₁ hf₁ => ?_
        simp only [Equiv.swap_self, Equiv.refl_apply, ite_self] at hf₁
        refine (hf₁.scaleRow hrn hv (by rw [hva]; exact hne)).bind fun f₂ hf₂ => ?_
        rw [hva, h1] at hf₂
        refine (hf₂.replaceColUnderRow hrn hc).bind fun f₃ hf₃ => ?_
        refine ih (c + 1) (s + 1) (by omega) (hf₃.congr (fun i j hi hj => ?_) (fun i j hi hj => ?_)) hm'
        · unfold Mat.upd ident
          split
          · rename_i hij
            rw [if_neg (by omega), hz i hij.1 hi, if_neg (by omega)]
          · split
            · rw [if_pos (by omega)]
            · rfl
        · by_cases his : i = s
          · subst his
            rw [if_neg (by omega), if_pos rfl, div_one, one_mul]
          · by_cases hsi : s < i
            · rw [if_pos hsi, if_neg his, if_neg his, hz i hsi hi, sub_zero, mul_zero, add_zero]
            · rw [if_neg hsi, if_neg his]

end Mat

/-! ## C150 -/

theorem RowEchelon.ech {n m k : ℕ} {A : Matrix (Fin n) (Fin m) K} {piv : Fin k → Fin m}
    (h : RowEchelon A k piv) :
    Ech n m k (fun r => if hr : r < k then (piv ⟨r, hr⟩ : ℕ) else 0) (matExt A) := by
  refine ⟨h.le, ?_, ?_, ?_, ?_, ?_⟩
  · intro r hr; rw [dif_pos hr]; exact (piv ⟨r, hr⟩).2
  · intro r s hrs hs
    rw [dif_pos (by omega), dif_pos hs]
    exact Fin.lt_def.mp (h.mono (a := ⟨r, by omega⟩) (b := ⟨s, hs⟩) (Fin.mk_lt_mk.mpr hrs))
  · intro r hr
    rw [dif_pos hr]
    have := h.one ⟨r, hr⟩
    rwa [← matExt_fin A] at this
  · intro r hr j hj
    rw [dif_pos hr] at hj
    have := h.left ⟨r, hr⟩ ⟨j, hj.trans (piv ⟨r, hr⟩).2⟩ hj
    rwa [← matExt_fin A] at this
  · intro i hi hin j hj
    have := h.zero ⟨i, hin⟩ hi ⟨j, hj⟩
    rwa [← matExt_fin A] at this

theorem ReducedRowEchelon.rech {n m k : ℕ} {A : Matrix (Fin n) (Fin m) K} {piv : Fin k → Fin m}
    (h : ReducedRowEchelon A k piv) :
    REch n m k (fun r => if hr : r < k then (piv ⟨r, hr⟩ : ℕ) else 0) (matExt A) :=
  { h.toRowEchelon.ech with
    above := fun r hr i hi => by
      have hn := h.le
      rw [dif_pos hr]
      have := h.unit ⟨r, hr⟩ ⟨i, by omega⟩ (fun e => by
        have := congrArg Fin.val e
        simp at this
        omega)
      rwa [← matExt_fin A] at this }

theorem represents_ident {M : Mat F} {n : ℕ} (h : M.Is n n (ident : ℕ → ℕ → K)) :
    M.Represents (1 : Matrix (Fin n) (Fin n) K) :=
  h.represents fun i j => by rw [Matrix.one_apply, ident]; simp only [Fin.ext_iff]

section
variable {n m : ℕ} (M : Mat F) (A : Matrix (Fin n) (Fin m) K) (hM : M.Represents A)
  (hn : n * n < 18446744073709551616)
include hM hn

theorem rowEchelon_same {k : ℕ} {piv : Fin k → Fin m} (hA : RowEchelon A k piv) :
    Spec (allowed F) M.rowEchelon (fun f => f.Parts M n m ident (matExt A)) := by
  have h := hM.is
  unfold Mat.rowEchelon
  rw [h.rows, h.cols, List.range_eq_range']
  exact Mat.rowEchelonFor_same hA.ech m 0 0 (Nat.zero_add m)
    ⟨rfl, Mat.is_identity h.rows_lt hn, h⟩ ⟨Nat.zero_le _, fun i hi => by omega, fun i _ _ => Nat.zero_le _⟩

/-- **C150** `row_echelon` leaves a row echelon form with unit pivots alone: `b` is the given matrix
and `p` the identity. -/
theorem C150_row_echelon {k : ℕ} {piv : Fin k → Fin m} (hA : RowEchelon A k piv) :
    Spec (allowed F) M.rowEchelon (fun f => f.p.Represents (1 : Matrix (Fin n) (Fin n) K) ∧
      f.b.Represents A ∧ f.original = M) :=
  (rowEchelon_same M A hM hn hA).imp fun _ h =>
    ⟨represents_ident h.p_is, h.b_is.represents fun i j => matExt_fin A i j, h.original⟩

/-- **C150** `row_echelon().to_rref()` leaves a reduced row echelon form alone. -/
theorem C150_rref {k : ℕ} {piv : Fin k → Fin m} (hA : ReducedRowEchelon A k piv) :
    Spec (allowed F) (rref M) (fun f => f.p.Represents (1 : Matrix (Fin n) (Fin n) K) ∧
      f.b.Represents A ∧ f.original = M) := by
  unfold rref
  refine (rowEchelon_same M A hM hn hA.toRowEchelon).bind fun f hf => ?_
  exact (hf.toRref hA.rech).imp fun _ h =>
    ⟨represents_ident h.p_is, h.b_is.represents fun i j => matExt_fin A i j, h.original⟩

/-- **C150** `lu` of a row echelon form with unit pivots: `p` and `l` are identities, `u` is the
given matrix. -/
theorem C150_lu {k : ℕ} {piv : Fin k → Fin m} (hA : RowEchelon A k piv) :
    Spec (allowed F) M.lu (fun d => d.p.Represents (1 : Matrix (Fin n) (Fin n) K) ∧
      d.l.Represents (1 : Matrix (Fin n) (Fin n) K) ∧ d.u.Represents A) := by
  have h := hM.is
  unfold Mat.lu
  rw [h.rows, h.cols, List.range_eq_range' (n := m)]
  refine (Mat.luFor_same hA.ech m 0 0 (Nat.zero_add m)
    ⟨by simp, fun i hi => by simp [hi], ⟨fun i hi => hi, fun i j _ _ h => h⟩,
      Mat.is_identity h.rows_lt hn, h⟩
    ⟨Nat.zero_le _, fun i hi => by omega, fun i _ _ => Nat.zero_le _⟩).bind ?_
  intro lu' h'
  exact ⟨represents_ident (Mat.is_permutationFromVec h'.p_len h'.p_get h.rows_lt hn),
    represents_ident h'.l_is, h'.u_is.represents fun i j => matExt_fin A i j⟩

/-- **C150** Eliminating twice is eliminating once: `row_echelon` applied to the `b` of a
`row_echelon`, `row_echelon().to_rref()` applied to the `b` of a `row_echelon().to_rref()`, and `lu`
applied to the `u` of an `lu` return that matrix again, with identities for the other factors. -/
theorem C150_idempotent :
    Spec (allowed F) (do let f ← M.rowEchelon; let g ← f.b.rowEchelon; pure (f, g))
      (fun x => ∃ B : Matrix (Fin n) (Fin m) K, x.1.b.Represents B ∧ x.2.b.Represents B ∧
        x.2.p.Represents (1 : Matrix (Fin n) (Fin n) K)) ∧
    Spec (allowed F) (do let f ← rref M; let g ← rref f.b; pure (f, g))
      (fun x => ∃ B : Matrix (Fin n) (Fin m) K, x.1.b.Represents B ∧ x.2.b.Represents B ∧
        x.2.p.Represents (1 : Matrix (Fin n) (Fin n) K)) ∧
    Spec (allowed F) (do let d ← M.lu; let e ← d.u.lu; pure (d, e))
      (fun x => ∃ U : Matrix (Fin n) (Fin m) K, x.1.u.Represents U ∧ x.2.u.Represents U ∧
        x.2.p.Represents (1 : Matrix (Fin n) (Fin n) K) ∧
        x.2.l.Represents (1 : Matrix (Fin n) (Fin n) K)) := by
  refine ⟨?_, ?_, ?_⟩
  · refine (C61_row_echelon M A hM hn).bind ?_
    rintro f ⟨P, B, k, piv, _, hB, _, _, _, he⟩
    refine (C150_row_echelon f.b B hB hn he).bind ?_
    rintro g ⟨hp, hb, _⟩
    exact ⟨B, hB, hb, hp⟩
  · refine (C62_rref M A hM hn).bind ?_
    rintro f ⟨P, B, k, piv, _, hB, _, _, _, he⟩
    refine (C150_rref f.b B hB hn he).bind ?_
    rintro g ⟨hp, hb, _⟩
    exact ⟨B, hB, hb, hp⟩
  · refine (C60_lu_echelon M A hM hn).bind ?_
    rintro d ⟨U, k, piv, hU, he⟩
    refine (C150_lu d.u U hU hn he).bind ?_
    rintro e ⟨hp, hl, hu⟩
    exact ⟨U, hU, hu, hp, hl⟩

/-- **C150** The converse for `row_echelon`: if it returns the given matrix, then that matrix was in
row echelon form. -/
theorem C150_row_echelon_converse (f : Form F) (hf : M.rowEchelon = .ok f) (hb : f.b.Represents A) :
    ∃ (k : ℕ) (piv : Fin k → Fin m), RowEchelon A k piv := by
  obtain ⟨P, B, k, piv, _, hB, _, _, _, he⟩ := (C61_row_echelon M A hM hn).of_ok hf
  have : B = A := hB.unique hb
  subst this
  exact ⟨k, piv, he⟩

end

/-- The hypotheses of C150 hold for a matrix of rationals that is not the identity, and the library
returns it as it is. -/
example : letI := Rational.field .debug
    letI := Rational.lawful
    ReducedRowEchelon (K := ℚ) (n := 3) (m := 4) !![1, 2, 0, 3; 0, 0, 1, 4; 0, 0, 0, 0] 2 ![0, 2] := by
  refine ⟨⟨by decide, by decide, ?_, ?_, ?_⟩, ?_⟩
  · intro r; fin_cases r <;> rfl
  · intro r j hj; fin_cases r <;> fin_cases j <;> first | rfl | (exact absurd hj (by decide))
  · intro i hi j; fin_cases i <;> fin_cases j <;> first | rfl | (exact absurd hi (by decide))
  · intro r i hi; fin_cases r <;> fin_cases i <;> first | rfl | (exact absurd rfl hi)

example : letI := Rational.field .debug
    letI := Rational.stability .debug
    letI := Rational.epsilonEquality
    (do let f ← rref (ratMat 3 4 [1, 2, 0, 3, 0, 0, 1, 4, 0, 0, 0, 0]); pure (f.p, f.b) : Res _) =
      .ok (ratMat 3 3 [1, 0, 0, 0, 1, 0, 0, 0, 1], ratMat 3 4 [1, 2, 0, 3, 0, 0, 1, 4, 0, 0, 0, 0]) := by
  decide +kernel

end Verif
