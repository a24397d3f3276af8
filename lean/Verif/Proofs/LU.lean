import Verif.Proofs.Elim

/-!
# The LU decomposition

The loop of `lu` keeps `a (π i) j = Σ_{k<r} l i k * u k j + (if r ≤ i then u i j else 0)`.
-/

set_option linter.unusedSectionVars false

namespace Verif

open Res LawfulRField LinAlg

variable {F : Type} [RField F] {K : Type} [Field K] [LawfulRField F K] [EpsilonEquality F]
  [StabilityCmp F] [LawfulPivot F K]

namespace Mat
variable {M : Mat F} {n m : ℕ} {a : ℕ → ℕ → K}

theorem Is.permuteUnderDiagonal (h : M.Is n m a) {E : Panic → Prop} {s t : ℕ} (hs : s < n) (ht : t < n)
    (hsm : s ≤ m) :
    Spec E (M.permuteUnderDiagonal s t)
      (fun M' => M'.Is n m (fun i j => if j < s then a (Equiv.swap s t i) j else a i j)) := by
  unfold Mat.permuteUnderDiagonal
  refine foldlM_range_spec (fun k (M' : Mat F) => M'.Is n m
    (fun i j => if j < k then a (Equiv.swap s t i) j else a i j)) ?_ ?_
  · exact h.congr fun i' j _ _ => by simp
  · intro k M' hk hM'
    refine (hM'.swap hs (by omega) ht (by omega)).imp fun M'' hM'' => hM''.congr fun i j hi hj => ?_
    unfold upd
    by_cases hjk : j = k
    · subst hjk
      simp only [and_true, lt_irrefl, if_false, Nat.lt_succ_self, if_true]
      by_cases h1 : i = t
      · subst h1; simp
      · by_cases h2 : i = s
        · subst h2; simp [h1]
        · simp [h1, h2, Equiv.swap_apply_of_ne_of_ne h2 h1]
    · have : j < k ↔ j < k + 1 := by omega
      simp only [hjk, and_false, if_false, this]

end Mat

theorem swapList_perm {α : Type} {l : List α} {i j : ℕ} (hi : i < l.length) (hj : j < l.length) :
    ∃ l', Mat.swapList l i j = .ok l' ∧ l'.length = l.length ∧
      ∀ k, l'[k]? = l[Equiv.swap i j k]? := by
  refine ⟨(l.set i l[j]).set j l[i], ?_, by simp, fun k => ?_⟩
  · unfold Mat.swapList
    rw [List.getElem?_eq_getElem hi, List.getElem?_eq_getElem hj]
  · by_cases h1 : k = j
    · subst h1; simp [hj, hi]
    · by_cases h2 : k = i
      · subst h2
        rw [Equiv.swap_apply_left, List.getElem?_set_ne (Ne.symm h1), List.getElem?_set_self hi,
          List.getElem?_eq_getElem hj]
      · rw [Equiv.swap_apply_of_ne_of_ne h2 h1, List.getElem?_set_ne (Ne.symm h1),
          List.getElem?_set_ne (Ne.symm h2)]

/-- `π` restricted to the numbers below `n` is a permutation of them. -/
def PermBelow (n : ℕ) (π : ℕ → ℕ) : Prop :=
  (∀ i, i < n → π i < n) ∧ ∀ i j, i < n → j < n → π i = π j → i = j

theorem PermBelow.swap {n : ℕ} {π : ℕ → ℕ} (h : PermBelow n π) {s t : ℕ} (hs : s < n) (ht : t < n) :
    PermBelow n (fun i => π (Equiv.swap s t i)) :=
  ⟨fun _ hi => h.1 _ (swap_lt hs ht hi), fun _ _ hi hj e =>
    (Equiv.swap s t).injective (h.2 _ _ (swap_lt hs ht hi) (swap_lt hs ht hj) e)⟩

namespace LUInternal
variable {lu : LUInternal F} {n m : ℕ} {a l u : ℕ → ℕ → K} {π : ℕ → ℕ}

/-- The parts of the state of `lu`. -/
structure Is (lu : LUInternal F) (n m : ℕ) (π : ℕ → ℕ) (l u : ℕ → ℕ → K) : Prop where
  p_len : lu.p.length = n
  p_get : ∀ i, i < n → lu.p[i]? = some (π i)
  perm : PermBelow n π
  l_is : lu.l.Is n n l
  u_is : lu.u.Is n m u

theorem Is.congr (h : lu.Is n m π l u) {l' u' : ℕ → ℕ → K}
    (hl : ∀ i j, i < n → j < n → l i j = l' i j) (hu : ∀ i j, i < n → j < m → u i j = u' i j) :
    lu.Is n m π l' u' :=
  { h with l_is := h.l_is.congr hl, u_is := h.u_is.congr hu }

theorem Is.permute (h : lu.Is n m π l u) {s t : ℕ} (hs : s < n) (ht : t < n) :
    Spec (allowed F) (lu.permute s t) (fun lu' => lu'.Is n m (fun i => π (Equiv.swap s t i))
      (fun i j => if j < s then l (Equiv.swap s t i) j else l i j)
      (fun i j => u (Equiv.swap s t i) j)) := by
  obtain ⟨p', h1, h2, h3⟩ := swapList_perm (l := lu.p) (i := s) (j := t) (by rw [h.p_len]; exact hs)
    (by rw [h.p_len]; exact ht)
  unfold LUInternal.permute
  rw [h1, bind_ok]
  refine (h.u_is.permuteRows hs ht).bind fun u' hu' => ?_
  refine (h.l_is.permuteUnderDiagonal hs ht (by omega)).bind fun l' hl' => ?_
  exact ⟨h2.trans h.p_len, fun i hi => (h3 i).trans (h.p_get _ (swap_lt hs ht hi)), h.perm.swap hs ht,
    hl', hu'⟩

theorem Is.scaleRow (h : lu.Is n m π l u) {r : ℕ} {v : F} (hr : r < n) (hv : wf v)
    (hv0 : val v ≠ (0 : K)) :
    Spec (allowed F) (lu.scaleRow r v) (fun lu' => lu'.Is n m π
      (Mat.upd l r r (val v)) (fun i j => if i = r then 1 / val v * u r j else u i j)) := by
  unfold LUInternal.scaleRow
  refine (h.l_is.set_spec hr hr hv).bind fun l' hl' => ?_
  refine (div_spec _ v wf_one hv hv0).bind fun w hw => ?_
  refine (h.u_is.scaleRow hr hw.1).bind fun u' hu' => ?_
  rw [hw.2, val_one] at hu'
  exact { h with l_is := hl', u_is := hu' }

theorem Is.replaceColUnderRow (h : lu.Is n m π l u) {r c : ℕ} (hr : r < n) (hc : c < m) :
    Spec (allowed F) (lu.replaceColUnderRow r c) (fun lu' => lu'.Is n m π
      (fun i j => if r < i ∧ j = r then u i c else l i j)
      (fun i j => if r < i then u i j + u r j * (0 - u i c) else u i j)) := by
  unfold LUInternal.replaceColUnderRow
  rw [h.u_is.rows]
  refine (foldlM_range'_spec (fun k lu' => lu'.Is n m π
    (fun i j => if (r < i ∧ i < k) ∧ j = r then u i c else l i j)
    (fun i j => if r < i ∧ i < k then u i j + u r j * (0 - u i c) else u i j)) ?_ ?_).imp fun f' hf' => ?_
  · refine h.congr (fun i j _ _ => ?_) (fun i j _ _ => ?_)
    · rw [if_neg (by omega)]
    · rw [if_neg (by omega)]
  · intro k lu' hk hk' hf'
    have hkn : k < n := by omega
    refine (hf'.u_is.get_spec hkn hc).bind fun x hx => ?_
    refine (sub_spec _ x wf_zero hx.1).bind fun s hs => ?_
    refine (hf'.u_is.replaceRow hr hkn hs.1).bind fun u' hu' => ?_
    refine (hf'.l_is.set_spec hkn hr hx.1).bind fun l' hl' => ?_
    have hxv : val x = u k c := by
      rw [hx.2, if_neg (by omega)]
    refine { hf' with l_is := hl'.congr fun i j hi hj => ?_, u_is := hu'.congr fun i j hi hj => ?_ }
    · unfold Mat.upd
      rw [hxv]
      by_cases hik : i = k
      · subst hik
        have h1 : ¬ ((r < i ∧ i < i) ∧ j = r) := by omega
        have h2 : ((r < i ∧ i < i + 1) ∧ j = r) ↔ j = r := by omega
        simp only [true_and, h1, h2, if_false]
      · have h1 : ((r < i ∧ i < k) ∧ j = r) ↔ ((r < i ∧ i < k + 1) ∧ j = r) := by omega
        simp only [hik, false_and, if_false, h1]
    · rw [hs.2, val_zero, hxv]
      by_cases hik : i = k
      · subst hik
        have h1 : ¬ (r < i ∧ i < i) := by omega
        have h2 : ¬ (r < r ∧ r < i) := by omega
        have h3 : r < i ∧ i < i + 1 := by omega
        rw [if_pos rfl, if_neg h1, if_neg h2, if_pos h3]
      · rw [if_neg hik]
        have : (r < i ∧ i < k) ↔ (r < i ∧ i < k + 1) := by omega
        simp only [this]
  · refine hf'.congr (fun i j hi hj => ?_) (fun i j hi hj => ?_)
    · have : (r < i ∧ i < r + 1 + (n - (r + 1))) ↔ r < i := by omega
      simp only [this]
    · have : (r < i ∧ i < r + 1 + (n - (r + 1))) ↔ r < i := by omega
      simp only [this]

end LUInternal

/-- The invariant of `lu` before the `r`-th pivot. -/
structure LUInv (n m r : ℕ) (π : ℕ → ℕ) (a l u : ℕ → ℕ → K) : Prop where
  ident : ∀ i j, i < n → j < n → r ≤ j → l i j = if i = j then 1 else 0
  lower : ∀ i j, i < j → j < n → l i j = 0
  diag : ∀ i, i < n → l i i ≠ 0
  eq : ∀ i j, i < n → j < m →
    a (π i) j = ∑ k ∈ Finset.range r, l i k * u k j + (if r ≤ i then u i j else 0)

section
omit [LawfulPivot F K] [StabilityCmp F] [EpsilonEquality F] [LawfulRField F K] [RField F]

theorem LUInv.step {n m r s c : ℕ} {π : ℕ → ℕ} {a l u : ℕ → ℕ → K} (h : LUInv n m r π a l u)
    (hr : r < n) (hs : r ≤ s) (hsn : s < n) (h0 : u s c ≠ 0) {l₁ l₂ l₃ : ℕ → ℕ → K}
    (h₁ : l₁ = fun i j => if j < r then l (Equiv.swap r s i) j else l i j)
    (h₂ : l₂ = Mat.upd l₁ r r (u s c))
    (h₃ : l₃ = fun i j => if r < i ∧ j = r then u (Equiv.swap r s i) c else l₂ i j) :
    LUInv n m (r + 1) (fun i => π (Equiv.swap r s i)) a l₃ (elimStep u r s c) := by
  have e1 : ∀ i j, j < r → l₃ i j = l (Equiv.swap r s i) j := by
    intro i j hj
    have h1 : j ≠ r := by omega
    simp [h₃, h₂, h₁, Mat.upd, h1, hj]
  have e2 : l₃ r r = u s c := by simp [h₃, h₂, Mat.upd]
  have e3 : ∀ i, r < i → l₃ i r = u (Equiv.swap r s i) c := by
    intro i hi; simp [h₃, hi]
  have e4 : ∀ i j, ¬ (r ≤ i ∧ j = r) → ¬ j < r → l₃ i j = l i j := by
    intro i j h1 h2
    have h3 : ¬ (r < i ∧ j = r) := by omega
    have h4 : ¬ (i = r ∧ j = r) := by omega
    simp only [h₃, h₂, h₁, Mat.upd, h2, h3, h4, if_false]
  have f1 : ∀ i, i < r → ∀ j, elimStep u r s c i j = u i j := by
    intro i hi j
    have h1 : ¬ r < i := by omega
    have h2 : i ≠ r := by omega
    simp only [elimStep, h1, h2, if_false, swap_of_lt hs hi]
  have f2 : ∀ j, elimStep u r s c r j = 1 / u s c * u s j := by
    intro j; simp [elimStep]
  have f3 : ∀ i, r < i → ∀ j, elimStep u r s c i j =
      u (Equiv.swap r s i) j + 1 / u s c * u s j * (0 - u (Equiv.swap r s i) c) := by
    intro i hi j
    have h2 : i ≠ r := by omega
    simp [elimStep, hi, h2]
  refine ⟨?_, ?_, ?_, ?_⟩
  · intro i j hi hj hrj
    rw [e4 i j (by omega) (by omega)]
    exact h.ident i j hi hj (by omega)
  · intro i j hij hj
    by_cases hjr : j < r
    · rw [e1 i j hjr, swap_of_lt hs (by omega)]
      exact h.lower i j hij hj
    · rw [e4 i j (by omega) hjr]
      exact h.lower i j hij hj
  · intro i hi
    rcases lt_trichotomy i r with h1 | h1 | h1
    · rw [e1 i i h1, swap_of_lt hs h1]; exact h.diag i hi
    · subst h1; rw [e2]; exact h0
    · rw [e4 i i (by omega) (by omega)]; exact h.diag i hi
  · intro i j hi hj
    have hτ := swap_lt (s := r) (t := s) (by omega) hsn hi
    rw [h.eq _ j hτ hj, Finset.sum_range_succ]
    have hsum : ∑ k ∈ Finset.range r, l (Equiv.swap r s i) k * u k j =
        ∑ k ∈ Finset.range r, l₃ i k * elimStep u r s c k j := by
      refine Finset.sum_congr rfl fun k hk => ?_
      have hk : k < r := by simpa using hk
      rw [e1 i k hk, f1 k hk]
    rw [hsum, add_assoc]
    congr 1
    rcases lt_trichotomy i r with h1 | h1 | h1
    · have h2 : l₃ i r = 0 := by
        rw [e4 i r (by omega) (by omega)]
        exact h.lower i r h1 (by omega)
      rw [h2, swap_of_lt hs h1, if_neg (by omega), if_neg (by omega)]; ring
    · subst h1
      rw [e2, f2, Equiv.swap_apply_left, if_pos hs, if_neg (by omega)]
      field_simp; ring
    · rw [e3 i h1, f2, f3 i h1, if_pos (swap_ge hs (by omega)), if_pos (by omega)]
      ring

theorem LUInv.final {n m r : ℕ} {π : ℕ → ℕ} {a l u : ℕ → ℕ → K} (h : LUInv n m r π a l u) (hr : r ≤ n)
    {i j : ℕ} (hi : i < n) (hj : j < m) : a (π i) j = ∑ k ∈ Finset.range n, l i k * u k j := by
  rw [h.eq i j hi hj, ← Finset.sum_range_add_sum_Ico _ hr]
  congr 1
  rw [Finset.sum_congr rfl (g := fun k => if i = k then u k j else 0)]
  · rw [Finset.sum_ite_eq]
    simp [hi]
  · intro k hk
    rw [Finset.mem_Ico] at hk
    rw [h.ident i k hi (by omega) (by omega)]
    split <;> simp

end

namespace Mat
variable {M : Mat F} {n m : ℕ} {a : ℕ → ℕ → K}

theorem luFor_spec {lu : LUInternal F} {l u : ℕ → ℕ → K} {r : ℕ} {piv π : ℕ → ℕ} (c k : ℕ)
    (hcl : c + k = m) (h : lu.Is n m π l u) (hi : LUInv n m r π a l u) (he : Ech n c r piv u) :
    Spec (allowed F) (Mat.luFor n (List.range' c k) r lu)
      (fun lu' => ∃ π' l' u' r' piv', lu'.Is n m π' l' u' ∧ LUInv n m r' π' a l' u' ∧
        Ech n m r' piv' u') := by
  induction k generalizing c lu l u r piv π with
  | zero =>
    have : c = m := by omega
    subst this
    exact ⟨π, l, u, r, piv, h, hi, he⟩
  | succ k ih =>
    rw [List.range'_succ, Mat.luFor]
    have hle := he.le
    by_cases hrn : r ≥ n
    · rw [if_pos hrn]
      have : r = n := by omega
      subst this
      exact ⟨π, l, u, _, piv, h, hi, he.full (by omega)⟩
    · rw [if_neg hrn]
      push Not at hrn
      have hc : c < m := by omega
      refine (h.u_is.getStable hc hrn).bind ?_
      rintro (_ | ⟨s, v⟩) ho
      · exact ih (c + 1) (by omega) h hi (he.skip ho)
      · obtain ⟨hs, hsn, hv, hva, hne⟩ := ho
        refine (h.permute hrn hsn).bind fun f₁ hf₁ => ?_
        refine (hf₁.scaleRow hrn hv (by rw [hva]; exact hne)).bind fun f₂ hf₂ => ?_
        rw [hva] at hf₂
        refine (hf₂.replaceColUnderRow hrn hc).bind fun f₃ hf₃ => ?_
        refine ih (c + 1) (by omega) (hf₃.congr (fun i j _ _ => ?_) (fun i j _ _ => rfl))
          (hi.step hrn hs hsn hne rfl rfl rfl) (he.step hs hsn hne)
        have : (r < i ∧ j = r) → i ≠ r := by omega
        by_cases hri : r < i ∧ j = r
        · rw [if_pos hri, if_pos hri, if_neg (this hri)]
        · rw [if_neg hri, if_neg hri]

omit [EpsilonEquality F] [StabilityCmp F] [LawfulPivot F K] in
theorem is_permutationFromVec {p : List ℕ} {π : ℕ → ℕ} (hl : p.length = n)
    (hp : ∀ i, i < n → p[i]? = some (π i)) (hn : n < 18446744073709551616)
    (hnn : n * n < 18446744073709551616) :
    (Mat.permutationFromVec p : Mat F).Is n n (fun i j => if π i = j then (1 : K) else 0) := by
  unfold Mat.permutationFromVec
  rw [hl]
  refine (is_of_box hn hn hnn ?_).congr ?_
  · intro i j _ _; dsimp only; split
    · exact wf_one
    · exact wf_zero
  · intro i j hi _
    simp only [hp i hi, Option.some.injEq]
    split
    · exact val_one
    · exact val_zero

/-- `lu`, entry by entry. -/
theorem Is.lu (h : M.Is n m a) (hnn : n * n < 18446744073709551616) :
    Spec (allowed F) M.lu (fun d => ∃ π l u k piv, PermBelow n π ∧
      d.p.Is n n (fun i j => if π i = j then (1 : K) else 0) ∧ d.l.Is n n l ∧ d.u.Is n m u ∧
      (∀ i j, i < j → j < n → l i j = 0) ∧ (∀ i, i < n → l i i ≠ 0) ∧
      (∀ i j, i < n → j < m → a (π i) j = ∑ k ∈ Finset.range n, l i k * u k j) ∧
      Ech n m k piv u) := by
  unfold Mat.lu
  rw [h.rows, h.cols, List.range_eq_range' (n := m)]
  refine (luFor_spec (a := a) (π := fun i => i) (piv := fun _ => 0) 0 m (Nat.zero_add m)
    ⟨by simp, fun i hi => by simp [hi], ⟨fun i hi => hi, fun i j _ _ h => h⟩,
      is_identity h.rows_lt hnn, h⟩ ?_ (Ech.zero n _ a)).bind ?_
  · refine ⟨fun i j _ _ _ => rfl, fun i j hij _ => if_neg (by omega), fun i _ => ?_, fun i j _ _ => ?_⟩
    · rw [if_pos rfl]; exact one_ne_zero
    · simp
  · rintro lu' ⟨π, l, u, k, piv, h1, h2, h3⟩
    exact ⟨π, l, u, k, piv, h1.perm, is_permutationFromVec h1.p_len h1.p_get h.rows_lt hnn, h1.l_is,
      h1.u_is, h2.lower, h2.diag, fun i j hi hj => h2.final h3.le hi hj, h3⟩

end Mat
end Verif
