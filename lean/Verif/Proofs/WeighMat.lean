import Verif.Proofs.Weigh
import Verif.Proofs.Shape

/-!
# Elimination on matrices whose entries differ by factors

`MW W n m ω M M'`: `M` and `M'` are `n × m` matrices and the entry of `M'` in row `i` and column `j` is `ω i j` times
that of `M`.  If the operations and the comparisons respect the factors, `lu` and `row_echelon` take the same course
on two matrices whose factors are products of a factor for the row and a factor for the column.
-/

set_option linter.unusedSectionVars false

namespace Verif
open Res LinAlg

namespace Res
variable {α β γ δ : Type} {E : Panic → Prop}

theorem Near.foldRange' {S : ℕ → γ → δ → Prop} {f : γ → ℕ → Res γ} {g : δ → ℕ → Res δ} {s k : ℕ}
    (H : ∀ i c d, s ≤ i → i < s + k → S i c d → Near E (S (i + 1)) (f c i) (g d i)) {c : γ} {d : δ} (h : S s c d) :
    Near E (S (s + k)) ((List.range' s k).foldlM f c) ((List.range' s k).foldlM g d) := by
  induction k generalizing s c d with
  | zero => exact Near.ok h
  | succ k ih =>
    rw [List.range'_succ, List.foldlM_cons, List.foldlM_cons, show s + (k + 1) = (s + 1) + k by omega]
    exact (H s c d le_rfl (by omega) h).bind fun c d hcd =>
      ih (fun i c d h1 h2 h3 => H i c d (by omega) (by omega) h3) hcd

theorem Near.foldRange {S : ℕ → γ → δ → Prop} {f : γ → ℕ → Res γ} {g : δ → ℕ → Res δ} {n : ℕ}
    (H : ∀ i c d, i < n → S i c d → Near E (S (i + 1)) (f c i) (g d i)) {c : γ} {d : δ} (h : S 0 c d) :
    Near E (S n) ((List.range n).foldlM f c) ((List.range n).foldlM g d) := by
  have := Near.foldRange' (s := 0) (k := n) (fun i c d _ h2 h3 => H i c d (by omega) h3) h
  rwa [Nat.zero_add, ← List.range_eq_range'] at this

theorem maxBy_near {R : α → β → Prop} {cmp : α → α → Res Ordering} {cmp' : β → β → Res Ordering}
    (H : ∀ a b a' b', R a b → R a' b' → Near E (· = ·) (cmp a a') (cmp' b b')) {l : List α} {l' : List β}
    (hl : List.Forall₂ R l l') : Near E (ORel R) (maxBy cmp l) (maxBy cmp' l') := by
  cases hl with
  | nil => exact Near.ok trivial
  | cons h hl =>
    dsimp only [maxBy]
    rw [← bind_pure_comp, ← bind_pure_comp]
    refine (Near.foldlM (S := R) hl (fun c d a b hcd hab => ?_) h).bind fun a b hab => Near.ok hab
    refine (H _ _ _ _ hcd hab).bind ?_
    rintro o _ rfl
    cases o
    · exact Near.ok hab
    · exact Near.ok hab
    · exact Near.ok hcd

end Res

variable {F G U : Type} [RField F] [RField G] [CommGroup U]

/-- `M` and `M'` are `n × m` matrices whose entries differ by the factors `ω i j`. -/
def MW (W : U → F → G → Prop) (n m : ℕ) (ω : ℕ → ℕ → U) (M : Mat F) (M' : Mat G) : Prop :=
  ∃ a a', M.Has n m a ∧ M'.Has n m a' ∧ ∀ i j, i < n → j < m → W (ω i j) (a i j) (a' i j)

/-- `M` and `M'` are `n × m` matrices whose entries are related by `R i j`. -/
def ME (n m : ℕ) (R : ℕ → ℕ → F → G → Prop) (M : Mat F) (M' : Mat G) : Prop :=
  ∃ a a', M.Has n m a ∧ M'.Has n m a' ∧ ∀ i j, i < n → j < m → R i j (a i j) (a' i j)

/-- Operations that respect factors, with subtraction. -/
structure SubOps (E : Panic → Prop) (W : U → F → G → Prop) : Prop extends WeighOps E W where
  sub : ∀ {u x y x' y'}, W u x y → W u x' y' → Near E (W u) (RField.sub x x') (RField.sub y y')

/-- What elimination needs beyond `WeighOps`: the subtraction and the comparisons respect the factors, and what is
not close to zero is not zero. -/
structure PivotOps [EpsilonEquality F] [StabilityCmp F] [EpsilonEquality G] [StabilityCmp G] (E : Panic → Prop)
    (W : U → F → G → Prop) : Prop extends SubOps E W where
  eps : ∀ {u x y}, W u x y → Near E (· = ·) (EpsilonEquality.epsilonEquals x RField.zero)
    (EpsilonEquality.epsilonEquals y RField.zero)
  stab : ∀ {u v x y x' y'}, W u x y → W v x' y' → Near E (· = ·) (StabilityCmp.stabilityCmp x x')
    (StabilityCmp.stabilityCmp y y')
  nonzero : ∀ {x : F}, EpsilonEquality.epsilonEquals x RField.zero = .ok false → RField.beq x RField.zero = false

variable {E : Panic → Prop} {W : U → F → G → Prop} {n m : ℕ} {ω : ℕ → ℕ → U} {M : Mat F} {M' : Mat G}

namespace ME
variable {R : ℕ → ℕ → F → G → Prop}

theorem imp {R' : ℕ → ℕ → F → G → Prop} (h : ME n m R M M')
    (e : ∀ i j x y, i < n → j < m → R i j x y → R' i j x y) : ME n m R' M M' := by
  obtain ⟨a, a', h1, h2, h3⟩ := h
  exact ⟨a, a', h1, h2, fun i j hi hj => e i j _ _ hi hj (h3 i j hi hj)⟩

theorem set (h : ME n m R M M') {i j : ℕ} (hi : i < n) (hj : j < m) {P : F → G → Prop} {x : F} {y : G}
    (hx : P x y) :
    Near E (ME n m fun i' j' => if i' = i ∧ j' = j then P else R i' j') (M.set i j x) (M'.set i j y) := by
  obtain ⟨a, a', h1, h2, h3⟩ := h
  obtain ⟨M₁, e1, g1⟩ := h1.set hi hj (y := x)
  obtain ⟨M₂, e2, g2⟩ := h2.set hi hj (y := y)
  rw [e1, e2]
  refine Near.ok ⟨_, _, g1, g2, fun i' j' hi' hj' => ?_⟩
  dsimp only
  by_cases h : i' = i ∧ j' = j
  · simp only [if_pos h]; exact hx
  · simp only [if_neg h]; exact h3 i' j' hi' hj'

theorem swap (h : ME n m R M M') {i j i' j' : ℕ} (hi : i < n) (hj : j < m) (hi' : i' < n) (hj' : j' < m) :
    Near E (ME n m fun x y => if x = i' ∧ y = j' then R i j else if x = i ∧ y = j then R i' j' else R x y)
      (M.swap (i, j) (i', j')) (M'.swap (i, j) (i', j')) := by
  obtain ⟨a, a', h1, h2, h3⟩ := h
  obtain ⟨M₁, e1, g1⟩ := h1.swap hi hj hi' hj'
  obtain ⟨M₂, e2, g2⟩ := h2.swap hi hj hi' hj'
  rw [e1, e2]
  refine Near.ok ⟨_, _, g1, g2, fun x y hx hy => ?_⟩
  dsimp only
  by_cases h : x = i' ∧ y = j'
  · simp only [if_pos h]; exact h3 i j hi hj
  · by_cases h' : x = i ∧ y = j
    · simp only [if_neg h, if_pos h']; exact h3 i' j' hi' hj'
    · simp only [if_neg h, if_neg h']; exact h3 x y hx hy

theorem permuteUnderDiagonal (h : ME n m R M M') {s t : ℕ} (hs : s < n) (ht : t < n) (hsm : s ≤ m) :
    Near E (ME n m fun i j => if j < s then R (Equiv.swap s t i) j else R i j) (M.permuteUnderDiagonal s t)
      (M'.permuteUnderDiagonal s t) := by
  unfold Mat.permuteUnderDiagonal
  refine Near.foldRange (S := fun k => ME n m fun i j => if j < k then R (Equiv.swap s t i) j else R i j) ?_ ?_
  · intro k A B hk hA
    refine (hA.swap hs (show k < m by omega) ht (show k < m by omega)).imp fun A B hA =>
      hA.imp fun i j x y hi hj hR => ?_
    by_cases hjk : j = k
    · subst hjk
      simp only [and_true, lt_irrefl, if_false, Nat.lt_succ_self, if_true] at hR ⊢
      by_cases h1 : i = t
      · subst h1; simpa using hR
      · by_cases h2 : i = s
        · subst h2; simpa [h1] using hR
        · simpa [h1, h2, Equiv.swap_apply_of_ne_of_ne h2 h1] using hR
    · have : j < k ↔ j < k + 1 := by omega
      simpa only [hjk, and_false, if_false, this] using hR
  · exact h.imp fun i j x y _ _ hR => by simpa using hR

end ME

namespace MW

theorem congr {ω' : ℕ → ℕ → U} (h : MW W n m ω M M') (e : ∀ i j, i < n → j < m → ω i j = ω' i j) :
    MW W n m ω' M M' := by
  obtain ⟨a, a', h1, h2, h3⟩ := h
  exact ⟨a, a', h1, h2, fun i j hi hj => e i j hi hj ▸ h3 i j hi hj⟩

theorem rows (h : MW W n m ω M M') : M.rows = n ∧ M'.rows = n := by
  obtain ⟨a, a', h1, h2, h3⟩ := h
  exact ⟨h1.rows, h2.rows⟩

theorem cols (h : MW W n m ω M M') : M.cols = m ∧ M'.cols = m := by
  obtain ⟨a, a', h1, h2, h3⟩ := h
  exact ⟨h1.cols, h2.cols⟩

theorem get (h : MW W n m ω M M') {i j : ℕ} (hi : i < n) (hj : j < m) :
    Near E (W (ω i j)) (M.get i j) (M'.get i j) := by
  obtain ⟨a, a', h1, h2, h3⟩ := h
  rw [h1.get hi hj, h2.get hi hj]
  exact Near.ok (h3 i j hi hj)

theorem set (h : MW W n m ω M M') {i j : ℕ} (hi : i < n) (hj : j < m) {u : U} {x : F} {y : G} (hx : W u x y) :
    Near E (MW W n m fun i' j' => if i' = i ∧ j' = j then u else ω i' j') (M.set i j x) (M'.set i j y) := by
  obtain ⟨a, a', h1, h2, h3⟩ := h
  obtain ⟨M₁, e1, g1⟩ := h1.set hi hj (y := x)
  obtain ⟨M₂, e2, g2⟩ := h2.set hi hj (y := y)
  rw [e1, e2]
  refine Near.ok ⟨_, _, g1, g2, fun i' j' hi' hj' => ?_⟩
  dsimp only
  split
  · exact hx
  · exact h3 i' j' hi' hj'

theorem permuteRows (h : MW W n m ω M M') {s t : ℕ} (hs : s < n) (ht : t < n) :
    Near E (MW W n m fun i j => ω (Equiv.swap s t i) j) (M.permuteRows s t) (M'.permuteRows s t) := by
  unfold Mat.permuteRows
  rw [h.cols.1, h.cols.2]
  refine (Near.foldRange (S := fun k => MW W n m fun i j => if j < k then ω (Equiv.swap s t i) j else ω i j)
    ?_ ?_).imp fun A B hA => hA.congr fun i j hi hj => by rw [if_pos hj]
  · intro k A B hk hA
    refine (hA.get hs hk).bind fun x y hx => ?_
    refine (hA.get ht hk).bind fun x' y' hx' => ?_
    refine (hA.set hs hk hx').bind fun A₁ B₁ hA₁ => ?_
    refine (hA₁.set ht hk hx).imp fun A B hA => hA.congr fun i j hi hj => ?_
    by_cases hjk : j = k
    · subst hjk
      simp only [and_true, lt_irrefl, if_false, Nat.lt_succ_self, if_true]
      by_cases h1 : i = t
      · subst h1; simp
      · by_cases h2 : i = s
        · subst h2; simp [h1]
        · simp [h1, h2, Equiv.swap_apply_of_ne_of_ne h2 h1]
    · have : j < k ↔ j < k + 1 := by omega
      simp only [hjk, and_false, if_false, this]
  · exact h.congr fun i j _ _ => by simp

theorem scaleRow (O : WeighOps E W) (h : MW W n m ω M M') {r : ℕ} (hr : r < n) {u : U} {x : F} {y : G}
    (hx : W u x y) :
    Near E (MW W n m fun i j => if i = r then u * ω i j else ω i j) (M.scaleRow r x) (M'.scaleRow r y) := by
  unfold Mat.scaleRow
  rw [h.cols.1, h.cols.2]
  refine (Near.foldRange (S := fun k => MW W n m fun i j => if i = r ∧ j < k then u * ω i j else ω i j)
    ?_ ?_).imp fun A B hA => hA.congr fun i j hi hj => by simp [hj]
  · intro k A B hk hA
    refine (hA.get hr hk).bind fun x' y' hx' => ?_
    refine (O.mul hx hx').bind fun x₁ y₁ hx₁ => ?_
    refine (hA.set hr hk hx₁).imp fun A B hA => hA.congr fun i j hi hj => ?_
    by_cases hjk : j = k
    · subst hjk
      by_cases h2 : i = r
      · subst h2; simp
      · simp [h2]
    · have : j < k ↔ j < k + 1 := by omega
      simp only [hjk, and_false, if_false, this]
  · exact h.congr fun i j _ _ => by simp

theorem replaceRow (O : WeighOps E W) (h : MW W n m ω M M') {s t : ℕ} (hs : s < n) (ht : t < n) {u : U} {x : F}
    {y : G} (hx : W u x y) (hu : ∀ j, j < m → ω s j * u = ω t j) :
    Near E (MW W n m ω) (M.replaceRow s t x) (M'.replaceRow s t y) := by
  unfold Mat.replaceRow
  rw [h.cols.1, h.cols.2]
  refine Near.foldRange (S := fun k => MW W n m ω) ?_ h
  intro k A B hk hA
  refine (hA.get ht hk).bind fun x₁ y₁ h₁ => ?_
  refine (hA.get hs hk).bind fun x₂ y₂ h₂ => ?_
  refine (O.mul h₂ hx).bind fun x₃ y₃ h₃ => ?_
  rw [hu k hk] at h₃
  refine (O.add h₁ h₃).bind fun x₄ y₄ h₄ => ?_
  refine (hA.set ht hk h₄).imp fun A B hA => hA.congr fun i j hi hj => ?_
  by_cases h0 : i = t ∧ j = k
  · rw [if_pos h0, h0.1, h0.2]
  · rw [if_neg h0]

variable [EpsilonEquality F] [StabilityCmp F] [EpsilonEquality G] [StabilityCmp G]

theorem getMaxIndex_near (O : PivotOps E W) {l : List F} {l' : List G}
    (hl : List.Forall₂ (fun x y => ∃ u, W u x y) l l') :
    Near E (fun i j => i = j ∧ i < l.length) (getMaxIndex l StabilityCmp.stabilityCmp)
      (getMaxIndex l' StabilityCmp.stabilityCmp) := by
  unfold getMaxIndex
  have hl' : ∀ k, List.Forall₂ (fun (x : ℕ × F) (y : ℕ × G) => (x.1 = y.1 ∧ x.1 < k + l.length) ∧ ∃ u, W u x.2 y.2)
      ((l.zipIdx k).map fun (x, i) => (i, x)) ((l'.zipIdx k).map fun (x, i) => (i, x)) := by
    induction hl with
    | nil => exact fun _ => .nil
    | cons h _ ih =>
      refine fun k => .cons ⟨⟨rfl, by simp⟩, h⟩ ((ih (k + 1)).imp fun x y hxy => ⟨⟨hxy.1.1, ?_⟩, hxy.2⟩)
      have := hxy.1.2
      rw [List.length_cons]; omega
  refine (maxBy_near (fun a b a' b' h h' => ?_) (hl' 0)).bind fun o o' ho => ?_
  · obtain ⟨-, u, hu⟩ := h
    obtain ⟨-, v, hv⟩ := h'
    refine (O.stab hu hv).bind ?_
    rintro o _ rfl
    cases o
    · exact Near.panic
    · exact Near.ok rfl
  · cases o <;> cases o'
    · exact Near.panic
    · exact ho.elim
    · exact ho.elim
    · rw [Nat.zero_add] at ho
      exact Near.ok ho.1

/-- The same row is chosen, and the entries chosen differ by the factor of their place. -/
theorem getStable (O : PivotOps E W) (h : MW W n m ω M M') {c r : ℕ} (hc : c < m) (hr : r < n) :
    Near E (ORel fun x y => x.1 = y.1 ∧ r ≤ x.1 ∧ x.1 < n ∧ W (ω x.1 c) x.2 y.2 ∧ RField.beq x.2 RField.zero = false)
      (M.getStable c r) (M'.getStable c r) := by
  have h0 := h
  obtain ⟨a, a', h1, h2, h3⟩ := h
  unfold Mat.getStable
  rw [h1.getColIter hc, h2.getColIter hc, bind_ok, bind_ok]
  have hl : List.Forall₂ (fun x y => ∃ u, W u x y) (((List.range n).map fun i => a i c).drop r)
      (((List.range n).map fun i => a' i c).drop r) := by
    refine List.forall₂_drop r ?_
    rw [List.forall₂_map_left_iff, List.forall₂_map_right_iff]
    refine List.forall₂_same.mpr fun i hi => ⟨_, h3 i c (by simpa using hi) hc⟩
  refine (getMaxIndex_near O hl).bind ?_
  rintro k _ ⟨rfl, hk⟩
  simp only [List.length_drop, List.length_map, List.length_range] at hk
  dsimp only
  rw [h1.get (by omega) hc, h2.get (by omega) hc, bind_ok, bind_ok]
  have hW := h3 (k + r) c (by omega) hc
  refine ((O.eps hW).and (P := fun b => EpsilonEquality.epsilonEquals (a (k + r) c) (RField.zero : F) = .ok b)
    fun b hb => hb).bind ?_
  rintro b _ ⟨rfl, hb⟩
  cases b with
  | true => exact Near.ok trivial
  | false => exact Near.ok ⟨rfl, by dsimp only; omega, by dsimp only; omega, hW, O.nonzero hb⟩

theorem position_near {α β : Type} {R : α → β → Prop} {p : α → Res Bool} {q : β → Res Bool}
    (H : ∀ x y, R x y → Near E (· = ·) (p x) (q y)) {l : List α} {l' : List β} (hl : List.Forall₂ R l l') :
    Near E (· = ·) (Mat.position p l) (Mat.position q l') := by
  induction hl with
  | nil => exact Near.ok rfl
  | cons h _ ih =>
    unfold Mat.position
    refine (H _ _ h).bind ?_
    rintro b _ rfl
    cases b with
    | true => exact Near.ok rfl
    | false =>
      refine ih.bind ?_
      rintro o _ rfl
      exact Near.ok rfl

theorem firstNonzero (O : PivotOps E W) (h : MW W n m ω M M') {r : ℕ} (hr : r < n) :
    Near E (· = ·) (M.firstNonzero r) (M'.firstNonzero r) := by
  obtain ⟨a, a', h1, h2, h3⟩ := h
  unfold Mat.firstNonzero Mat.getRow
  rw [h1.getRowIter hr, h2.getRowIter hr, bind_ok, bind_ok]
  refine position_near (R := fun x y => ∃ u, W u x y) (fun x y ⟨u, hu⟩ => ?_) ?_
  · refine (O.eps hu).bind ?_
    rintro b _ rfl
    exact Near.ok rfl
  · change List.Forall₂ _ ((List.range m).map fun j => a r j) ((List.range m).map fun j => a' r j)
    rw [List.forall₂_map_left_iff, List.forall₂_map_right_iff]
    exact List.forall₂_same.mpr fun j hj => ⟨_, h3 r j hr (by simpa using hj)⟩

theorem zeroRows (O : PivotOps E W) (h : MW W n m ω M M') : Near E (· = ·) M.zeroRows M'.zeroRows := by
  unfold Mat.zeroRows
  rw [h.rows.1, h.rows.2]
  refine Near.foldRange (S := fun _ x y => x = y) ?_ rfl
  rintro r z _ hr rfl
  refine (h.firstNonzero O hr).bind ?_
  rintro o _ rfl
  cases o <;> exact Near.ok rfl

end MW

variable [EpsilonEquality F] [StabilityCmp F] [EpsilonEquality G] [StabilityCmp G]

/-! ### `row_echelon` -/

/-- The states of two runs of `row_echelon` on matrices with the factors `σ i * τ j`. -/
structure FW (W : U → F → G → Prop) (n m : ℕ) (σ τ ρ : ℕ → U) (f : Form F) (g : Form G) : Prop where
  b : MW W n m (fun i j => ρ i * τ j) f.b g.b
  p : MW W n n (fun i j => ρ i * (σ j)⁻¹) f.p g.p
  original : MW W n m (fun i j => σ i * τ j) f.original g.original

variable {σ τ ρ : ℕ → U} {f : Form F} {g : Form G}

theorem FW.congr {ρ' : ℕ → U} (h : FW W n m σ τ ρ f g) (e : ∀ i, i < n → ρ i = ρ' i) : FW W n m σ τ ρ' f g :=
  ⟨h.b.congr fun i j hi _ => by rw [e i hi], h.p.congr fun i j hi _ => by rw [e i hi], h.original⟩

theorem FW.permuteRows (h : FW W n m σ τ ρ f g) {s t : ℕ} (hs : s < n) (ht : t < n) :
    Near E (FW W n m σ τ fun i => ρ (Equiv.swap s t i)) (f.permuteRows s t) (g.permuteRows s t) := by
  unfold Form.permuteRows
  refine (h.p.permuteRows hs ht).bind fun p p' hp => ?_
  refine (h.b.permuteRows hs ht).bind fun b b' hb => ?_
  exact Near.ok ⟨hb, hp, h.original⟩

theorem FW.scaleRow (O : WeighOps E W) (h : FW W n m σ τ ρ f g) {r : ℕ} (hr : r < n) {u : U} {x : F} {y : G}
    (hx : W u x y) :
    Near E (FW W n m σ τ fun i => if i = r then u * ρ i else ρ i) (f.scaleRow r x) (g.scaleRow r y) := by
  unfold Form.scaleRow
  refine (h.p.scaleRow O hr hx).bind fun p p' hp => ?_
  refine (h.b.scaleRow O hr hx).bind fun b b' hb => ?_
  refine Near.ok ⟨hb.congr fun i j _ _ => ?_, hp.congr fun i j _ _ => ?_, h.original⟩
  · by_cases hi : i = r <;> simp only [hi, if_true, if_false, mul_assoc]
  · by_cases hi : i = r <;> simp only [hi, if_true, if_false, mul_assoc]

omit [EpsilonEquality F] [StabilityCmp F] [EpsilonEquality G] [StabilityCmp G] in
theorem FW.replaceStep (O : SubOps E W) (h : FW W n m σ τ ρ f g) {r r2 c : ℕ} (hr : r < n) (hr2 : r2 < n)
    (hc : c < m) (h1 : ρ r * τ c = 1) :
    Near E (FW W n m σ τ ρ) (f.replaceStep r c r2) (g.replaceStep r c r2) := by
  unfold Form.replaceStep
  refine (h.b.get hr2 hc).bind fun x y hx => ?_
  refine (O.sub (O.zero _) hx).bind fun x₁ y₁ h₁ => ?_
  have e : ∀ v : U, ρ r * v * (ρ r2 * τ c) = ρ r2 * v := fun v => by
    rw [mul_mul_mul_comm, mul_comm (ρ r) (ρ r2), mul_mul_mul_comm, h1, mul_one]
  refine (h.p.replaceRow O.toWeighOps hr hr2 h₁ fun j _ => e _).bind fun p p' hp => ?_
  refine (O.sub (O.zero _) hx).bind fun x₂ y₂ h₂ => ?_
  refine (h.b.replaceRow O.toWeighOps hr hr2 h₂ fun j _ => e _).bind fun b b' hb => ?_
  exact Near.ok ⟨hb, hp, h.original⟩

omit [EpsilonEquality F] [StabilityCmp F] [EpsilonEquality G] [StabilityCmp G] in
theorem FW.replaceColUnderRow (O : SubOps E W) (h : FW W n m σ τ ρ f g) {r c : ℕ} (hr : r < n) (hc : c < m)
    (h1 : ρ r * τ c = 1) : Near E (FW W n m σ τ ρ) (f.replaceColUnderRow r c) (g.replaceColUnderRow r c) := by
  unfold Form.replaceColUnderRow
  rw [h.b.rows.1, h.b.rows.2]
  exact Near.foldRange' (S := fun _ => FW W n m σ τ ρ)
    (fun i f g _ hi h => h.replaceStep (r2 := i) O hr (by omega) hc h1) h

theorem FW.rowEchelonFor (O : PivotOps E W) (k c r : ℕ) (hcl : c + k ≤ m) (h : FW W n m σ τ ρ f g) :
    Near E (fun f g => ∃ ρ, FW W n m σ τ ρ f g) (Mat.rowEchelonFor n (List.range' c k) r f)
      (Mat.rowEchelonFor n (List.range' c k) r g) := by
  induction k generalizing c r f g ρ with
  | zero => exact Near.ok ⟨ρ, h⟩
  | succ k ih =>
    rw [List.range'_succ, Mat.rowEchelonFor, Mat.rowEchelonFor]
    by_cases hrn : r ≥ n
    · rw [if_pos hrn, if_pos hrn]
      exact Near.ok ⟨ρ, h⟩
    · rw [if_neg hrn, if_neg hrn]
      refine (h.b.getStable O (show c < m by omega) (show r < n by omega)).bind fun o o' ho => ?_
      rcases o with _ | ⟨i, x⟩ <;> rcases o' with _ | ⟨i', y⟩
      · exact ih (c + 1) r (by omega) h
      · exact ho.elim
      · exact ho.elim
      · obtain ⟨hi, h1, h2, hW, hz⟩ := ho
        dsimp only at hi h1 h2 hW hz
        subst hi
        refine (h.permuteRows (show r < n by omega) h2).bind fun f g h => ?_
        refine (O.div O.one hW hz).bind fun s s' hs => ?_
        refine (h.scaleRow O.toWeighOps (show r < n by omega) hs).bind fun f g h => ?_
        refine (h.replaceColUnderRow O.toSubOps (show r < n by omega) (show c < m by omega) ?_).bind fun f g h => ?_
        · rw [if_pos rfl, Equiv.swap_apply_left, one_mul, mul_assoc, inv_mul_cancel]
        · exact ih (c + 1) (r + 1) (by omega) h

theorem MW.identity (O : WeighOps E W) (σ : ℕ → U) (hn : n < 18446744073709551616)
    (hnn : n * n < 18446744073709551616) :
    MW W n n (fun i j => σ i * (σ j)⁻¹) (Mat.identity n : Mat F) (Mat.identity n : Mat G) := by
  refine ⟨_, _, Mat.has_of_box hn hn hnn, Mat.has_of_box hn hn hnn, fun i j _ _ => ?_⟩
  dsimp only
  split
  · rename_i h
    rw [h, mul_inv_cancel]; exact O.one
  · exact O.zero _

/-- `row_echelon` takes the same course on matrices that differ by factors for the rows and the columns. -/
theorem Mat.rowEchelon_w (O : PivotOps E W) (h : MW W n m (fun i j => σ i * τ j) M M')
    (hnn : n * n < 18446744073709551616) :
    Near E (fun f g => ∃ ρ, FW W n m σ τ ρ f g) M.rowEchelon M'.rowEchelon := by
  have hn : n < 18446744073709551616 := by
    obtain ⟨a, a', h1, -⟩ := h
    exact h1.rows_lt
  unfold Mat.rowEchelon
  rw [h.rows.1, h.rows.2, h.cols.1, h.cols.2, List.range_eq_range']
  exact FW.rowEchelonFor O m 0 0 (by omega) (ρ := σ) ⟨h, MW.identity O.toWeighOps σ hn hnn, h⟩

theorem FW.rank (O : PivotOps E W) (h : FW W n m σ τ ρ f g) : Near E (· = ·) f.rank g.rank := by
  unfold Form.rank
  rw [h.b.rows.1, h.b.rows.2, ← O.build]
  refine (h.b.zeroRows O).bind ?_
  rintro z _ rfl
  exact (Rel.of_eq rfl).near

theorem FW.nullity (O : PivotOps E W) (h : FW W n m σ τ ρ f g) : Near E (· = ·) f.nullity g.nullity := by
  unfold Form.nullity
  rw [h.b.cols.1, h.b.cols.2, ← O.build]
  refine (h.rank O).bind ?_
  rintro z _ rfl
  exact (Rel.of_eq rfl).near

/-! ### `lu` -/

/-- An entry of the identity matrix on both sides. -/
def Delta (i j : ℕ) (x : F) (y : G) : Prop :=
  x = (if i = j then RField.one else RField.zero) ∧ y = (if i = j then RField.one else RField.zero)

/-- The states of two runs of `lu` on matrices with the factors `σ i * τ j` after `r` pivots, when the rows have been
permuted by `π` and the `k`-th pivot stood in a column with the factor `κ k`. -/
structure UW (W : U → F → G → Prop) (n m : ℕ) (σ τ : ℕ → U) (r : ℕ) (π : ℕ → ℕ) (κ : ℕ → U) (x : LUInternal F)
    (y : LUInternal G) : Prop where
  p_eq : x.p = y.p
  p_len : x.p.length = n
  p_get : ∀ i, i < n → x.p[i]? = some (π i)
  u : MW W n m (fun i j => (if i < r then (κ i)⁻¹ else σ (π i)) * τ j) x.u y.u
  l : ME n n (fun i j => if j < r then W (σ (π i) * κ j) else Delta i j) x.l y.l

variable {π : ℕ → ℕ} {κ : ℕ → U} {x : LUInternal F} {y : LUInternal G}

/-- While the entries of a column are cleared, those in the rows before `k` have been moved to `l`. -/
structure CW (W : U → F → G → Prop) (n m : ℕ) (σ τ : ℕ → U) (r c k : ℕ) (π : ℕ → ℕ) (κ : ℕ → U) (x : LUInternal F)
    (y : LUInternal G) : Prop where
  p_eq : x.p = y.p
  p_len : x.p.length = n
  p_get : ∀ i, i < n → x.p[i]? = some (π i)
  u : MW W n m (fun i j => (if i < r then (κ i)⁻¹ else if i = r then (τ c)⁻¹ else σ (π i)) * τ j) x.u y.u
  l : ME n n (fun i j => if j < r then W (σ (π i) * κ j) else if j = r ∧ i < k then W (σ (π i) * τ c) else Delta i j)
    x.l y.l

omit [EpsilonEquality F] [StabilityCmp F] [EpsilonEquality G] [StabilityCmp G] in
theorem UW.scaleRow (O : SubOps E W) {r c : ℕ} (h : UW W n m σ τ r π κ x y) (hr : r < n) {v : F} {v' : G}
    (hv : W (σ (π r) * τ c) v v') (hz : RField.beq v RField.zero = false) :
    Near E (CW W n m σ τ r c (r + 1) π κ) (x.scaleRow r v) (y.scaleRow r v') := by
  unfold LUInternal.scaleRow
  refine (h.l.set hr hr hv).bind fun l l' hl => ?_
  refine (O.div O.one hv hz).bind fun w w' hw => ?_
  refine (h.u.scaleRow O.toWeighOps hr hw).bind fun u u' hu => ?_
  refine Near.ok ⟨h.p_eq, h.p_len, h.p_get, hu.congr fun i j hi hj => ?_, hl.imp fun i j a a' hi hj hR => ?_⟩
  · by_cases hir : i = r
    · subst hir
      rw [if_pos rfl, if_neg (lt_irrefl _), if_neg (lt_irrefl _), if_pos rfl, one_mul, mul_inv_rev, mul_assoc,
        inv_mul_cancel_left]
    · rw [if_neg hir, if_neg hir]
  · by_cases hjr : j < r
    · simpa only [if_pos hjr, if_neg (show ¬ (i = r ∧ j = r) by omega)] using hR
    · simp only [if_neg hjr] at hR ⊢
      by_cases hj' : j = r
      · subst hj'
        by_cases hij : i = j
        · subst hij
          simpa using hR
        · simp only [hij, false_and, if_false] at hR
          by_cases hlt : i < j + 1
          · rw [if_pos ⟨rfl, hlt⟩, hR.1, hR.2, if_neg hij, if_neg hij]
            exact O.zero _
          · rw [if_neg (by omega)]
            exact hR
      · simpa only [hj', false_and, and_false, if_false] using hR

omit [EpsilonEquality F] [StabilityCmp F] [EpsilonEquality G] [StabilityCmp G] in
theorem CW.replaceColUnderRow (O : SubOps E W) {r c : ℕ} (h : CW W n m σ τ r c (r + 1) π κ x y) (hr : r < n)
    (hc : c < m) :
    Near E (UW W n m σ τ (r + 1) π (fun j => if j = r then τ c else κ j)) (x.replaceColUnderRow r c)
      (y.replaceColUnderRow r c) := by
  unfold LUInternal.replaceColUnderRow
  rw [h.u.rows.1, h.u.rows.2]
  refine (Near.foldRange' (S := fun k => CW W n m σ τ r c k π κ) ?_ h).imp fun x y h => ?_
  · intro k x y hk hk' h
    have hkn : k < n := by omega
    refine (h.u.get hkn hc).bind fun a a' ha => ?_
    refine (O.sub (O.zero _) ha).bind fun w w' hw => ?_
    refine (h.u.replaceRow O.toWeighOps hr hkn hw fun j hj => ?_).bind fun u u' hu => ?_
    · rw [if_neg (lt_irrefl _), if_pos rfl, if_neg (by omega), if_neg (by omega), mul_comm (σ (π k)) (τ c),
        mul_mul_mul_comm, inv_mul_cancel, one_mul, mul_comm]
    · rw [if_neg (by omega), if_neg (by omega)] at ha
      refine (h.l.set hkn hr ha).bind fun l l' hl => ?_
      refine Near.ok ⟨h.p_eq, h.p_len, h.p_get, hu, hl.imp fun i j b b' hi hj hR => ?_⟩
      by_cases hjr : j < r
      · simpa only [if_pos hjr, if_neg (show ¬ (i = k ∧ j = r) by omega)] using hR
      · simp only [if_neg hjr] at hR ⊢
        by_cases hj' : j = r
        · subst hj'
          by_cases hik : i = k
          · subst hik
            simpa using hR
          · simp only [hik, false_and, if_false, true_and] at hR ⊢
            by_cases hlt : i < k
            · rw [if_pos hlt] at hR
              rwa [if_pos (by omega)]
            · rw [if_neg hlt] at hR
              rwa [if_neg (by omega)]
        · simpa only [hj', false_and, and_false, if_false] using hR
  · refine ⟨h.p_eq, h.p_len, h.p_get, h.u.congr fun i j hi hj => ?_, h.l.imp fun i j b b' hi hj hR => ?_⟩
    · by_cases hir : i = r
      · subst hir
        rw [if_neg (lt_irrefl _), if_pos rfl, if_pos (Nat.lt_succ_self _), if_pos rfl]
      · by_cases h' : i < r
        · rw [if_pos h', if_pos (by omega), if_neg hir]
        · rw [if_neg h', if_neg hir, if_neg (by omega)]
    · by_cases hjr : j < r
      · simpa only [if_pos hjr, if_pos (show j < r + 1 by omega), if_neg (show ¬ j = r by omega)] using hR
      · by_cases hj' : j = r
        · subst hj'
          simpa only [lt_irrefl, if_false, true_and, if_pos (show i < j + 1 + (n - (j + 1)) by omega),
            Nat.lt_succ_self, if_true] using hR
        · simpa only [if_neg hjr, hj', false_and, if_false, if_neg (show ¬ j < r + 1 by omega)] using hR

omit [EpsilonEquality F] [StabilityCmp F] [EpsilonEquality G] [StabilityCmp G] in
theorem UW.step (O : SubOps E W) {r s c : ℕ} (h : UW W n m σ τ r π κ x y) (hr : r < n) (hc : c < m) (hs : r ≤ s)
    (hsn : s < n) {v : F} {v' : G} (hv : W (σ (π s) * τ c) v v') (hz : RField.beq v RField.zero = false) :
    Near E (UW W n m σ τ (r + 1) (fun i => π (Equiv.swap r s i)) (fun j => if j = r then τ c else κ j))
      (do
        let x ← x.permute r s
        let x ← x.scaleRow r v
        x.replaceColUnderRow r c)
      (do
        let y ← y.permute r s
        let y ← y.scaleRow r v'
        y.replaceColUnderRow r c) := by
  obtain ⟨p', h1, h2, h3⟩ := swapList_perm (l := x.p) (i := r) (j := s) (by rw [h.p_len]; exact hr)
    (by rw [h.p_len]; exact hsn)
  refine Near.bind (R := UW W n m σ τ r (fun i => π (Equiv.swap r s i)) κ) ?_ ?_
  · unfold LUInternal.permute
    rw [← h.p_eq, h1, bind_ok, bind_ok]
    refine (h.u.permuteRows hr hsn).bind fun u u' hu => ?_
    refine (h.l.permuteUnderDiagonal hr hsn (by omega)).bind fun l l' hl => ?_
    refine Near.ok ⟨rfl, h2.trans h.p_len, fun i hi => (h3 i).trans (h.p_get _ (swap_lt hr hsn hi)),
      hu.congr fun i j hi hj => ?_, hl.imp fun i j a a' hi hj hR => ?_⟩
    · by_cases hir : i < r
      · rw [swap_of_lt hs hir, if_pos hir]
      · have : ¬ Equiv.swap r s i < r := fun h' => by
          have := swap_of_lt hs h'
          rw [Equiv.swap_apply_self] at this
          omega
        rw [if_neg hir, if_neg this]
    · by_cases hjr : j < r
      · simpa only [if_pos hjr] using hR
      · simpa only [if_neg hjr] using hR
  · clear h
    intro x y h
    have hv : W (σ ((fun i => π (Equiv.swap r s i)) r) * τ c) v v' := by
      dsimp only; rw [Equiv.swap_apply_left]; exact hv
    generalize (fun i => π (Equiv.swap r s i)) = π₁ at h hv ⊢
    exact (h.scaleRow O hr hv hz).bind fun x y h => h.replaceColUnderRow O hr hc

theorem UW.luFor (O : PivotOps E W) (k c r : ℕ) (hcl : c + k ≤ m) (h : UW W n m σ τ r π κ x y) :
    Near E (fun x y => ∃ r π κ, UW W n m σ τ r π κ x y) (Mat.luFor n (List.range' c k) r x)
      (Mat.luFor n (List.range' c k) r y) := by
  induction k generalizing c r x y π κ with
  | zero => exact Near.ok ⟨r, π, κ, h⟩
  | succ k ih =>
    rw [List.range'_succ, Mat.luFor, Mat.luFor]
    by_cases hrn : r ≥ n
    · rw [if_pos hrn, if_pos hrn]
      exact Near.ok ⟨r, π, κ, h⟩
    · rw [if_neg hrn, if_neg hrn]
      refine (h.u.getStable O (show c < m by omega) (show r < n by omega)).bind fun o o' ho => ?_
      rcases o with _ | ⟨i, v⟩ <;> rcases o' with _ | ⟨i', v'⟩
      · exact ih (c + 1) r (by omega) h
      · exact ho.elim
      · exact ho.elim
      · obtain ⟨hi, h1, h2, hW, hz⟩ := ho
        dsimp only at hi h1 h2 hW hz
        subst hi
        rw [if_neg (by omega)] at hW
        have := (h.step O.toSubOps (show r < n by omega) (show c < m by omega) h1 h2 hW hz).bind
          (f := Mat.luFor n (List.range' (c + 1) k) (r + 1)) (g := Mat.luFor n (List.range' (c + 1) k) (r + 1))
          fun x y h => ih (c + 1) (r + 1) (by omega) h
        simpa only [bind_assoc] using this

/-- `lu` takes the same course on matrices that differ by factors for the rows and the columns. -/
theorem Mat.lu_w (O : PivotOps E W) (h : MW W n m (fun i j => σ i * τ j) M M')
    (hnn : n * n < 18446744073709551616) :
    Near E (fun d d' => ∃ (l : List ℕ) (κ : ℕ → U), d.p = Mat.permutationFromVec l ∧
        d'.p = Mat.permutationFromVec l ∧ l.length = n ∧
        MW W n n (fun i j => σ (l.getD i 0) * κ j) d.l d'.l ∧ MW W n m (fun i j => (κ i)⁻¹ * τ j) d.u d'.u)
      M.lu M'.lu := by
  have hn : n < 18446744073709551616 := by
    obtain ⟨a, a', h1, -⟩ := h
    exact h1.rows_lt
  unfold Mat.lu
  rw [h.rows.1, h.rows.2, h.cols.1, h.cols.2, List.range_eq_range' (n := m)]
  refine (UW.luFor (σ := σ) (τ := τ) (m := m) O m 0 0 (π := fun i => i) (κ := fun _ => 1) (by omega) ?_).bind fun x y ⟨r, π, κ, h⟩ => ?_
  · refine ⟨rfl, List.length_range, fun i hi => by simp [hi], h.congr fun i j _ _ => by simp, ?_⟩
    exact ⟨_, _, Mat.has_of_box hn hn hnn, Mat.has_of_box hn hn hnn, fun i j _ _ => ⟨rfl, rfl⟩⟩
  · have e : ∀ i, i < n → x.p.getD i 0 = π i := fun i hi => by
      rw [List.getD_eq_getElem?_getD, h.p_get i hi]; rfl
    refine Near.ok ⟨x.p, fun i => if i < r then κ i else (σ (x.p.getD i 0))⁻¹, rfl,
      by dsimp only; rw [h.p_eq], h.p_len, h.l.imp fun i j b b' hi hj hR => ?_, h.u.congr fun i j hi hj => ?_⟩
    · dsimp only
      rw [e i hi, e j hj]
      by_cases hjr : j < r
      · simpa only [if_pos hjr] using hR
      · simp only [if_neg hjr] at hR ⊢
        rw [hR.1, hR.2]
        by_cases hij : i = j
        · subst hij
          rw [if_pos rfl, if_pos rfl, mul_inv_cancel]
          exact O.one
        · rw [if_neg hij, if_neg hij]
          exact O.zero _
    · by_cases hir : i < r
      · simp only [if_pos hir]
      · simp only [if_neg hir, inv_inv, e i hi]

end Verif
