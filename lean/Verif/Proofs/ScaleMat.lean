import Verif.Proofs.WeighMat

/-!
# Elimination on matrices that differ by factors for the columns

Unlike in `PivotOps` only numbers that have been given the same factor are compared in size, and only some factors
keep what is close to zero.
-/

namespace Verif
open Res LinAlg

variable {F G U : Type} [RField F] [RField G] [CommGroup U]

/-- What elimination needs beyond `SubOps`: the order by size survives a common factor, the closeness to zero survives
a factor that satisfies `T`, and what is not close to zero is not zero. -/
structure ScaleOps [EpsilonEquality F] [StabilityCmp F] [EpsilonEquality G] [StabilityCmp G] (E : Panic → Prop)
    (W : U → F → G → Prop) (T : U → Prop) : Prop extends SubOps E W where
  eps : ∀ {u x y}, T u → W u x y → Near E (· = ·) (EpsilonEquality.epsilonEquals x RField.zero)
    (EpsilonEquality.epsilonEquals y RField.zero)
  stab : ∀ {u x y x' y'}, W u x y → W u x' y' → Near E (· = ·) (StabilityCmp.stabilityCmp x x')
    (StabilityCmp.stabilityCmp y y')
  nonzero : ∀ {x : F}, EpsilonEquality.epsilonEquals x RField.zero = .ok false → RField.beq x RField.zero = false

variable {E : Panic → Prop} {W : U → F → G → Prop} {T : U → Prop} {n m : ℕ} {ω : ℕ → ℕ → U} {M : Mat F} {M' : Mat G}
variable [EpsilonEquality F] [StabilityCmp F] [EpsilonEquality G] [StabilityCmp G]

namespace MW

theorem getMaxIndex_scale (O : ScaleOps E W T) {u : U} {l : List F} {l' : List G} (hl : List.Forall₂ (W u) l l') :
    Near E (fun i j => i = j ∧ i < l.length) (getMaxIndex l StabilityCmp.stabilityCmp)
      (getMaxIndex l' StabilityCmp.stabilityCmp) := by
  unfold getMaxIndex
  have hl' : ∀ k, List.Forall₂ (fun (x : ℕ × F) (y : ℕ × G) => (x.1 = y.1 ∧ x.1 < k + l.length) ∧ W u x.2 y.2)
      ((l.zipIdx k).map fun (x, i) => (i, x)) ((l'.zipIdx k).map fun (x, i) => (i, x)) := by
    induction hl with
    | nil => exact fun _ => .nil
    | cons h _ ih =>
      refine fun k => .cons ⟨⟨rfl, by simp⟩, h⟩ ((ih (k + 1)).imp fun x y hxy => ⟨⟨hxy.1.1, ?_⟩, hxy.2⟩)
      have := hxy.1.2
      rw [List.length_cons]; omega
  refine (maxBy_near (fun a b a' b' h h' => ?_) (hl' 0)).bind fun o o' ho => ?_
  · refine (O.stab h.2 h'.2).bind ?_
    rintro o _ rfl
    cases o
    · exact Near.panic
    · exact Near.ok rfl
  · cases o <;> cases o'
    · exact Near.panic
    · exact ho.elim
    · exact ho.elim
    · rw [Nat.zero_add] at ho
      exact Near.ok ho.1

/-- The same row is chosen if the candidates have a common factor. -/
theorem getStable_scale (O : ScaleOps E W T) (h : MW W n m ω M M') {c r : ℕ} (hc : c < m) (hr : r < n) {u : U} (hT : T u)
    (hu : ∀ i, r ≤ i → i < n → ω i c = u) :
    Near E (ORel fun x y => x.1 = y.1 ∧ r ≤ x.1 ∧ x.1 < n ∧ W u x.2 y.2 ∧ RField.beq x.2 RField.zero = false)
      (M.getStable c r) (M'.getStable c r) := by
  obtain ⟨a, a', h1, h2, h3⟩ := h
  unfold Mat.getStable
  rw [h1.getColIter hc, h2.getColIter hc, bind_ok, bind_ok]
  have hl : List.Forall₂ (W u) (((List.range n).map fun i => a i c).drop r)
      (((List.range n).map fun i => a' i c).drop r) := by
    rw [← List.map_drop, ← List.map_drop, List.forall₂_map_left_iff, List.forall₂_map_right_iff]
    refine List.forall₂_same.mpr fun i hi => ?_
    rw [List.range_eq_range', List.drop_range', List.mem_range'] at hi
    obtain ⟨k, hk, rfl⟩ := hi
    have := h3 (r + k) c (by omega) hc
    rw [hu _ (by omega) (by omega)] at this
    simpa using this
  refine (getMaxIndex_scale O hl).bind ?_
  rintro k _ ⟨rfl, hk⟩
  simp only [List.length_drop, List.length_map, List.length_range] at hk
  dsimp only
  rw [h1.get (by omega) hc, h2.get (by omega) hc, bind_ok, bind_ok]
  have hW := h3 (k + r) c (by omega) hc
  rw [hu _ (by omega) (by omega)] at hW
  refine ((O.eps hT hW).and (P := fun b => EpsilonEquality.epsilonEquals (a (k + r) c) (RField.zero : F) = .ok b)
    fun b hb => hb).bind ?_
  rintro b _ ⟨rfl, hb⟩
  cases b with
  | true => exact Near.ok trivial
  | false => exact Near.ok ⟨rfl, by dsimp only; omega, by dsimp only; omega, hW, O.nonzero hb⟩

theorem firstNonzero_scale (O : ScaleOps E W T) (h : MW W n m ω M M') {r : ℕ} (hr : r < n)
    (hT : ∀ j, j < m → T (ω r j)) : Near E (· = ·) (M.firstNonzero r) (M'.firstNonzero r) := by
  obtain ⟨a, a', h1, h2, h3⟩ := h
  unfold Mat.firstNonzero Mat.getRow
  rw [h1.getRowIter hr, h2.getRowIter hr, bind_ok, bind_ok]
  refine position_near (R := fun x y => ∃ u, T u ∧ W u x y) (fun x y ⟨u, hT, hu⟩ => ?_) ?_
  · refine (O.eps hT hu).bind ?_
    rintro b _ rfl
    exact Near.ok rfl
  · change List.Forall₂ _ ((List.range m).map fun j => a r j) ((List.range m).map fun j => a' r j)
    rw [List.forall₂_map_left_iff, List.forall₂_map_right_iff]
    exact List.forall₂_same.mpr fun j hj => ⟨_, hT j (by simpa using hj), h3 r j hr (by simpa using hj)⟩

end MW

variable {σ τ ρ : ℕ → U} {f : Form F} {g : Form G} {v : U}

theorem FW.rowEchelonFor_scale (O : ScaleOps E W T) (hT : ∀ j, j < m → T (v * τ j)) (k c r : ℕ) (hcl : c + k ≤ m)
    (h : FW W n m σ τ ρ f g) (hρ : ∀ i, r ≤ i → i < n → ρ i = v)
    (hρ' : ∀ i, i < n → ρ i = v ∨ ∃ c, c < m ∧ ρ i = (τ c)⁻¹) :
    Near E (fun f g => ∃ ρ, FW W n m σ τ ρ f g ∧ ∀ i, i < n → ρ i = v ∨ ∃ c, c < m ∧ ρ i = (τ c)⁻¹) (Mat.rowEchelonFor n (List.range' c k) r f)
      (Mat.rowEchelonFor n (List.range' c k) r g) := by
  induction k generalizing c r f g ρ with
  | zero => exact Near.ok ⟨ρ, h, hρ'⟩
  | succ k ih =>
    rw [List.range'_succ, Mat.rowEchelonFor, Mat.rowEchelonFor]
    by_cases hrn : r ≥ n
    · rw [if_pos hrn, if_pos hrn]
      exact Near.ok ⟨ρ, h, hρ'⟩
    · rw [if_neg hrn, if_neg hrn]
      refine (h.b.getStable_scale O (show c < m by omega) (show r < n by omega) (hT c (by omega))
        fun i hi hi' => by rw [hρ i hi hi']).bind fun o o' ho => ?_
      rcases o with _ | ⟨i, x⟩ <;> rcases o' with _ | ⟨i', y⟩
      · exact ih (c + 1) r (by omega) h hρ hρ'
      · exact ho.elim
      · exact ho.elim
      · obtain ⟨hi, h1, h2, hW, hz⟩ := ho
        dsimp only at hi h1 h2 hW hz
        subst hi
        refine (h.permuteRows (show r < n by omega) h2).bind fun f g h => ?_
        refine (O.div O.one hW hz).bind fun s s' hs => ?_
        refine (h.scaleRow O.toWeighOps (show r < n by omega) hs).bind fun f g h => ?_
        refine (h.replaceColUnderRow O.toSubOps (show r < n by omega) (show c < m by omega) ?_).bind fun f g h => ?_
        · rw [if_pos rfl, Equiv.swap_apply_left, one_mul, mul_assoc, hρ i h1 h2, inv_mul_cancel]
        · refine ih (c + 1) (r + 1) (by omega) h (fun j hj hj' => ?_) fun j hj => ?_
          rotate_left
          · by_cases hjr : j = r
            · subst hjr
              refine .inr ⟨c, by omega, ?_⟩
              rw [if_pos rfl, Equiv.swap_apply_left, hρ i h1 h2, one_mul, mul_inv_rev, inv_mul_cancel_right]
            · rw [if_neg hjr]
              exact hρ' _ (swap_lt (by omega) h2 hj)
          rw [if_neg (by omega)]
          refine hρ _ ?_ (swap_lt (by omega) h2 hj')
          by_contra hlt
          have := swap_of_lt h1 (not_le.mp hlt)
          rw [Equiv.swap_apply_self] at this
          omega

/-- `row_echelon` takes the same course on matrices that differ by factors for the columns. -/
theorem Mat.rowEchelon_scale (O : ScaleOps E W T) (h : MW W n m (fun _ j => v * τ j) M M')
    (hT : ∀ j, j < m → T (v * τ j)) (hnn : n * n < 18446744073709551616) :
    Near E (fun f g => ∃ ρ, FW W n m (fun _ => v) τ ρ f g ∧ ∀ i, i < n → ρ i = v ∨ ∃ c, c < m ∧ ρ i = (τ c)⁻¹)
      M.rowEchelon M'.rowEchelon := by
  have hn : n < 18446744073709551616 := by
    obtain ⟨a, a', h1, -⟩ := h
    exact h1.rows_lt
  unfold Mat.rowEchelon
  rw [h.rows.1, h.rows.2, h.cols.1, h.cols.2, List.range_eq_range']
  exact FW.rowEchelonFor_scale O hT m 0 0 (by omega) (ρ := fun _ => v)
    ⟨h, MW.identity O.toWeighOps (fun _ => v) hn hnn, h⟩ (fun _ _ _ => rfl) fun _ _ => .inl rfl

theorem FW.rank_scale (O : ScaleOps E W T) (h : FW W n m σ τ ρ f g) (hT : ∀ i j, i < n → j < m → T (ρ i * τ j)) :
    Near E (· = ·) f.rank g.rank := by
  unfold Form.rank Mat.zeroRows
  rw [h.b.rows.1, h.b.rows.2, ← O.build]
  refine Near.bind (R := (· = ·)) ?_ ?_
  · refine Near.foldRange (S := fun _ x y => x = y) ?_ rfl
    rintro r z _ hr rfl
    refine (h.b.firstNonzero_scale O hr fun j hj => hT r j hr hj).bind ?_
    rintro o _ rfl
    cases o <;> exact Near.ok rfl
  · rintro z _ rfl
    exact (Rel.of_eq rfl).near

theorem FW.nullity_scale (O : ScaleOps E W T) (h : FW W n m σ τ ρ f g)
    (hT : ∀ i j, i < n → j < m → T (ρ i * τ j)) : Near E (· = ·) f.nullity g.nullity := by
  unfold Form.nullity
  rw [h.b.cols.1, h.b.cols.2, ← O.build]
  refine (h.rank_scale O hT).bind ?_
  rintro z _ rfl
  exact (Rel.of_eq rfl).near

variable {π : ℕ → ℕ} {κ : ℕ → U} {x : LUInternal F} {y : LUInternal G}

theorem UW.luFor_scale (O : ScaleOps E W T) (hT : ∀ j, j < m → T (v * τ j)) (k c r : ℕ) (hcl : c + k ≤ m)
    (h : UW W n m (fun _ => v) τ r π κ x y) :
    Near E (fun x y => ∃ r π κ, UW W n m (fun _ => v) τ r π κ x y) (Mat.luFor n (List.range' c k) r x)
      (Mat.luFor n (List.range' c k) r y) := by
  induction k generalizing c r x y π κ with
  | zero => exact Near.ok ⟨r, π, κ, h⟩
  | succ k ih =>
    rw [List.range'_succ, Mat.luFor, Mat.luFor]
    by_cases hrn : r ≥ n
    · rw [if_pos hrn, if_pos hrn]
      exact Near.ok ⟨r, π, κ, h⟩
    · rw [if_neg hrn, if_neg hrn]
      refine (h.u.getStable_scale O (show c < m by omega) (show r < n by omega) (hT c (by omega))
        fun i hi hi' => by rw [if_neg (by omega)]).bind fun o o' ho => ?_
      rcases o with _ | ⟨i, v⟩ <;> rcases o' with _ | ⟨i', v'⟩
      · exact ih (c + 1) r (by omega) h
      · exact ho.elim
      · exact ho.elim
      · obtain ⟨hi, h1, h2, hW, hz⟩ := ho
        dsimp only at hi h1 h2 hW hz
        subst hi
        have := (h.step O.toSubOps (show r < n by omega) (show c < m by omega) h1 h2 hW hz).bind
          (f := Mat.luFor n (List.range' (c + 1) k) (r + 1)) (g := Mat.luFor n (List.range' (c + 1) k) (r + 1))
          fun x y h => ih (c + 1) (r + 1) (by omega) h
        simpa only [bind_assoc] using this

/-- `lu` takes the same course on matrices that differ by factors for the columns. -/
theorem Mat.lu_scale (O : ScaleOps E W T) (h : MW W n m (fun _ j => v * τ j) M M')
    (hT : ∀ j, j < m → T (v * τ j)) (hnn : n * n < 18446744073709551616) :
    Near E (fun d d' => ∃ (l : List ℕ) (κ : ℕ → U), d.p = Mat.permutationFromVec l ∧
        d'.p = Mat.permutationFromVec l ∧ l.length = n ∧
        MW W n n (fun _ j => v * κ j) d.l d'.l ∧ MW W n m (fun i j => (κ i)⁻¹ * τ j) d.u d'.u)
      M.lu M'.lu := by
  have hn : n < 18446744073709551616 := by
    obtain ⟨a, a', h1, -⟩ := h
    exact h1.rows_lt
  unfold Mat.lu
  rw [h.rows.1, h.rows.2, h.cols.1, h.cols.2, List.range_eq_range' (n := m)]
  refine (UW.luFor_scale (v := v) (τ := τ) (m := m) O hT m 0 0 (π := fun i => i) (κ := fun _ => 1) (by omega) ?_).bind
    fun x y ⟨r, π, κ, h⟩ => ?_
  · refine ⟨rfl, List.length_range, fun i hi => by simp [hi], h.congr fun i j _ _ => by simp, ?_⟩
    exact ⟨_, _, Mat.has_of_box hn hn hnn, Mat.has_of_box hn hn hnn, fun i j _ _ => ⟨rfl, rfl⟩⟩
  · refine Near.ok ⟨x.p, fun i => if i < r then κ i else v⁻¹, rfl,
      by dsimp only; rw [h.p_eq], h.p_len, h.l.imp fun i j b b' hi hj hR => ?_, h.u.congr fun i j hi hj => ?_⟩
    · by_cases hjr : j < r
      · simpa only [if_pos hjr] using hR
      · simp only [if_neg hjr] at hR ⊢
        rw [hR.1, hR.2]
        by_cases hij : i = j
        · subst hij
          rw [if_pos rfl, if_pos rfl, mul_inv_cancel]
          exact O.one
        · rw [if_neg hij, if_neg hij]
          exact O.zero _
    · by_cases hir : i < r
      · simp only [if_pos hir]
      · simp only [if_neg hir, inv_inv]

end Verif
