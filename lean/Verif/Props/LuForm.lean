import Verif.Props.Generic
import Verif.Props.F64Elim

/-!
# Property C225: `lu` returns whenever `row_echelon` does

`row_echelon` also computes the transformation, so it can fail where `lu` returns; with arithmetic that never
panics both return or fail together.
-/

namespace Verif
open Res LinAlg

variable {F : Type} [RField F] [EpsilonEquality F] [StabilityCmp F] {E : Panic → Prop} [T : Tame F E]

/-- Two folds over the same list: if the second returns, so does the first. -/
theorem foldlM_follow {α β γ : Type} (R : α → β → Prop) {f : α → γ → Res α} {g : β → γ → Res β} {l : List γ}
    (h : ∀ a b c b', c ∈ l → R a b → g b c = .ok b' → ∃ a', f a c = .ok a' ∧ R a' b') :
    ∀ (a : α) (b b' : β), R a b → l.foldlM g b = .ok b' → ∃ a', l.foldlM f a = .ok a' ∧ R a' b' := by
  induction l with
  | nil => intro a b b' hR hb; cases hb; exact ⟨a, rfl, hR⟩
  | cons c l ih =>
    intro a b b' hR hb
    rw [List.foldlM_cons, bind_eq_ok] at hb
    obtain ⟨b₁, hb₁, hb⟩ := hb
    obtain ⟨a₁, ha₁, hR₁⟩ := h a b c b₁ List.mem_cons_self hR hb₁
    obtain ⟨a', ha', hR'⟩ := ih (fun a b c b' hc => h a b c b' (List.mem_cons_of_mem _ hc)) a₁ b₁ b' hR₁ hb
    exact ⟨a', by rw [List.foldlM_cons, ha₁]; exact ha', hR'⟩

include T in
/-- The steps of `lu` on one column, against those of `row_echelon`. -/
theorem lu_column {lu : LUInternal F} {f f₁ f₂ f₃ : Form F} {n m r s c : ℕ} {v q : F} {π : ℕ → ℕ} {l : ℕ → ℕ → F}
    (h : lu.Has n m r π l) (hr : r < n) (hsn : s < n) (he : lu.u = f.b)
    (h1 : f.permuteRows r s = .ok f₁) (hq : RField.div RField.one v = .ok q) (h2 : f₁.scaleRow r q = .ok f₂)
    (h3 : f₂.replaceColUnderRow r c = .ok f₃) :
    ∃ lu₃, (lu.permute r s >>= fun lu => lu.scaleRow r v >>= fun lu => lu.replaceColUnderRow r c) = .ok lu₃ ∧
      lu₃.u = f₃.b := by
  simp only [Form.permuteRows, bind_eq_ok] at h1
  obtain ⟨_, _, u₁, hu₁, h1⟩ := h1
  cases h1
  simp only [Form.scaleRow, bind_eq_ok] at h2
  obtain ⟨_, _, u₂, hu₂, h2⟩ := h2
  cases h2
  obtain ⟨p', hp', -, -⟩ := swapList_perm (l := lu.p) (i := r) (j := s) (by rw [h.p_len]; exact hr)
    (by rw [h.p_len]; exact hsn)
  obtain ⟨l₁, hl₁, hl₁'⟩ := (h.l_has.permuteUnderDiagonal (E := fun _ => False) hr hsn (by omega)).total
  obtain ⟨l₂, hl₂, hl₂'⟩ := hl₁'.set hr hr (y := v)
  have hu₁s : u₁.Shape n m := by
    obtain ⟨x, hx, hx'⟩ := (h.u_shape.permuteRows (E := fun _ => False) hr hsn).total
    rw [he, hu₁] at hx
    cases hx
    exact hx'
  have hu₂s : u₂.Shape n m := (hu₁s.scaleRow hr).of_ok hu₂
  have e1 : lu.permute r s = .ok ⟨p', l₁, u₁⟩ := by
    rw [LUInternal.permute, hp', bind_ok, he, hu₁, bind_ok, hl₁]; rfl
  have e2 : LUInternal.scaleRow ⟨p', l₁, u₁⟩ r v = .ok ⟨p', l₂, u₂⟩ := by
    rw [LUInternal.scaleRow]
    dsimp only
    rw [hl₂, bind_ok, hq, bind_ok, hu₂]; rfl
  rw [e1, bind_ok, e2, bind_ok]
  unfold LUInternal.replaceColUnderRow
  unfold Form.replaceColUnderRow at h3
  dsimp only at h3 ⊢
  rw [hu₂s.rows] at h3 ⊢
  refine (foldlM_follow (fun (x : LUInternal F) (y : Form F) => x.u = y.b ∧ x.l.Shape n n) ?_ ⟨p', l₂, u₂⟩ _ f₃
    ⟨rfl, hl₂'.shape⟩ h3).imp fun lu₃ h => ⟨h.1, h.2.1⟩
  rintro x y i y' hi ⟨hxy, hxl⟩ hy
  simp only [Form.replaceStep, bind_eq_ok] at hy
  obtain ⟨z, hz, _, _, _, _, t, ht, u, hu, hy⟩ := hy
  cases hy
  have hin : i < n := by have := List.mem_range'_1.mp hi; omega
  obtain ⟨l', hl', hl''⟩ := (hxl.has.set hin hr (y := z))
  refine ⟨⟨x.p, l', u⟩, ?_, rfl, hl''.shape⟩
  rw [hxy, hz, bind_ok, ht, bind_ok, hu, bind_ok, hl']
  rfl

include T in
theorem luFor_of_rowEchelonFor {n m : ℕ} (k c r : ℕ) {lu : LUInternal F} {f f' : Form F} {π : ℕ → ℕ}
    {l : ℕ → ℕ → F} (hck : c + k ≤ m) (h : lu.Has n m r π l) (he : lu.u = f.b)
    (hf : Mat.rowEchelonFor n (List.range' c k) r f = .ok f') :
    ∃ lu', Mat.luFor n (List.range' c k) r lu = .ok lu' := by
  induction k generalizing c r lu f π l with
  | zero => exact ⟨lu, rfl⟩
  | succ k ih =>
    rw [List.range'_succ, Mat.rowEchelonFor] at hf
    rw [List.range'_succ, Mat.luFor]
    split
    · exact ⟨lu, rfl⟩
    · rename_i hr
      rw [if_neg hr, bind_eq_ok] at hf
      obtain ⟨o, ho, hf⟩ := hf
      rw [he, ho, bind_ok]
      have hr' : r < n := by omega
      rcases o with _ | ⟨s, v⟩
      · exact ih (c + 1) r (by omega) h he hf
      · simp only [bind_eq_ok] at hf
        obtain ⟨f₁, h1, q, hq, f₂, h2, f₃, h3, hf⟩ := hf
        obtain ⟨hs, hsn, -, hv⟩ := (h.u_shape.has.getStable (show c < m by omega) hr').of_ok (by rw [he]; exact ho)
        obtain ⟨lu₃, hlu, he₃⟩ := lu_column h hr' hsn he h1 hq h2 h3
        obtain ⟨π', l', h'⟩ := (h.step hr' (show c < m by omega) hs hsn hv).of_ok hlu
        obtain ⟨lu', hlu'⟩ := ih (c + 1) (r + 1) (by omega) h' he₃ hf
        refine ⟨lu', ?_⟩
        rw [← hlu', ← bind_ok lu₃ (fun lu => Mat.luFor n (List.range' (c + 1) k) (r + 1) lu), ← hlu]
        simp only [bind_assoc]

include T in
/-- C225. Whenever `row_echelon` returns, so does `lu`, and its `u` is the `b` of the form. -/
theorem C225_lu {M : Mat F} {n m : ℕ} (h : M.Shape n m) (hnn : n * n < 18446744073709551616) {f : Form F}
    (hf : M.rowEchelon = .ok f) : ∃ d, M.lu = .ok d ∧ d.u = f.b := by
  have hf' := hf
  unfold Mat.rowEchelon at hf
  rw [h.rows, h.cols, List.range_eq_range' (n := m)] at hf
  obtain ⟨lu, hlu⟩ := luFor_of_rowEchelonFor m 0 0 (m := m) (π := fun i => i)
    (lu := ⟨List.range n, Mat.identity n, M⟩)
    (l := fun i j => if i = j then RField.one else RField.zero) (by omega)
    ⟨by simp, fun i hi => by simp [hi], ⟨fun i hi => hi, fun i j _ _ h => h⟩,
      Mat.has_of_box h.rows_lt h.rows_lt hnn, h, fun i j hij _ => if_neg (by omega),
      fun i j _ _ _ => rfl, fun i hi => absurd hi (by omega)⟩ rfl hf
  have hd : M.lu = .ok ⟨Mat.permutationFromVec lu.p, lu.l, lu.u⟩ := by
    unfold Mat.lu
    rw [h.rows, h.cols, List.range_eq_range' (n := m), hlu]
    rfl
  exact ⟨_, hd, C87_lu_row_echelon M _ f hd hf'⟩

/-- Sums and products never panic, as over `f32` and `f64`. -/
structure TotalOps (F : Type) [RField F] : Prop where
  add : ∀ a b : F, ∃ c, RField.add a b = .ok c
  mul : ∀ a b : F, ∃ c, RField.mul a b = .ok c

section total
omit [EpsilonEquality F] [StabilityCmp F]
variable {M : Mat F} {n m : ℕ} (t : TotalOps F)
include t

theorem scaleRow_total (h : M.Shape n m) {i : ℕ} {s : F} (hi : i < n) :
    Spec (fun _ => False) (M.scaleRow i s) (fun M' => M'.Shape n m) := by
  unfold Mat.scaleRow
  rw [h.cols]
  refine foldlM_range_spec (fun _ (M' : Mat F) => M'.Shape n m) h fun k M' hk hM' => ?_
  refine (hM'.get hi hk).bind fun x _ => ?_
  obtain ⟨y, hy⟩ := t.mul s x
  rw [hy]
  exact hM'.set hi hk

theorem replaceRow_total (h : M.Shape n m) {s i : ℕ} {c : F} (hs : s < n) (ht : i < n) :
    Spec (fun _ => False) (M.replaceRow s i c) (fun M' => M'.Shape n m) := by
  unfold Mat.replaceRow
  rw [h.cols]
  refine foldlM_range_spec (fun _ (M' : Mat F) => M'.Shape n m) h fun k M' hk hM' => ?_
  refine (hM'.get ht hk).bind fun x _ => ?_
  refine (hM'.get hs hk).bind fun y _ => ?_
  obtain ⟨z, hz⟩ := t.mul y c
  rw [hz, bind_ok]
  obtain ⟨w, hw⟩ := t.add x z
  rw [hw, bind_ok]
  exact hM'.set ht hk

end total

omit [EpsilonEquality F] [StabilityCmp F] in
/-- The steps of `row_echelon` on one column, against those of `lu`. -/
theorem form_column (t : TotalOps F) {lu lu₁ lu₂ lu₃ : LUInternal F} {f : Form F} {n r s c : ℕ} {v : F}
    (h : f.p.Shape n n) (hn : ∀ M : Mat F, lu₂.u = M → M.rows = n) (hr : r < n) (hsn : s < n) (he : lu.u = f.b)
    (h1 : lu.permute r s = .ok lu₁) (h2 : lu₁.scaleRow r v = .ok lu₂) (h3 : lu₂.replaceColUnderRow r c = .ok lu₃) :
    ∃ f₁ q f₂ f₃, f.permuteRows r s = .ok f₁ ∧ RField.div RField.one v = .ok q ∧ f₁.scaleRow r q = .ok f₂ ∧
      f₂.replaceColUnderRow r c = .ok f₃ ∧ f₃.p.Shape n n ∧ lu₃.u = f₃.b := by
  simp only [LUInternal.permute, bind_eq_ok] at h1
  obtain ⟨_, _, u₁, hu₁, _, _, h1⟩ := h1
  cases h1
  simp only [LUInternal.scaleRow, bind_eq_ok] at h2
  obtain ⟨_, _, q, hq, u₂, hu₂, h2⟩ := h2
  cases h2
  obtain ⟨p₁, hp₁, hp₁'⟩ := (h.permuteRows (E := fun _ => False) hr hsn).total
  obtain ⟨p₂, hp₂, hp₂'⟩ := (scaleRow_total t hp₁' hr (s := q)).total
  have e1 : f.permuteRows r s = .ok ⟨p₁, u₁, f.original⟩ := by
    rw [Form.permuteRows, hp₁, bind_ok, ← he, hu₁]; rfl
  have e2 : Form.scaleRow ⟨p₁, u₁, f.original⟩ r q = .ok ⟨p₂, u₂, f.original⟩ := by
    rw [Form.scaleRow]
    dsimp only
    rw [hp₂, bind_ok, hu₂]; rfl
  unfold LUInternal.replaceColUnderRow at h3
  have hrows := hn _ rfl
  dsimp only at h3 hrows
  rw [hrows] at h3
  obtain ⟨f₃, hf₃, h', h''⟩ := foldlM_follow (fun (x : Form F) (y : LUInternal F) => y.u = x.b ∧ x.p.Shape n n)
    (f := Form.replaceStep r c) (by
      rintro x y i y' hi ⟨hxy, hxp⟩ hy
      simp only [bind_eq_ok] at hy
      obtain ⟨z, hz, w, hw, u, hu, _, _, hy⟩ := hy
      cases hy
      have hin : i < n := by have := List.mem_range'_1.mp hi; omega
      obtain ⟨p', hp', hp''⟩ := (replaceRow_total t hxp hr hin (c := w)).total
      refine ⟨⟨p', u, x.original⟩, ?_, rfl, hp''⟩
      rw [Form.replaceStep, ← hxy, hz, bind_ok, hw, bind_ok, hp', bind_ok, bind_ok, hu]
      rfl) ⟨p₂, u₂, f.original⟩ _ lu₃ ⟨rfl, hp₂'⟩ h3
  refine ⟨_, q, _, f₃, e1, hq, e2, ?_, h'', h'⟩
  unfold Form.replaceColUnderRow
  dsimp only
  rw [hrows]
  exact hf₃

include T in
theorem rowEchelonFor_of_luFor (t : TotalOps F) {n m : ℕ} (k c r : ℕ) {lu lu' : LUInternal F} {f : Form F}
    {π : ℕ → ℕ} {l : ℕ → ℕ → F} (hck : c + k ≤ m) (h : lu.Has n m r π l) (hp : f.p.Shape n n) (he : lu.u = f.b)
    (hf : Mat.luFor n (List.range' c k) r lu = .ok lu') :
    ∃ f', Mat.rowEchelonFor n (List.range' c k) r f = .ok f' := by
  induction k generalizing c r lu f π l with
  | zero => exact ⟨f, rfl⟩
  | succ k ih =>
    rw [List.range'_succ, Mat.luFor] at hf
    rw [List.range'_succ, Mat.rowEchelonFor]
    split
    · exact ⟨f, rfl⟩
    · rename_i hr
      rw [if_neg hr, bind_eq_ok] at hf
      obtain ⟨o, ho, hf⟩ := hf
      rw [← he, ho, bind_ok]
      have hr' : r < n := by omega
      rcases o with _ | ⟨s, v⟩
      · exact ih (c + 1) r (by omega) h hp he hf
      · simp only [bind_eq_ok] at hf
        obtain ⟨lu₁, h1, lu₂, h2, lu₃, h3, hf⟩ := hf
        obtain ⟨hs, hsn, -, hv⟩ := (h.u_shape.has.getStable (show c < m by omega) hr').of_ok ho
        have hs₁ : lu₁.u.Shape n m := by
          simp only [LUInternal.permute, bind_eq_ok] at h1
          obtain ⟨_, _, u₁, hu₁, _, _, h1⟩ := h1
          cases h1
          exact (h.u_shape.permuteRows (E := E) hr' hsn).of_ok hu₁
        have hs₂ : lu₂.u.Shape n m := by
          simp only [LUInternal.scaleRow, bind_eq_ok] at h2
          obtain ⟨_, _, q, hq, u₂, hu₂, h2⟩ := h2
          cases h2
          exact (hs₁.scaleRow hr').of_ok hu₂
        obtain ⟨π', l', h'⟩ := (h.step hr' (show c < m by omega) hs hsn hv).of_ok (a := lu₃) (by
          rw [h1, bind_ok, h2, bind_ok, h3])
        obtain ⟨f₁, q, f₂, f₃, g1, hq, g2, g3, hp₃, he₃⟩ := form_column t hp (fun M hM => by rw [← hM]; exact hs₂.rows)
          hr' hsn he h1 h2 h3
        obtain ⟨f', hf'⟩ := ih (c + 1) (r + 1) (by omega) h' hp₃ he₃ hf
        refine ⟨f', ?_⟩
        dsimp only
        rw [g1, bind_ok, hq, bind_ok, g2, bind_ok, g3, bind_ok, hf']

include T in
/-- C225. If sums and products never panic, `row_echelon` returns exactly if `lu` does. -/
theorem C225_iff (t : TotalOps F) {M : Mat F} {n m : ℕ} (h : M.Shape n m) (hnn : n * n < 18446744073709551616) :
    (∃ f, M.rowEchelon = .ok f) ↔ ∃ d, M.lu = .ok d := by
  refine ⟨fun ⟨f, hf⟩ => (C225_lu h hnn hf).imp fun d hd => hd.1, fun ⟨d, hd⟩ => ?_⟩
  unfold Mat.lu at hd
  rw [h.rows, h.cols, List.range_eq_range' (n := m), bind_eq_ok] at hd
  obtain ⟨lu, hlu, -⟩ := hd
  obtain ⟨f, hf⟩ := rowEchelonFor_of_luFor t m 0 0 (m := m) (f := ⟨Mat.identity n, M, M⟩) (π := fun i => i)
    (l := fun i j => if i = j then RField.one else RField.zero) (by omega)
    ⟨by simp, fun i hi => by simp [hi], ⟨fun i hi => hi, fun i j _ _ h => h⟩,
      Mat.has_of_box h.rows_lt h.rows_lt hnn, h, fun i j hij _ => if_neg (by omega),
      fun i j _ _ _ => rfl, fun i hi => absurd hi (by omega)⟩
    (Mat.has_of_box h.rows_lt h.rows_lt hnn).shape rfl hlu
  refine ⟨f, ?_⟩
  unfold Mat.rowEchelon
  rw [h.rows, h.cols, List.range_eq_range' (n := m), hf]

/-- C225. Over `f32` and `f64`, in both builds, `lu` and `row_echelon` both panic, by `unwrap` of an undefined comparison,
or both return, with the `u` of the first identical to the `b` of the second. -/
theorem C225_float [Fmt] (b : Build) (powi : Flt → Int → Flt) {M : Mat Flt} {n m : ℕ} :
    letI := Flt.field b powi
    M.Shape n m → n * n < 18446744073709551616 →
    (M.lu = .panic .unwrapNone ∧ M.rowEchelon = .panic .unwrapNone) ∨
      ∃ d f, M.lu = .ok d ∧ M.rowEchelon = .ok f ∧ d.u = f.b := by
  let _ := Flt.field b powi
  have T := Flt.tame b powi
  intro h hnn
  have t : TotalOps Flt := ⟨fun _ _ => ⟨_, rfl⟩, fun _ _ => ⟨_, rfl⟩⟩
  have h1 := h.lu hnn
  have h2 := h.rowEchelon hnn
  have h3 := C225_iff t h hnn
  cases hd : M.lu with
  | ok d =>
    obtain ⟨f, hf⟩ := h3.mpr ⟨d, hd⟩
    exact .inr ⟨d, f, rfl, hf, C87_lu_row_echelon M d f hd hf⟩
  | diverge => rw [hd] at h1; exact h1.elim
  | panic p =>
    rw [hd] at h1 h3
    cases hf : M.rowEchelon with
    | ok f => obtain ⟨d, hd⟩ := h3.mp ⟨f, hf⟩; cases hd
    | diverge => rw [hf] at h2; exact h2.elim
    | panic q =>
      rw [hf] at h2
      have h1 : p = .unwrapNone := h1
      have h2 : q = .unwrapNone := h2
      exact .inl ⟨by rw [h1], by rw [h2]⟩

/-- Both cases occur: the first matrix has a finite pivot, the second a NaN in the first column. -/
example [Fmt] (b : Build) : letI := Flt.field b fun _ _ => .nan
    (⟨[.one, .one, .one, .zero], 2, 2⟩ : Mat Flt).Shape 2 2 ∧
    (match (⟨[.one, .one, .one, .zero], 2, 2⟩ : Mat Flt).rowEchelon with | .ok _ => true | _ => false) = true ∧
    (⟨[.one, .one, .nan, .zero], 2, 2⟩ : Mat Flt).rowEchelon = .panic .unwrapNone := by
  let _ := Flt.field b fun _ _ => .nan
  refine ⟨⟨rfl, rfl, rfl, by norm_num, by norm_num, by norm_num⟩, ?_, ?_⟩
  · cases b <;> fmt_decide
  · cases b <;> fmt_decide

/-- C225. Over `Rational` `lu` returns where `row_echelon`, which also computes the transformation, overflows. -/
theorem C225_more : letI := Rational.field .debug; letI := Rational.stability .debug;
    (∃ d, (⟨[⟨1, 1⟩, ⟨0, 1⟩, ⟨1, 2 ^ 40⟩, ⟨2 ^ 40, 1⟩], 2, 2⟩ : Mat Rational).lu = .ok d) ∧
    (⟨[⟨1, 1⟩, ⟨0, 1⟩, ⟨1, 2 ^ 40⟩, ⟨2 ^ 40, 1⟩], 2, 2⟩ : Mat Rational).rowEchelon = .panic .overflowI64 := by
  refine ⟨⟨⟨⟨[⟨1, 1⟩, ⟨0, 1⟩, ⟨0, 1⟩, ⟨1, 1⟩], 2, 2⟩, ⟨[⟨1, 1⟩, ⟨0, 1⟩, ⟨1, 2 ^ 40⟩, ⟨2 ^ 40, 1⟩], 2, 2⟩,
    ⟨[⟨1, 1⟩, ⟨0, 1⟩, ⟨0, 1⟩, ⟨1, 1⟩], 2, 2⟩⟩, ?_⟩, ?_⟩ <;> decide +kernel

end Verif
