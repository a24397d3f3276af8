import Verif.Props.ConeSmall
import Verif.LinAlg.Display
import Verif.LinAlg.Eq

/-!
# Property C182: matrices with a wrong number of entries

`Mat::new` does not compare the number of entries with the dimensions. Entries after the last row are
never used by anything that goes through rows and columns: such routines return for the matrix with
surplus entries what they return for the matrix without them, and keep the surplus where they change the
matrix. For every coefficient type.
-/

namespace Verif
open Res LinAlg

/-- Whenever `a` returns `y`, `b` returns `f y`. -/
def Imp {α β : Type} (f : α → β) (a : Res α) (b : Res β) : Prop := ∀ y, a = .ok y → b = .ok (f y)

namespace Imp
variable {α β γ δ ι : Type}

theorem refl (a : Res α) : Imp id a a := fun _ h => h

theorem pure {f : α → β} (y : α) : Imp f (Pure.pure y : Res α) (Pure.pure (f y) : Res β) := by
  intro z h
  cases h
  rfl

theorem ok {f : α → β} (y : α) : Imp f (Res.ok y) (Res.ok (f y)) := pure y

theorem panic {f : α → β} (p : Panic) (b : Res β) : Imp f (.panic p) b := nofun

theorem bind {f : α → β} {g : γ → δ} {a : Res α} {b : Res β} {k : α → Res γ} {k' : β → Res δ}
    (h : Imp f a b) (hk : ∀ y, Imp g (k y) (k' (f y))) : Imp g (a >>= k) (b >>= k') := by
  intro z hz
  obtain ⟨y, hy, hz⟩ := bind_eq_ok.mp hz
  exact bind_eq_ok.mpr ⟨f y, h y hy, hk y z hz⟩

/-- The first action is the same on both sides. -/
theorem same {g : γ → δ} {a : Res α} {k : α → Res γ} {k' : α → Res δ}
    (hk : ∀ y, Imp g (k y) (k' y)) : Imp g (a >>= k) (a >>= k') := bind (refl a) hk

theorem foldlM {f : α → β} {step : α → ι → Res α} {step' : β → ι → Res β}
    (hs : ∀ s i, Imp f (step s i) (step' (f s) i)) (l : List ι) (s : α) :
    Imp f (l.foldlM step s) (l.foldlM step' (f s)) := by
  induction l generalizing s with
  | nil => exact pure s
  | cons i l ih =>
    rw [List.foldlM_cons, List.foldlM_cons]
    exact (hs s i).bind ih

theorem mapM {f : α → β} {k : ι → Res α} {k' : ι → Res β} (hs : ∀ i, Imp f (k i) (k' i)) (l : List ι) :
    Imp (List.map f) (l.mapM k) (l.mapM k') := by
  induction l with
  | nil => exact pure []
  | cons i l ih =>
    rw [List.mapM_cons, List.mapM_cons]
    exact (hs i).bind fun y => ih.bind fun ys => pure (y :: ys)

theorem mapM_id {k k' : ι → Res α} (hs : ∀ i, Imp id (k i) (k' i)) (l : List ι) :
    Imp id (l.mapM k) (l.mapM k') := by
  have := mapM hs l
  rwa [List.map_id_fun] at this

theorem allM {k k' : ι → Res Bool} (hs : ∀ i, Imp id (k i) (k' i)) (l : List ι) :
    Imp id (l.allM k) (l.allM k') := by
  induction l with
  | nil => exact pure true
  | cons i l ih =>
    rw [List.allM, List.allM]
    refine (hs i).bind fun b => ?_
    cases b
    · exact pure false
    · exact ih

end Imp

section
variable {F : Type} [RField F] (x : List F)

/-- The matrix with the entries `x` appended to its vector of entries. -/
def Mat.pad (M : Mat F) : Mat F := { M with entries := M.entries ++ x }

namespace Mat

theorem get_pad (M : Mat F) (r c : ℕ) : Imp id (M.get r c) ((M.pad x).get r c) := by
  refine Imp.same fun i => ?_
  change Imp id _ (match (M.entries ++ x)[i]? with | some x => Pure.pure x | none => _)
  cases h : M.entries[i]? with
  | none => exact Imp.panic _ _
  | some y =>
    rw [List.getElem?_append_left (List.getElem?_eq_some_iff.mp h).1, h]
    exact Imp.pure y

theorem set_pad (M : Mat F) (r c : ℕ) (y : F) : Imp (Mat.pad x) (M.set r c y) ((M.pad x).set r c y) := by
  refine Imp.same fun i => ?_
  change Imp _ (if i < M.entries.length then _ else _) (if i < (M.entries ++ x).length then _ else _)
  by_cases h : i < M.entries.length
  · rw [if_pos h, if_pos (by rw [List.length_append]; omega)]
    have : ({ (M.pad x) with entries := (M.entries ++ x).set i y } : Mat F) =
        Mat.pad x { M with entries := M.entries.set i y } := by
      simp only [Mat.pad, List.set_append_left _ _ h]
    change Imp _ _ (Pure.pure ({ (M.pad x) with entries := (M.entries ++ x).set i y } : Mat F))
    rw [this]
    exact Imp.pure _
  · rw [if_neg h]
    exact Imp.panic _ _

theorem swapList_pad {α : Type} (l x : List α) (i j : ℕ) :
    Imp (· ++ x) (swapList l i j) (swapList (l ++ x) i j) := by
  unfold swapList
  cases hi : l[i]? with
  | none => exact Imp.panic _ _
  | some a =>
    cases hj : l[j]? with
    | none => exact Imp.panic _ _
    | some b =>
      have hi' := (List.getElem?_eq_some_iff.mp hi).1
      have hj' := (List.getElem?_eq_some_iff.mp hj).1
      rw [List.getElem?_append_left hi', List.getElem?_append_left hj', hi, hj]
      dsimp only
      rw [List.set_append_left _ _ hi', List.set_append_left _ _ (by rw [List.length_set]; exact hj')]
      exact Imp.ok _

theorem swap_pad (M : Mat F) (p q : ℕ × ℕ) : Imp (Mat.pad x) (M.swap p q) ((M.pad x).swap p q) :=
  Imp.same fun _ => Imp.same fun _ => (swapList_pad _ x _ _).bind fun _ => Imp.pure _

theorem scaleRow_pad (M : Mat F) (i : ℕ) (s : F) : Imp (Mat.pad x) (M.scaleRow i s) ((M.pad x).scaleRow i s) :=
  Imp.foldlM (fun M c => (get_pad x M i c).bind fun _ => Imp.same fun _ => set_pad x M i c _) _ M

theorem permuteRows_pad (M : Mat F) (i j : ℕ) :
    Imp (Mat.pad x) (M.permuteRows i j) ((M.pad x).permuteRows i j) :=
  Imp.foldlM (fun M c => (get_pad x M i c).bind fun _ => (get_pad x M j c).bind fun _ =>
    (set_pad x M i c _).bind fun _ => set_pad x _ j c _) _ M

theorem replaceRow_pad (M : Mat F) (i j : ℕ) (s : F) :
    Imp (Mat.pad x) (M.replaceRow i j s) ((M.pad x).replaceRow i j s) :=
  Imp.foldlM (fun M c => (get_pad x M j c).bind fun _ => (get_pad x M i c).bind fun _ =>
    Imp.same fun _ => Imp.same fun _ => set_pad x M j c _) _ M

theorem getRowIter_pad (M : Mat F) (r : ℕ) : Imp id (M.getRowIter r) ((M.pad x).getRowIter r) := by
  refine Imp.same fun i => Imp.same fun r1 => Imp.same fun j => ?_
  change Imp id (if i ≤ j ∧ j ≤ M.entries.length then Pure.pure ((M.entries.drop i).take (j - i)) else _)
    (if i ≤ j ∧ j ≤ (M.entries ++ x).length then Pure.pure (((M.entries ++ x).drop i).take (j - i)) else _)
  by_cases h : i ≤ j ∧ j ≤ M.entries.length
  · rw [if_pos h, if_pos ⟨h.1, by rw [List.length_append]; omega⟩,
      List.drop_append_of_le_length (by omega), List.take_append_of_le_length (by rw [List.length_drop]; omega)]
    exact Imp.pure _
  · rw [if_neg h]
    exact Imp.panic _ _

theorem getRow_pad (M : Mat F) (r : ℕ) : Imp id (M.getRow r) ((M.pad x).getRow r) :=
  (getRowIter_pad x M r).bind fun _ => Imp.pure _

theorem getColIter_pad (M : Mat F) (c : ℕ) : Imp id (M.getColIter c) ((M.pad x).getColIter c) :=
  Imp.mapM_id (fun r => get_pad x M r c) _

theorem getCol_pad (M : Mat F) (c : ℕ) : Imp id (M.getCol c) ((M.pad x).getCol c) :=
  (getColIter_pad x M c).bind fun _ => Imp.pure _

end Mat

/-- **C182** Reading a row or a column, transposing, the triangularity tests and displaying ignore surplus
entries. -/
theorem C182_read (M : Mat F) :
    (∀ r c y, M.get r c = .ok y → (M.pad x).get r c = .ok y) ∧
    (∀ r R, M.getRow r = .ok R → (M.pad x).getRow r = .ok R) ∧
    (∀ c R, M.getCol c = .ok R → (M.pad x).getCol c = .ok R) ∧
    (∀ R, M.transpose = .ok R → (M.pad x).transpose = .ok R) ∧
    (∀ b, M.isUpperTriangular = .ok b → (M.pad x).isUpperTriangular = .ok b) ∧
    (∀ b, M.isLowerTriangular = .ok b → (M.pad x).isLowerTriangular = .ok b) ∧
    ∀ dbg t, Display.mat dbg M = .ok t → Display.mat dbg (M.pad x) = .ok t := by
  refine ⟨M.get_pad x, M.getRow_pad x, M.getCol_pad x, ?_, ?_, ?_, fun dbg => ?_⟩
  · change Imp id M.transpose (M.pad x).transpose
    unfold Mat.transpose
    exact Imp.bind (f := id) (Imp.mapM_id (fun (rc : ℕ × ℕ) => M.get_pad x rc.2 rc.1) _) fun _ => Imp.pure _
  · change Imp id M.isUpperTriangular (M.pad x).isUpperTriangular
    unfold Mat.isUpperTriangular
    exact Imp.allM (fun (rc : ℕ × ℕ) => (M.get_pad x rc.1 rc.2).bind fun _ => Imp.pure _) _
  · change Imp id M.isLowerTriangular (M.pad x).isLowerTriangular
    unfold Mat.isLowerTriangular
    exact Imp.allM (fun (rc : ℕ × ℕ) => (M.get_pad x rc.1 rc.2).bind fun _ => Imp.pure _) _
  · change Imp id (Display.mat dbg M) (Display.mat dbg (M.pad x))
    unfold Display.mat
    refine Imp.foldlM (f := id) (fun s r => ?_) _ _
    refine Imp.same fun i => Imp.same fun k => Imp.same fun j => ?_
    change Imp id (if i ≤ j ∧ j ≤ M.entries.length then _ else _)
      (if i ≤ j ∧ j ≤ (M.entries ++ x).length then _ else _)
    by_cases h : i ≤ j ∧ j ≤ M.entries.length
    · have hsl : ((M.pad x).entries.drop i).take (j - i) = (M.entries.drop i).take (j - i) := by
        change ((M.entries ++ x).drop i).take (j - i) = _
        rw [List.drop_append_of_le_length (by omega), List.take_append_of_le_length (by rw [List.length_drop]; omega)]
      rw [if_pos h, if_pos ⟨h.1, by rw [List.length_append]; omega⟩, hsl]
      exact Imp.refl _
    · rw [if_neg h]
      exact Imp.panic _ _

/-- **C182** The product ignores surplus entries of both factors. -/
theorem C182_mul (M N : Mat F) (y : List F) (R : Mat F) (h : M.mul N = .ok R) : (M.pad x).mul (N.pad y) = .ok R := by
  revert h
  refine (?_ : Imp id _ _) R
  unfold Mat.mul
  change Imp id (if M.cols ≠ N.rows then _ else _) (if M.cols ≠ N.rows then _ else _)
  split
  · exact Imp.refl _
  · refine (Imp.mapM_id (fun (rc : ℕ × ℕ) => ?_) _).bind fun _ => Imp.pure _
    refine (M.getRowIter_pad x rc.1).bind fun row => ?_
    exact Imp.foldlM (f := id) (fun s (k : F × ℕ) => (N.get_pad y k.2 rc.2).bind fun _ => Imp.same fun _ => Imp.refl _) _ _

/-- **C182** The row operations and `swap` leave surplus entries alone. -/
theorem C182_rows (M R : Mat F) :
    (∀ r c y, M.set r c y = .ok R → (M.pad x).set r c y = .ok (R.pad x)) ∧
    (∀ p q, M.swap p q = .ok R → (M.pad x).swap p q = .ok (R.pad x)) ∧
    (∀ i s, M.scaleRow i s = .ok R → (M.pad x).scaleRow i s = .ok (R.pad x)) ∧
    (∀ i j, M.permuteRows i j = .ok R → (M.pad x).permuteRows i j = .ok (R.pad x)) ∧
    ∀ i j s, M.replaceRow i j s = .ok R → (M.pad x).replaceRow i j s = .ok (R.pad x) :=
  ⟨fun r c y => M.set_pad x r c y R, fun p q => M.swap_pad x p q R, fun i s => M.scaleRow_pad x i s R,
    fun i j => M.permuteRows_pad x i j R, fun i j s => M.replaceRow_pad x i j s R⟩

end

section
variable {F : Type} [RField F] [EpsilonEquality F] [StabilityCmp F] (x : List F)

def LUInternal.pad (lu : LUInternal F) : LUInternal F := { lu with u := lu.u.pad x }
def Form.pad (f : Form F) : Form F := { f with b := f.b.pad x, original := f.original.pad x }

omit [EpsilonEquality F] [StabilityCmp F] in
theorem LUInternal.permute_pad (lu : LUInternal F) (i j : ℕ) :
    Imp (LUInternal.pad x) (lu.permute i j) ((lu.pad x).permute i j) :=
  Imp.same fun _ => (lu.u.permuteRows_pad x i j).bind fun _ => Imp.same fun _ => Imp.pure _

omit [EpsilonEquality F] [StabilityCmp F] in
theorem LUInternal.scaleRow_pad (lu : LUInternal F) (r : ℕ) (s : F) :
    Imp (LUInternal.pad x) (lu.scaleRow r s) ((lu.pad x).scaleRow r s) :=
  Imp.same fun _ => Imp.same fun _ => (lu.u.scaleRow_pad x r _).bind fun _ => Imp.pure _

omit [EpsilonEquality F] [StabilityCmp F] in
theorem LUInternal.replaceColUnderRow_pad (lu : LUInternal F) (r c : ℕ) :
    Imp (LUInternal.pad x) (lu.replaceColUnderRow r c) ((lu.pad x).replaceColUnderRow r c) :=
  Imp.foldlM (fun lu r2 => (lu.u.get_pad x r2 c).bind fun _ => Imp.same fun _ =>
    (lu.u.replaceRow_pad x r r2 _).bind fun _ => Imp.same fun _ => Imp.pure _) _ lu

theorem Mat.getStable_pad (M : Mat F) (c r : ℕ) : Imp id (M.getStable c r) ((M.pad x).getStable c r) :=
  (M.getColIter_pad x c).bind fun _ => Imp.same fun _ => (M.get_pad x _ c).bind fun _ => Imp.same fun b => by
    cases b <;> exact Imp.pure _

theorem Mat.luFor_pad (n : ℕ) (cs : List ℕ) (r : ℕ) (lu : LUInternal F) :
    Imp (LUInternal.pad x) (Mat.luFor n cs r lu) (Mat.luFor n cs r (lu.pad x)) := by
  induction cs generalizing r lu with
  | nil => exact Imp.ok _
  | cons c cs ih =>
    unfold Mat.luFor
    split
    · exact Imp.ok _
    · refine (lu.u.getStable_pad x c r).bind fun o => ?_
      rcases o with _ | ⟨i, s⟩
      · exact ih r lu
      · exact (lu.permute_pad x r i).bind fun lu => (lu.scaleRow_pad x r s).bind fun lu =>
          (lu.replaceColUnderRow_pad x r c).bind fun lu => ih (r + 1) lu

omit [EpsilonEquality F] [StabilityCmp F] in
theorem Form.replaceStep_pad (r c : ℕ) (f : Form F) (r2 : ℕ) :
    Imp (Form.pad x) (Form.replaceStep r c f r2) (Form.replaceStep r c (f.pad x) r2) :=
  (f.b.get_pad x r2 c).bind fun _ => Imp.same fun _ => Imp.same fun _ => Imp.same fun _ =>
    (f.b.replaceRow_pad x r r2 _).bind fun _ => Imp.pure _

theorem Mat.rowEchelonFor_pad (n : ℕ) (cs : List ℕ) (r : ℕ) (f : Form F) :
    Imp (Form.pad x) (Mat.rowEchelonFor n cs r f) (Mat.rowEchelonFor n cs r (f.pad x)) := by
  induction cs generalizing r f with
  | nil => exact Imp.ok _
  | cons c cs ih =>
    unfold Mat.rowEchelonFor
    split
    · exact Imp.ok _
    · refine (f.b.getStable_pad x c r).bind fun o => ?_
      rcases o with _ | ⟨i, s⟩
      · exact ih r f
      · exact Imp.bind (f := Form.pad x) (Imp.same fun _ => (f.b.permuteRows_pad x r i).bind fun _ => Imp.pure _)
          fun f => Imp.same fun s => Imp.bind (f := Form.pad x)
            (Imp.same fun _ => (f.b.scaleRow_pad x r s).bind fun _ => Imp.pure _) fun f =>
              (Imp.foldlM (Form.replaceStep_pad x r c) _ f).bind fun f => ih (r + 1) f

omit [StabilityCmp F] in
theorem Mat.firstNonzero_pad (M : Mat F) (r : ℕ) : Imp id (M.firstNonzero r) ((M.pad x).firstNonzero r) :=
  (M.getRow_pad x r).bind fun _ => Imp.refl _

/-- **C182** `lu`, `row_echelon`, `to_rref`, `rank`, `nullity`, `compute_kernel` and `compute_range` ignore
surplus entries: they reappear unchanged after the entries of `u` and of the echelon forms. -/
theorem C182_elimination (M : Mat F) :
    (∀ d, M.lu = .ok d → (M.pad x).lu = .ok { d with u := d.u.pad x }) ∧
    ∀ f, M.rowEchelon = .ok f → (M.pad x).rowEchelon = .ok (f.pad x) ∧
      (∀ k, f.rank = .ok k → (f.pad x).rank = .ok k) ∧ (∀ k, f.nullity = .ok k → (f.pad x).nullity = .ok k) ∧
      ∀ g, f.toRref = .ok g → (f.pad x).toRref = .ok (g.pad x) ∧
        (∀ k, g.rank = .ok k → (g.pad x).rank = .ok k) ∧ (∀ k, g.nullity = .ok k → (g.pad x).nullity = .ok k) ∧
        (∀ l, g.computeKernel = .ok l → (g.pad x).computeKernel = .ok l) ∧
        ∀ o l, g.computeRange o = .ok l → (g.pad x).computeRange o = .ok l := by
  have hrank : ∀ f : Form F, Imp id f.rank (f.pad x).rank := fun f =>
    (Imp.foldlM (f := id) (fun z r => (f.b.firstNonzero_pad x r).bind fun o => by
      cases o <;> exact Imp.pure _) _ _).bind fun _ => Imp.refl _
  have hnull : ∀ f : Form F, Imp id f.nullity (f.pad x).nullity := fun f =>
    (hrank f).bind fun _ => Imp.refl _
  have hbound : ∀ f : Form F, Imp id f.boundVariables (f.pad x).boundVariables := fun f =>
    (Imp.mapM_id (fun r => f.b.firstNonzero_pad x r) _).bind fun _ => Imp.pure _
  refine ⟨?_, fun f hf => ⟨?_, hrank f, hnull f, fun g hg => ⟨?_, hrank g, hnull g, ?_, fun o => ?_⟩⟩⟩
  · change Imp (fun d : LU F => { d with u := d.u.pad x }) M.lu (M.pad x).lu
    unfold Mat.lu
    refine Imp.bind (Mat.luFor_pad x M.rows (List.range M.cols) 0 ⟨List.range M.rows, Mat.identity M.rows, M⟩) ?_
    exact fun lu => Imp.pure (f := fun d : LU F => { d with u := d.u.pad x }) ⟨Mat.permutationFromVec lu.p, lu.l, lu.u⟩
  · exact Mat.rowEchelonFor_pad x M.rows (List.range M.cols) 0 ⟨Mat.identity M.rows, M, M⟩ f hf
  · refine Imp.foldlM (f := Form.pad x) (fun f r => (f.b.firstNonzero_pad x r).bind fun o => ?_) _ f g hg
    cases o with
    | none => exact Imp.pure _
    | some c => exact Imp.foldlM (Form.replaceStep_pad x r c) _ f
  · refine (hbound g).bind fun bound => Imp.mapM_id (fun c => ?_) _
    refine Imp.foldlM (f := id) (fun v r => (g.b.firstNonzero_pad x r).bind fun o => ?_) _ _
    cases o with
    | none => exact Imp.pure _
    | some c2 =>
      dsimp only [id]
      split
      · exact (g.b.get_pad x r c).bind fun _ => Imp.same fun _ => Imp.refl _
      · exact Imp.pure _
  · exact (hbound g).bind fun bound => Imp.mapM_id (fun c => g.original.getCol_pad x c) _

end

section
variable {F : Type} [RField F]

theorem mapM_ok_length {α β : Type} {k : α → Res β} {l : List α} {l' : List β} (h : l.mapM k = .ok l') :
    l'.length = l.length := by
  induction l generalizing l' with
  | nil => cases h; rfl
  | cons a l ih =>
    rw [List.mapM_cons] at h
    obtain ⟨b, -, h⟩ := bind_eq_ok.mp h
    obtain ⟨bs, hb, h⟩ := bind_eq_ok.mp h
    cases h
    rw [List.length_cons, List.length_cons, ih hb]

/-- If every action returns or panics with `p`, and one panics, the sequence does. -/
theorem mapM_panic {α β : Type} {k : α → Res β} {p : Panic} {l : List α}
    (h : ∀ a ∈ l, (∃ b, k a = .ok b) ∨ k a = .panic p) (hex : ∃ a ∈ l, k a = .panic p) : l.mapM k = .panic p := by
  induction l with
  | nil => simp at hex
  | cons a l ih =>
    rw [List.mapM_cons]
    rcases h a (by simp) with ⟨b, hb⟩ | ha
    · rw [hb, bind_ok, ih (fun a ha => h a (by simp [ha]))]
      · rfl
      · obtain ⟨a', ha', hp⟩ := hex
        rcases List.mem_cons.mp ha' with rfl | ha'
        · rw [hb] at hp; cases hp
        · exact ⟨a', ha', hp⟩
    · rw [ha]; rfl

theorem zip_append_left {α β : Type} (l y : List α) (l' : List β) (h : l'.length ≤ l.length) :
    (l ++ y).zip l' = l.zip l' := by
  induction l generalizing l' with
  | nil => simp_all
  | cons a l ih =>
    cases l' with
    | nil => rfl
    | cons b l' =>
      rw [List.cons_append, List.zip_cons_cons, List.zip_cons_cons, ih l' (by simpa using h)]

theorem zip_append_right {α β : Type} (l : List α) (l' y : List β) (h : l.length ≤ l'.length) :
    l.zip (l' ++ y) = l.zip l' := by
  induction l generalizing l' with
  | nil => simp
  | cons a l ih =>
    cases l' with
    | nil => simp at h
    | cons b l' =>
      rw [List.cons_append, List.zip_cons_cons, List.zip_cons_cons, ih l' (by simpa using h)]

/-- **C182** The sum, `dot` and `epsilon_equals` ignore the surplus entries of one operand (the first for
`epsilon_equals`) if the other has none, but `==` does not: it tells the two matrices apart. -/
theorem C182_zip (M N : Mat F) (x : List F) (h : M.entries.length = N.entries.length) :
    (M.pad x).add N = M.add N ∧ N.add (M.pad x) = N.add M ∧
    (M.pad x).dot N = M.dot N ∧ N.dot (M.pad x) = N.dot M ∧
    (∀ [EpsilonEquality F], (M.pad x).epsilonEquals N = M.epsilonEquals N) ∧
    (x ≠ [] → (M.pad x).eq N = false ∧ N.eq (M.pad x) = false) := by
  have hadd : ∀ N : Mat F, M.entries.length = N.entries.length → (M.pad x).add N = M.add N := by
    intro N h
    unfold Mat.add Mat.pad
    dsimp only
    rw [zip_append_left _ _ _ h.ge]
  refine ⟨hadd N h, ?_, ?_, ?_, ?_, fun hx => ?_⟩
  · unfold Mat.add Mat.pad
    dsimp only
    rw [zip_append_right _ _ _ h.ge]
  · unfold Mat.dot Mat.pad
    dsimp only
    rw [zip_append_left _ _ _ h.ge]
  · unfold Mat.dot Mat.pad
    dsimp only
    rw [zip_append_right _ _ _ h.ge]
  · intro _
    unfold Mat.epsilonEquals
    refine congrArg _ (funext fun s => ?_)
    cases ho : N.smul s with
    | ok o =>
      have hlen : M.entries.length = o.entries.length := by
        obtain ⟨l, hl, he⟩ := bind_eq_ok.mp ho
        cases he
        rw [h]
        exact (mapM_ok_length hl).symm
      rw [bind_ok, bind_ok, hadd o hlen]
    | panic p => rfl
    | diverge => rfl
  · have hl : 0 < x.length := List.length_pos_of_ne_nil hx
    unfold Mat.eq Mat.pad
    dsimp only
    rw [List.length_append, show (M.entries.length + x.length == N.entries.length) = false from by
      rw [beq_eq_false_iff_ne]; omega, show (N.entries.length == M.entries.length + x.length) = false from by
      rw [beq_eq_false_iff_ne]; omega]
    exact ⟨rfl, rfl⟩

/-- Reading a cell of a row and a column of the matrix, if there may be too few entries. -/
theorem get_short (M : Mat F) (hs : M.rows * M.cols < 18446744073709551616) {r c : ℕ} (hr : r < M.rows)
    (hc : c < M.cols) : M.get r c = match M.entries[r * M.cols + c]? with
      | some x => .ok x
      | none => .panic .indexOutOfBounds := by
  have h1 : r * M.cols + c < M.rows * M.cols := by
    calc r * M.cols + c < r * M.cols + M.cols := by omega
      _ = (r + 1) * M.cols := by ring
      _ ≤ M.rows * M.cols := Nat.mul_le_mul_right _ hr
  unfold Mat.get Mat.offset Usize.mul Usize.add
  rw [Usize.norm_eq (by omega), bind_ok, Usize.norm_eq (by omega), bind_ok]
  rfl

/-- **C182** A matrix with too few entries cannot be transposed, and its last row and its last column
cannot be read. -/
theorem C182_short (M : Mat F) (hs : M.rows * M.cols < 18446744073709551616)
    (hl : M.entries.length < M.rows * M.cols) :
    M.transpose = .panic .indexOutOfBounds ∧ M.getRow (M.rows - 1) = .panic .indexOutOfBounds ∧
    M.getCol (M.cols - 1) = .panic .indexOutOfBounds := by
  have hr : 0 < M.rows := by
    rcases Nat.eq_zero_or_pos M.rows with h | h
    · rw [h] at hl; omega
    · exact h
  have hc : 0 < M.cols := by
    rcases Nat.eq_zero_or_pos M.cols with h | h
    · rw [h] at hl; omega
    · exact h
  have hlast : (M.rows - 1) * M.cols + M.cols = M.rows * M.cols := by
    rw [Nat.sub_mul, Nat.one_mul, Nat.sub_add_cancel (Nat.le_mul_of_pos_left _ hr)]
  have hget : ∀ r c, r < M.rows → c < M.cols → (∃ b, M.get r c = .ok b) ∨ M.get r c = .panic .indexOutOfBounds := by
    intro r c hr hc
    rw [get_short M hs hr hc]
    cases M.entries[r * M.cols + c]? with
    | none => exact Or.inr rfl
    | some y => exact Or.inl ⟨y, rfl⟩
  have hpan : M.get (M.rows - 1) (M.cols - 1) = .panic .indexOutOfBounds := by
    rw [get_short M hs (by omega) (by omega), List.getElem?_eq_none (by omega)]
  refine ⟨?_, ?_, ?_⟩
  · unfold Mat.transpose
    rw [mapM_panic (p := .indexOutOfBounds) (fun rc h => ?_) ⟨(M.cols - 1, M.rows - 1), ?_, hpan⟩]
    · rfl
    · rw [mem_boxIter]
      exact ⟨by dsimp only; omega, by dsimp only; omega⟩
    · have := mem_boxIter.mp h
      exact hget rc.2 rc.1 this.2 this.1
  · unfold Mat.getRow Mat.getRowIter Usize.mul Usize.add
    rw [Usize.norm_eq (by omega), bind_ok, Usize.norm_eq (by
        have := Nat.le_mul_of_pos_right M.rows hc
        omega), bind_ok, Nat.sub_add_cancel hr, Usize.norm_eq hs, bind_ok, if_neg (by omega)]
    rfl
  · unfold Mat.getCol Mat.getColIter
    rw [mapM_panic (p := .indexOutOfBounds) (fun r h => ?_) ⟨M.rows - 1, ?_, hpan⟩]
    · rfl
    · rw [List.mem_range]; omega
    · exact hget r _ (List.mem_range.mp h) (by omega)

end

section examples

/-- A `1 × 2` matrix with entries `1, 2` and a third entry `3` that belongs to no cell. -/
example : letI := Rational.field .debug
    letI := Rational.stability .debug
    (ratMat 1 2 [1, 2]).pad [(⟨3, 1⟩ : Rational)] = ratMat 1 2 [1, 2, 3] ∧
    (ratMat 1 2 [1, 2, 3]).transpose = .ok (ratMat 2 1 [1, 2]) ∧
    (ratMat 1 2 [1, 2, 3]).lu = .ok ⟨ratMat 1 1 [1], ratMat 1 1 [1], ratMat 1 2 [1, 2, 3]⟩ ∧
    (ratMat 1 2 [1, 2, 3]).epsilonEquals (ratMat 1 2 [1, 2]) = .ok true ∧
    (ratMat 1 2 [1, 2, 3]).eq (ratMat 1 2 [1, 2]) = false ∧
    (ratMat 1 2 [1, 2, 3]).frobeniusNorm = .ok ⟨14, 1⟩ ∧
    (ratMat 1 2 [1]).transpose = .panic .indexOutOfBounds ∧ (ratMat 1 2 [1]).lu = .panic .indexOutOfBounds := by
  decide +kernel

end examples
end Verif
