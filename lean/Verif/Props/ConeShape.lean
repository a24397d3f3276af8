import Verif.Props.ConeExact
import Verif.Props.Surplus
import Verif.Proofs.Closed

/-!
# C191: `Cone::new` on generators with a wrong number of entries

Nothing is assumed of the coefficient type.
-/

set_option linter.unusedSectionVars false

namespace Verif
open Res LinAlg

variable {F : Type} [RField F]

/-- The first `m` entries of a column. -/
def Mat.cut (m : ℕ) (g : Mat F) : Mat F := ⟨g.entries.take m, m, 1⟩

/-- A column of `m` rows with at least `m` entries. -/
def Mat.Surplus (m : ℕ) (g : Mat F) : Prop := g.rows = m ∧ g.cols = 1 ∧ m ≤ g.entries.length

theorem Res.Holds.bind_congr {α β : Type} {P : α → Prop} {x : Res α} {f g : α → Res β} (h : Holds P x)
    (hfg : ∀ a, P a → f a = g a) : x >>= f = x >>= g := by
  cases x with
  | ok a => exact hfg a (h a rfl)
  | panic p => rfl
  | diverge => rfl

theorem mapM_congr_mem {α β : Type} {f g : α → Res β} {l : List α} (h : ∀ a ∈ l, f a = g a) :
    l.mapM f = l.mapM g := by
  induction l with
  | nil => rfl
  | cons a l ih =>
    rw [List.mapM_cons, List.mapM_cons, h a (by simp), ih fun b hb => h b (by simp [hb])]

namespace Mat

theorem Surplus.get {m c : ℕ} {g : Mat F} (h : g.Surplus m) (hm : m < 18446744073709551616) (hc : c < m) :
    (g.cut m).get c 0 = g.get c 0 := by
  unfold Mat.get Mat.offset Usize.mul Usize.add Mat.cut
  rw [h.2.1]
  dsimp only
  rw [Usize.norm_eq (by omega), bind_ok, Usize.norm_eq (by omega), bind_ok, mul_one, add_zero,
    List.getElem?_take_of_lt hc, bind_ok]

theorem fromRowVectors_cut {m : ℕ} (hm : m < 18446744073709551616) {vs : List (Mat F)}
    (h : ∀ g ∈ vs, g.Surplus m) : fromRowVectors (vs.map (Mat.cut m)) = fromRowVectors vs := by
  rcases vs with _ | ⟨v, vs⟩
  · rfl
  unfold fromRowVectors
  simp only [Mat.nth, List.map_cons, List.getElem?_cons_zero, bind_ok, List.length_cons, List.length_map]
  have hr : (v.cut m).rows = v.rows := (h v (by simp)).1.symm
  rw [hr]
  refine congrArg (· >>= _) (mapM_congr_mem fun x hx => ?_)
  obtain ⟨r, c⟩ := x
  obtain ⟨h1, h2⟩ := mem_boxIter.mp hx
  have h1 : r < (v :: vs).length := h1
  have h2 : c < v.rows := h2
  rw [(h v (by simp)).1] at h2
  dsimp only
  rw [← List.map_cons, List.getElem?_map, List.getElem?_eq_getElem h1]
  simp only [Option.map_some, bind_ok]
  exact (h _ (List.getElem_mem _)).get hm h2

theorem zip_take_left {α β : Type} {m : ℕ} (l : List α) {l' : List β} (h : l'.length ≤ m) :
    (l.take m).zip l' = l.zip l' := by
  induction l generalizing m l' with
  | nil => simp
  | cons a l ih =>
    cases l' with
    | nil => simp
    | cons b l' =>
      obtain ⟨m, rfl⟩ : ∃ k, m = k + 1 := ⟨m - 1, by simp at h; omega⟩
      rw [List.take_succ_cons, List.zip_cons_cons, List.zip_cons_cons, ih (by simpa using h)]

theorem dot_cut {m : ℕ} (g : Mat F) {v : Mat F} (h : v.entries.length ≤ m) : (g.cut m).dot v = g.dot v := by
  unfold dot cut
  rw [zip_take_left _ h]

/-- The numbers of columns and of entries are kept. -/
def Size (m l : ℕ) (M : Mat F) : Prop := M.cols = m ∧ M.entries.length = l

variable {m l : ℕ}

theorem size_set {M : Mat F} (h : M.Size m l) {i j : ℕ} {x : F} : Holds (Size m l) (M.set i j x) := by
  unfold Mat.set
  refine Holds.bind' fun k => ?_
  split
  · exact Holds.ok ⟨h.1, by simp [h.2]⟩
  · exact Holds.panic

theorem size_scaleRow {M : Mat F} (h : M.Size m l) {i : ℕ} {s : F} : Holds (Size m l) (M.scaleRow i s) :=
  Holds.foldlM h fun _ _ _ hM => Holds.bind' fun _ => Holds.bind' fun _ => size_set hM

theorem size_permuteRows {M : Mat F} (h : M.Size m l) {s t : ℕ} : Holds (Size m l) (M.permuteRows s t) :=
  Holds.foldlM h fun _ _ _ hM => Holds.bind' fun _ => Holds.bind' fun _ =>
    (size_set hM).bind fun _ hM' => size_set hM'

theorem size_replaceRow {M : Mat F} (h : M.Size m l) {s t : ℕ} {a : F} :
    Holds (Size m l) (M.replaceRow s t a) :=
  Holds.foldlM h fun _ _ _ hM => Holds.bind' fun _ => Holds.bind' fun _ => Holds.bind' fun _ =>
    Holds.bind' fun _ => size_set hM

theorem size_scale {M : Mat F} (h : M.Size m l) {s : F} : Holds (Size m l) (M.scale s) := by
  unfold Mat.scale
  refine Holds.bind_eq fun xs hxs => Holds.ok ⟨h.1, ?_⟩
  rw [← h.2]
  exact mapM_ok_length hxs

end Mat

variable [EpsilonEquality F] [StabilityCmp F] {m l : ℕ}

theorem Form.size_replaceStep {r col : ℕ} {f : Form F} (hf : f.b.Size m l) (r2 : ℕ) :
    Holds (fun f : Form F => f.b.Size m l) (Form.replaceStep r col f r2) :=
  Holds.bind' fun _ => Holds.bind' fun _ => Holds.bind' fun _ => Holds.bind' fun _ =>
    (Mat.size_replaceRow hf).bind fun _ hb => Holds.ok hb

theorem size_rowEchelonFor {n : ℕ} (cs : List ℕ) (r : ℕ) (f : Form F) (hf : f.b.Size m l) :
    Holds (fun f : Form F => f.b.Size m l) (Mat.rowEchelonFor n cs r f) := by
  induction cs generalizing r f with
  | nil => exact Holds.ok hf
  | cons col cs ih =>
    unfold Mat.rowEchelonFor
    split
    · exact Holds.ok hf
    · refine Holds.bind' fun o => ?_
      rcases o with _ | ⟨i, x⟩
      · exact ih r f hf
      · refine Holds.bind (P := fun f : Form F => f.b.Size m l) ?_ fun f hf => ?_
        · exact Holds.bind' fun _ => (Mat.size_permuteRows hf).bind fun _ h2 => Holds.ok h2
        refine Holds.bind' fun s => ?_
        refine Holds.bind (P := fun f : Form F => f.b.Size m l) ?_ fun f hf => ?_
        · exact Holds.bind' fun _ => (Mat.size_scaleRow hf).bind fun _ h2 => Holds.ok h2
        refine Holds.bind (P := fun f : Form F => f.b.Size m l) ?_ fun f hf => ih (r + 1) f hf
        exact Holds.foldlM hf fun f r2 _ hf => Form.size_replaceStep hf r2

theorem size_toRref {f : Form F} (hf : f.b.Size m l) :
    Holds (fun f : Form F => f.b.Size m l) f.toRref := by
  refine Holds.foldlM hf fun f r _ hf => Holds.bind' fun o => ?_
  rcases o with _ | col
  · exact Holds.ok hf
  · exact Holds.foldlM hf fun f r2 _ hf => Form.size_replaceStep hf r2

theorem size_computeKernel {f : Form F} (hf : f.b.Size m l) :
    Holds (fun vs => ∀ v ∈ vs, Mat.Size 1 m v) f.computeKernel := by
  unfold Form.computeKernel
  refine Holds.bind' fun bound => Holds.mapM fun col _ => ?_
  refine Holds.foldlM ⟨rfl, by simp [Mat.e, Mat.new, hf.1]⟩ fun v r _ hv => Holds.bind' fun o => ?_
  rcases o with _ | c2
  · exact Holds.ok hv
  · dsimp only
    split
    · exact Holds.bind' fun x => Holds.bind' fun y => Mat.size_set hv
    · exact Holds.ok hv

variable [FieldOrd F]

theorem allAbove_cut {v : Mat F} (h : v.entries.length ≤ m) (gs : List (Mat F)) :
    Cone.allAbove v (gs.map (Mat.cut m)) = Cone.allAbove v gs := by
  induction gs with
  | nil => rfl
  | cons g gs ih =>
    rw [List.map_cons]
    unfold Cone.allAbove
    rw [Mat.dot_cut _ h, ih]

/-- A face with the surplus entries of its generators removed. -/
def Face.cut (m : ℕ) (f : Face F) : Face F := ⟨f.normal, f.generators.map (Mat.cut m)⟩

/-- A cone with the surplus entries of its generators removed. -/
def Cone.cut (m : ℕ) (c : Cone F) : Cone F :=
  ⟨c.generators.map (Mat.cut m), c.facets.map (Face.cut m), c.orthCompBasis, c.ambientDim, c.dim⟩

theorem fromRowVectors_cols {vs : List (Mat F)} (h : ∀ g ∈ vs, g.Surplus m) :
    Holds (fun M : Mat F => M.cols = m) (Mat.fromRowVectors vs) := by
  rcases vs with _ | ⟨v, vs⟩
  · exact Holds.panic
  unfold Mat.fromRowVectors
  refine Holds.bind_eq fun v0 hv0 => Holds.bind' fun es => Holds.ok ?_
  cases hv0
  exact (h v (by simp)).1

theorem facetOf_cut (hm : m < 18446744073709551616) {gs : List (Mat F)} (h : ∀ g ∈ gs, g.Surplus m) (k : ℕ)
    {S : List (Mat F)} (hS : ∀ g ∈ S, g.Surplus m) :
    Cone.facetOf (gs.map (Mat.cut m)) k (S.map (Mat.cut m)) =
      Option.map (Face.cut m) <$> Cone.facetOf gs k S := by
  unfold Cone.facetOf
  rw [Mat.fromRowVectors_cut hm hS]
  simp only [map_bind]
  refine (fromRowVectors_cols hS).bind_congr fun M hM => ?_
  refine (size_rowEchelonFor (m := m) (l := M.entries.length) _ _ _ ⟨hM, rfl⟩ :
    Holds _ M.rowEchelon).bind_congr fun f hf => (size_toRref hf).bind_congr fun f hf => ?_
  refine congrArg (_ >>= ·) (funext fun rank => ?_)
  split
  · rfl
  rw [map_bind]
  refine (size_computeKernel hf).bind_congr fun ker hker => ?_
  rcases ker with _ | ⟨v, ker⟩
  · rfl
  have hv := (hker v (by simp)).2
  rcases gs with _ | ⟨g, gs⟩
  · rfl
  have e0 : Mat.nth ((g :: gs).map (Mat.cut m)) 0 = .ok (g.cut m) := rfl
  have e1 : Mat.nth (g :: gs) 0 = .ok g := rfl
  have e2 : Mat.nth (v :: ker) 0 = .ok v := rfl
  rw [e0, e1, e2]
  simp only [bind_ok, map_bind]
  rw [Mat.dot_cut _ hv.le]
  refine congrArg (_ >>= ·) (funext fun d => congrArg (_ >>= ·) (funext fun o => ?_))
  have key : ∀ w : Mat F, w.Size 1 m →
      (Cone.allAbove w ((g :: gs).map (Mat.cut m)) >>= fun b => if b = true then
        (pure (some (⟨w, S.map (Mat.cut m)⟩ : Face F)) : Res (Option (Face F))) else pure none) =
      Option.map (Face.cut m) <$> (Cone.allAbove w (g :: gs) >>= fun b => if b = true then
        (pure (some (⟨w, S⟩ : Face F)) : Res (Option (Face F))) else pure none) := by
    intro w hw
    rw [allAbove_cut hw.2.le, map_bind]
    refine congrArg (_ >>= ·) (funext fun b => ?_)
    cases b <;> rfl
  rcases o with _ | o
  · rfl
  dsimp only
  cases o
  · dsimp only
    simp only [map_bind]
    refine congrArg (_ >>= ·) (funext fun s => ?_)
    refine (Mat.size_scale (m := 1) (l := m) ⟨(hker v (by simp)).1, hv⟩).bind_congr fun w hw => ?_
    rw [key w hw, map_bind]
  · exact key v ⟨(hker v (by simp)).1, hv⟩
  · exact key v ⟨(hker v (by simp)).1, hv⟩

/-- C191. `Cone::new` ignores what the generators contain beyond their `m` rows: without these entries the
outcome is the same, with the generators shortened.  This includes the outcomes without result. -/
theorem C191_surplus (hm : m < 18446744073709551616) (gs : List (Mat F)) (h : ∀ g ∈ gs, g.Surplus m) :
    Cone.new (gs.map (Mat.cut m)) = Cone.cut m <$> Cone.new gs := by
  rcases gs with _ | ⟨g, gs⟩
  · rfl
  unfold Cone.new
  rw [Mat.fromRowVectors_cut hm h]
  have e0 : Mat.nth ((g :: gs).map (Mat.cut m)) 0 = .ok (g.cut m) := rfl
  have e1 : Mat.nth (g :: gs) 0 = .ok g := rfl
  have e2 : (g.cut m).rows = g.rows := (h g (by simp)).1.symm
  rw [e0, e1]
  simp only [bind_ok, map_bind, e2]
  refine congrArg (_ >>= ·) (funext fun M => congrArg (_ >>= ·) (funext fun f => congrArg (_ >>= ·)
    (funext fun f' => congrArg (_ >>= ·) (funext fun d => congrArg (_ >>= ·) (funext fun ker =>
    congrArg (_ >>= ·) (funext fun k => ?_))))))
  unfold combinations
  rw [combinationsList_map]
  split
  · rfl
  simp only [bind_ok]
  have key : ∀ (L : List (List (Mat F))) (acc : List (Face F)), (∀ S ∈ L, ∀ s ∈ S, s ∈ g :: gs) →
      (L.map (List.map (Mat.cut m))).foldlM (fun (facets : List (Face F)) subset => do
        match ← Cone.facetOf ((g :: gs).map (Mat.cut m)) k subset with
        | some f => pure (facets ++ [f])
        | none => pure facets) (acc.map (Face.cut m)) =
      List.map (Face.cut m) <$> L.foldlM (fun (facets : List (Face F)) subset => do
        match ← Cone.facetOf (g :: gs) k subset with
        | some f => pure (facets ++ [f])
        | none => pure facets) acc := by
    intro L
    induction L with
    | nil => intro acc _; rfl
    | cons S L ih =>
      intro acc hL
      rw [List.map_cons (l := L), List.foldlM_cons, List.foldlM_cons,
        facetOf_cut hm h k fun s hs => h s (hL S (by simp) s hs)]
      simp only [map_bind, bind_assoc, bind_map_left]
      refine congrArg (_ >>= ·) (funext fun o => ?_)
      rcases o with _ | f
      · exact ih acc fun S' h' => hL S' (by simp [h'])
      · have := ih (acc ++ [f]) fun S' h' => hL S' (by simp [h'])
        rw [List.map_append] at this
        exact this
  have := key (combinationsList k (g :: gs)) [] fun S hS s hs => (mem_combinationsList.mp hS).1.subset hs
  rw [List.map_nil] at this
  refine (congrArg (· >>= _) this).trans ?_
  simp only [bind_map_left]
  rfl

/-- C191. A generator with fewer entries than the first one has rows: `Cone::new` panics. -/
theorem C191_short (g₀ : Mat F) (gs : List (Mat F)) (hm : g₀.rows < 18446744073709551616)
    (h1 : ∀ g ∈ g₀ :: gs, g.cols = 1) (h : ∃ g ∈ g₀ :: gs, g.entries.length < g₀.rows) :
    Cone.new (g₀ :: gs) = .panic .indexOutOfBounds := by
  have key : Spec (fun p => p = Panic.indexOutOfBounds) (Mat.fromRowVectors (g₀ :: gs)) (fun _ => False) := by
    unfold Mat.fromRowVectors
    have e1 : Mat.nth (g₀ :: gs) 0 = .ok g₀ := rfl
    rw [e1, bind_ok]
    have hget : ∀ g ∈ g₀ :: gs, ∀ c < g₀.rows, g.get c 0 = match g.entries[c]? with
        | some x => pure x
        | none => .panic .indexOutOfBounds := by
      intro g hg c hc
      unfold Mat.get Mat.offset Usize.mul Usize.add
      rw [h1 g hg, Usize.norm_eq (by omega), bind_ok, Usize.norm_eq (by omega), bind_ok, mul_one, add_zero]
      cases g.entries[c]? <;> rfl
    refine (mapM_spec (P := fun x y => ∃ g, (g₀ :: gs)[x.1]? = some g ∧ g.entries[x.2]? = some y)
      fun x hx => ?_).bind fun es hes => ?_
    · obtain ⟨r, c⟩ := x
      obtain ⟨h2, h3⟩ := mem_boxIter.mp hx
      have h2 : r < (g₀ :: gs).length := h2
      dsimp only
      unfold Mat.nth
      rw [List.getElem?_eq_getElem h2]
      dsimp only [bind_ok]
      rw [hget _ (List.getElem_mem _) c h3]
      cases hy : (g₀ :: gs)[r].entries[c]? with
      | none => exact rfl
      | some y => exact ⟨_, rfl, hy⟩
    · obtain ⟨g, hg, hl⟩ := h
      obtain ⟨r, hr, rfl⟩ := List.getElem_of_mem hg
      have hmem : (r, g₀.rows - 1) ∈ boxIter (g₀ :: gs).length g₀.rows := mem_boxIter.mpr ⟨hr, by dsimp only; omega⟩
      obtain ⟨i, hi, he⟩ := List.getElem_of_mem hmem
      rw [List.forall₂_iff_get] at hes
      obtain ⟨g', e1, e2⟩ := hes.2 i hi (by rw [← hes.1]; exact hi)
      rw [List.get_eq_getElem, he] at e1 e2
      dsimp only at e1 e2
      rw [List.getElem?_eq_getElem hr] at e1
      cases e1
      rw [List.getElem?_eq_none (by omega)] at e2
      cases e2
  unfold Cone.new
  have e1 : Mat.nth (g₀ :: gs) 0 = .ok g₀ := rfl
  rw [e1, bind_ok]
  rcases hx : Mat.fromRowVectors (g₀ :: gs) with x | p | _ <;> rw [hx] at key
  · exact key.elim
  · rw [show p = _ from key]; rfl
  · exact key.elim

/-- Two generators in the plane with surplus entries, and the two facets. -/
example : letI := Rational.field .debug
    letI := Rational.stability .debug
    letI := Rational.fieldOrd .debug
    (∀ g ∈ [ratMat 2 1 [1, 0, 5], ratMat 2 1 [1, 1, 7, 7]], g.Surplus 2) ∧
    ∃ c, Cone.new [ratMat 2 1 [1, 0, 5], ratMat 2 1 [1, 1, 7, 7]] = .ok c ∧
      c.facets.map Face.normal = [ratMat 2 1 [0, 1], ratMat 2 1 [1, -1]] := by
  refine ⟨fun g hg => ?_, _, by rfl, by decide +kernel⟩
  simp only [List.mem_cons, List.not_mem_nil, or_false] at hg
  rcases hg with rfl | rfl <;> exact ⟨rfl, rfl, by decide⟩

/-- A generator with more rows than the first is not shortened: here the second normal has three
entries, although the ambient dimension is two. -/
theorem C191_longer (b : Build) : letI := Rational.field b
    letI := Rational.stability b
    letI := Rational.fieldOrd b
    ∃ c, Cone.new [ratMat 2 1 [1, 0], ratMat 3 1 [0, 1, 5]] = .ok c ∧ c.ambientDim = 2 ∧
      c.facets.map Face.normal = [ratMat 2 1 [0, 1], ratMat 3 1 [1, 0, 0]] := by
  cases b <;> exact ⟨_, by rfl, rfl, rfl⟩

end Verif
