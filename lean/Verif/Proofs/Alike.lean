import Verif.Props.Literal
import Verif.Props.TermOrder
import Verif.Props.Unchecked
import Verif.Proofs.Relate

/-!
# Polynomials that differ in the order of their terms

`p.Alike q`: for every multidegree, `p` and `q` have the same terms in the same order.  The routines of the
library do not tell such polynomials apart.  Nothing is assumed of the coefficients.
-/

namespace Verif
open Res Computer

/-- Whenever `x` returns, so does `y`, with a related value. -/
def Ret {α β : Type} (R : α → β → Prop) (x : Res α) (y : Res β) : Prop :=
  ∀ a, x = .ok a → ∃ b, y = .ok b ∧ R a b

namespace Ret
variable {α β γ δ : Type} {R : α → β → Prop} {S : γ → δ → Prop}

theorem pure {a : α} {b : β} (h : R a b) : Ret R (Pure.pure a : Res α) (Pure.pure b : Res β) := by
  intro c hc
  cases hc
  exact ⟨b, rfl, h⟩

theorem panic {p : Panic} {y : Res β} : Ret R (.panic p) y := nofun

theorem bind {x : Res α} {y : Res β} {f : α → Res γ} {g : β → Res δ} (h : Ret R x y)
    (hf : ∀ a b, x = .ok a → y = .ok b → R a b → Ret S (f a) (g b)) : Ret S (x >>= f) (y >>= g) := by
  intro c hc
  obtain ⟨a, ha, hc⟩ := bind_eq_ok.mp hc
  obtain ⟨b, hb, hab⟩ := h a ha
  obtain ⟨d, hd, hcd⟩ := hf a b ha hb hab c hc
  exact ⟨d, bind_eq_ok.mpr ⟨b, hb, hd⟩, hcd⟩

theorem same {x : Res α} {f : α → Res γ} {g : α → Res δ} (hf : ∀ a, x = .ok a → Ret S (f a) (g a)) :
    Ret S (x >>= f) (x >>= g) := by
  intro c hc
  obtain ⟨a, ha, hc⟩ := bind_eq_ok.mp hc
  obtain ⟨d, hd, hcd⟩ := hf a ha c hc
  exact ⟨d, bind_eq_ok.mpr ⟨a, ha, hd⟩, hcd⟩

theorem refl {x : Res γ} {S : γ → γ → Prop} (hS : ∀ a, S a a) : Ret S x x :=
  fun a h => ⟨a, h, hS a⟩

theorem loop {step : α → Res (α ⊕ γ)} {step' : β → Res (β ⊕ δ)}
    (H : ∀ a b, R a b → Ret (SRel R S) (step a) (step' b)) {a : α} {b : β} (h : R a b) :
    Ret S (Res.loop step a) (Res.loop step' b) := by
  intro c hc
  obtain ⟨n, hn⟩ := iter_of_loop_ne_diverge (step := step) (s := a) (by rw [hc]; simp)
  rw [hc] at hn
  clear hc
  have key : ∀ n a b, R a b → Ret S (iter step n a) (iter step' n b) := by
    intro n
    induction n with
    | zero => intro a b _; exact nofun
    | succ n ih =>
      intro a b h
      change Ret S (step a >>= fun x => _) (step' b >>= fun x => _)
      refine (H a b h).bind fun x y _ _ hxy => ?_
      rcases x with x | x <;> rcases y with y | y
      · exact ih _ _ hxy
      · exact hxy.elim
      · exact hxy.elim
      · exact pure hxy
  obtain ⟨d, hd, hcd⟩ := key n a b h c hn
  exact ⟨d, loop_eq_of_iter hd (by simp), hcd⟩

end Ret

section
variable {F : Type}

/-- The terms of `p` with multidegree `m`. -/
def Poly.at (p : Poly F) (m : MDeg) : Poly F := p.filter fun t => decide (t.mdeg = m)

/-- For every multidegree the same terms in the same order. -/
def Poly.Alike (p q : Poly F) : Prop := ∀ m, p.at m = q.at m

namespace Poly

theorem at_cons (t : Term F) (p : Poly F) (m : MDeg) :
    Poly.at (t :: p) m = if t.mdeg = m then t :: p.at m else p.at m := by
  unfold Poly.at
  rw [List.filter_cons]
  by_cases h : t.mdeg = m <;> simp [h]

theorem at_append (p q : Poly F) (m : MDeg) : Poly.at (p ++ q) m = p.at m ++ q.at m := List.filter_append ..

theorem mem_at {p : Poly F} {t : Term F} {m : MDeg} : t ∈ p.at m ↔ t ∈ p ∧ t.mdeg = m := by
  unfold Poly.at; simp

theorem at_at (p : Poly F) (m : MDeg) : (p.at m).at m = p.at m := by
  unfold Poly.at; simp

theorem Alike.refl (p : Poly F) : p.Alike p := fun _ => rfl
theorem Alike.symm {p q : Poly F} (h : p.Alike q) : q.Alike p := fun m => (h m).symm
theorem Alike.trans {p q r : Poly F} (h : p.Alike q) (h' : q.Alike r) : p.Alike r :=
  fun m => (h m).trans (h' m)

theorem Alike.mem {p q : Poly F} (h : p.Alike q) {t : Term F} : t ∈ p ↔ t ∈ q := by
  have h1 : t ∈ p ↔ t ∈ p.at t.mdeg := by rw [mem_at]; simp
  have h2 : t ∈ q ↔ t ∈ q.at t.mdeg := by rw [mem_at]; simp
  rw [h1, h2, h]

theorem Alike.nil_iff {p q : Poly F} (h : p.Alike q) : p = [] ↔ q = [] := by
  simp only [List.eq_nil_iff_forall_not_mem, h.mem]

theorem Alike.isZero {p q : Poly F} (h : p.Alike q) : p.isZero = q.isZero := by
  rw [Bool.eq_iff_iff]
  unfold Poly.isZero
  simpa using h.nil_iff

/-- The first term of `p` is in `q` after terms with other multidegrees. -/
theorem Alike.cons_left {t : Term F} {p q : Poly F} (h : Poly.Alike (t :: p) q) :
    ∃ l₁ l₂, q = l₁ ++ t :: l₂ ∧ (∀ s ∈ l₁, s.mdeg ≠ t.mdeg) ∧ p.Alike (l₁ ++ l₂) := by
  have ht := h t.mdeg
  rw [at_cons, if_pos rfl] at ht
  have key : ∀ q : Poly F, (∃ l, t :: l = q.at t.mdeg) →
      ∃ l₁ l₂, q = l₁ ++ t :: l₂ ∧ ∀ s ∈ l₁, s.mdeg ≠ t.mdeg := by
    intro q
    induction q with
    | nil => rintro ⟨l, hl⟩; exact absurd hl (by simp [Poly.at])
    | cons s q ih =>
      rintro ⟨l, hl⟩
      rw [at_cons] at hl
      split at hl
      · injection hl with h1 h2
        exact ⟨[], q, by simp [h1], by simp⟩
      · rename_i hne
        obtain ⟨l₁, l₂, rfl, h2⟩ := ih ⟨l, hl⟩
        exact ⟨s :: l₁, l₂, rfl, List.forall_mem_cons.mpr ⟨hne, h2⟩⟩
  obtain ⟨l₁, l₂, rfl, h2⟩ := key q ⟨_, ht⟩
  refine ⟨l₁, l₂, rfl, h2, fun m => ?_⟩
  have hm := h m
  rw [at_append, at_cons, at_cons] at hm
  rw [at_append]
  by_cases e : t.mdeg = m
  · have h0 : l₁.at m = [] := List.filter_eq_nil_iff.mpr fun s hs => by
      have := h2 s hs
      rw [e] at this
      simpa using this
    rw [if_pos e, if_pos e, h0] at hm
    rw [h0]
    injection hm
  · rwa [if_neg e, if_neg e] at hm

theorem Alike.cons {t : Term F} {p q : Poly F} (h : p.Alike q) : Poly.Alike (t :: p) (t :: q) := fun m => by
  rw [at_cons, at_cons, h m]

theorem alike_middle {t : Term F} {l₁ l₂ : Poly F} (h : ∀ s ∈ l₁, s.mdeg ≠ t.mdeg) :
    Poly.Alike (t :: (l₁ ++ l₂)) (l₁ ++ t :: l₂) := fun m => by
  rw [at_cons, at_append, at_append, at_cons]
  split
  · rename_i e
    have h0 : l₁.at m = [] := List.filter_eq_nil_iff.mpr fun s hs => by
      have := h s hs
      rw [e] at this
      simpa using this
    rw [h0]
    rfl
  · rfl

theorem Alike.perm {p q : Poly F} (h : p.Alike q) : p.Perm q := by
  induction p generalizing q with
  | nil => rw [h.nil_iff.mp rfl]
  | cons t p ih =>
    obtain ⟨l₁, l₂, rfl, -, h2⟩ := h.cons_left
    exact ((ih h2).cons t).trans List.perm_middle.symm

/-- A rearrangement of terms with different multidegrees. -/
theorem alike_of_perm {p q : Poly F} (h : p.Perm q) (hp : (p.map (·.mdeg)).Nodup) : p.Alike q := fun m => by
  have h1 : ∀ r : Poly F, (r.map (·.mdeg)).Nodup → (r.at m).length ≤ 1 := by
    intro r
    induction r with
    | nil => intro _; simp [Poly.at]
    | cons t r ih =>
      intro hr
      rw [List.map_cons, List.nodup_cons] at hr
      rw [at_cons]
      split
      · rename_i e
        have : Poly.at r m = [] := List.filter_eq_nil_iff.mpr fun s hs => by
          simp only [decide_eq_true_eq]
          intro hs'
          exact hr.1 (List.mem_map.mpr ⟨s, hs, hs'.trans e.symm⟩)
        rw [this]
        simp
      · exact ih hr.2
  have hpq : (p.at m).Perm (q.at m) := h.filter _
  have hl := h1 p hp
  match hc : p.at m, hl with
  | [], _ => rw [hc] at hpq; exact (List.nil_perm.mp hpq).symm
  | [x], _ => rw [hc] at hpq; exact List.singleton_perm.mp hpq

theorem Alike.ne {p q : Poly F} [RField F] (h : p.Alike q) (hp : ∀ t ∈ p, t.isZero = false) :
    ∀ t ∈ q, t.isZero = false := fun t ht => hp t (h.mem.mpr ht)

/-- Applying a function to all terms. -/
theorem mapM_alike {f : Term F → Res (Term F)} {p q : Poly F} (h : p.Alike q)
    (hf : ∀ s ∈ p, ∀ t ∈ p, ∀ u v, f s = .ok u → f t = .ok v → s.mdeg ≠ t.mdeg → u.mdeg ≠ v.mdeg) :
    Ret Poly.Alike (p.mapM f) (q.mapM f) := by
  induction p generalizing q with
  | nil => rw [h.nil_iff.mp rfl]; exact fun a h => ⟨a, h, Alike.refl _⟩
  | cons t p ih =>
    obtain ⟨l₁, l₂, rfl, h1, h2⟩ := h.cons_left
    intro r hr
    rw [List.mapM_cons] at hr
    obtain ⟨u, hu, hr⟩ := bind_eq_ok.mp hr
    obtain ⟨rs, hrs, hr⟩ := bind_eq_ok.mp hr
    cases hr
    obtain ⟨x, hx, hxr⟩ := ih h2 (fun s hs t ht => hf s (.tail _ hs) t (.tail _ ht)) rs hrs
    rw [List.mapM_append] at hx ⊢
    obtain ⟨x₁, hx₁, hx⟩ := bind_eq_ok.mp hx
    obtain ⟨x₂, hx₂, hx⟩ := bind_eq_ok.mp hx
    cases hx
    refine ⟨x₁ ++ u :: x₂, ?_, hxr.cons.trans (alike_middle fun s hs => ?_)⟩
    · refine bind_eq_ok.mpr ⟨x₁, hx₁, ?_⟩
      rw [List.mapM_cons]
      refine bind_eq_ok.mpr ⟨u :: x₂, bind_eq_ok.mpr ⟨u, hu, bind_eq_ok.mpr ⟨x₂, hx₂, rfl⟩⟩, rfl⟩
    · obtain ⟨s', hs', hs''⟩ := forall₂_mem_right (mapM_ok_iff.mp hx₁) hs
      refine hf s' ?_ t (.head _) s u hs'' hu (h1 s' hs')
      exact .tail _ (h2.mem.mpr (List.mem_append_left _ hs'))

variable [RField F]

theorem addNonzeroTerm_at {p : Poly F} {u : Term F} {r : Poly F} (h : addNonzeroTerm p u = .ok r) :
    addNonzeroTerm (p.at u.mdeg) u = .ok (r.at u.mdeg) ∧ ∀ m, m ≠ u.mdeg → r.at m = p.at m := by
  induction p generalizing r with
  | nil =>
    cases h
    refine ⟨?_, fun m hm => ?_⟩
    · rw [at_cons, if_pos rfl]; rfl
    · rw [at_cons, if_neg hm.symm]
  | cons t p ih =>
    rw [addNonzeroTerm] at h
    split at h
    · rename_i e
      obtain ⟨c, hc, h⟩ := bind_eq_ok.mp h
      have ht : ∀ m, m ≠ u.mdeg → ¬ t.mdeg = m := fun m hm h' => hm (h'.symm.trans e)
      dsimp only at h
      split at h
      · rename_i hz
        cases h
        refine ⟨?_, fun m hm => by rw [at_cons, if_neg (ht m hm)]⟩
        rw [at_cons, if_pos e, addNonzeroTerm, if_pos e, hc, bind_ok]
        dsimp only
        rw [if_pos hz]
        rfl
      · rename_i hz
        cases h
        refine ⟨?_, fun m hm => by rw [at_cons, at_cons, if_neg (ht m hm), if_neg (ht m hm)]⟩
        rw [at_cons, at_cons, if_pos e, if_pos e, addNonzeroTerm, if_pos e, hc, bind_ok]
        dsimp only
        rw [if_neg hz]
        rfl
    · rename_i e
      obtain ⟨ts, hts, h⟩ := bind_eq_ok.mp h
      cases h
      obtain ⟨h1, h2⟩ := ih hts
      refine ⟨?_, fun m hm => by rw [at_cons, at_cons, h2 m hm]⟩
      rw [at_cons, at_cons, if_neg e, if_neg e, h1]

theorem addNonzeroTerm_of_at {p : Poly F} {u : Term F} {l : Poly F}
    (h : addNonzeroTerm (p.at u.mdeg) u = .ok l) : ∃ r, addNonzeroTerm p u = .ok r := by
  induction p generalizing l with
  | nil => exact ⟨_, rfl⟩
  | cons t p ih =>
    rw [at_cons] at h
    rw [addNonzeroTerm]
    split at h
    · rename_i e
      rw [addNonzeroTerm, if_pos e] at h
      obtain ⟨c, hc, h⟩ := bind_eq_ok.mp h
      rw [if_pos e, hc, bind_ok]
      dsimp only
      split
      · exact ⟨_, rfl⟩
      · exact ⟨_, rfl⟩
    · rename_i e
      obtain ⟨r, hr⟩ := ih h
      rw [if_neg e, hr]
      exact ⟨_, rfl⟩

theorem addTerm_eq (p : Poly F) (u : Term F) :
    addTerm p u = if u.isZero then .ok p else addNonzeroTerm p u := by
  unfold addTerm ofTerm
  cases p with
  | nil =>
    rw [if_pos (show isZero ([] : Poly F) = true from rfl)]
    split <;> rfl
  | cons t p => rfl

theorem addTerm_at {p : Poly F} {u : Term F} {r : Poly F} (h : addTerm p u = .ok r) :
    addTerm (p.at u.mdeg) u = .ok (r.at u.mdeg) ∧ ∀ m, m ≠ u.mdeg → r.at m = p.at m := by
  rw [addTerm_eq] at h ⊢
  split
  · rename_i hz
    rw [if_pos hz] at h
    cases h
    exact ⟨rfl, fun _ _ => rfl⟩
  · rename_i hz
    rw [if_neg hz] at h
    exact addNonzeroTerm_at h

theorem addTerm_of_at {p : Poly F} {u : Term F} {l : Poly F}
    (h : addTerm (p.at u.mdeg) u = .ok l) : ∃ r, addTerm p u = .ok r := by
  rw [addTerm_eq] at h ⊢
  split
  · exact ⟨_, rfl⟩
  · rename_i hz
    rw [if_neg hz] at h
    exact addNonzeroTerm_of_at h

/-- A sum is computed for each multidegree separately. -/
theorem add_at {p q r : Poly F} (h : add p q = .ok r) (m : MDeg) :
    add (p.at m) (q.at m) = .ok (r.at m) := by
  unfold add at h ⊢
  induction q generalizing p with
  | nil => cases h; rfl
  | cons u q ih =>
    rw [List.foldlM_cons] at h
    obtain ⟨p₁, hp₁, h⟩ := bind_eq_ok.mp h
    obtain ⟨h1, h2⟩ := addTerm_at hp₁
    have := ih h
    rw [at_cons]
    by_cases e : u.mdeg = m
    · rw [if_pos e, List.foldlM_cons]
      subst e
      exact bind_eq_ok.mpr ⟨_, h1, this⟩
    · rw [if_neg e, ← h2 m (Ne.symm e)]
      exact this

theorem add_of_at {p q : Poly F} (h : ∀ m, ∃ l, add (p.at m) (q.at m) = .ok l) :
    ∃ r, add p q = .ok r := by
  unfold add at h ⊢
  induction q generalizing p with
  | nil => exact ⟨_, rfl⟩
  | cons u q ih =>
    obtain ⟨l, hl⟩ := h u.mdeg
    rw [at_cons, if_pos rfl, List.foldlM_cons] at hl
    obtain ⟨l₁, hl₁, hl⟩ := bind_eq_ok.mp hl
    obtain ⟨p₁, hp₁⟩ := addTerm_of_at hl₁
    obtain ⟨h1, h2⟩ := addTerm_at hp₁
    rw [List.foldlM_cons]
    obtain ⟨r, hr⟩ := ih (p := p₁) fun m => by
      by_cases e : m = u.mdeg
      · subst e
        rw [h1] at hl₁
        injection hl₁ with e'
        rw [e']
        exact ⟨l, hl⟩
      · rw [h2 m e]
        obtain ⟨l', hl'⟩ := h m
        rw [at_cons, if_neg (Ne.symm e)] at hl'
        exact ⟨l', hl'⟩
    exact ⟨r, bind_eq_ok.mpr ⟨p₁, hp₁, hr⟩⟩

theorem add_alike {p q p' q' : Poly F} (hp : p.Alike p') (hq : q.Alike q') :
    Ret Poly.Alike (add p q) (add p' q') := by
  intro r hr
  have h := add_at hr
  obtain ⟨r', hr'⟩ := add_of_at (p := p') (q := q') fun m => ⟨r.at m, by rw [← hp m, ← hq m]; exact h m⟩
  refine ⟨r', hr', fun m => ?_⟩
  have h1 := h m
  rw [hp m, hq m, add_at hr' m] at h1
  injection h1 with h1
  exact h1.symm

theorem neg_alike {p p' : Poly F} (hp : p.Alike p') : Ret Poly.Alike (neg p) (neg p') := by
  refine mapM_alike hp fun s _ t _ u v hu hv hne => ?_
  obtain ⟨c, -, hu⟩ := bind_eq_ok.mp hu
  obtain ⟨d, -, hv⟩ := bind_eq_ok.mp hv
  cases hu
  cases hv
  exact hne

theorem sub_alike {p q p' q' : Poly F} (hp : p.Alike p') (hq : q.Alike q') :
    Ret Poly.Alike (sub p q) (sub p' q') :=
  (neg_alike hq).bind fun _ _ _ _ h => add_alike hp h

end Poly
end

/-! ### Products by a term -/

namespace MDeg

theorem addLoop_ok (items : List (EitherOrBoth Nat)) (z : Nat) (degs c : List Nat)
    (h : addLoop .debug items z degs = .ok c) :
    c = degs ++ fromVec (List.replicate z 0 ++ items.map itemSum) := by
  induction items generalizing z degs with
  | nil =>
    simp only [addLoop] at h
    cases h
    simp [fromVec_replicate]
  | cons x items ih =>
    have zero_case : itemSum x = 0 → addLoop .debug items (z + 1) degs = .ok c →
        c = degs ++ fromVec (List.replicate z 0 ++ (x :: items).map itemSum) := by
      intro h0 h
      rw [ih _ _ h]
      have : List.replicate (z + 1) 0 ++ items.map itemSum =
          List.replicate z 0 ++ (x :: items).map itemSum := by
        rw [List.replicate_succ', List.map_cons, h0]; simp
      rw [this]
    have pos_case : itemSum x ≠ 0 →
        addLoop .debug items 0 (degs ++ List.replicate z 0 ++ [itemSum x]) = .ok c →
        c = degs ++ fromVec (List.replicate z 0 ++ (x :: items).map itemSum) := by
      intro h0 h
      rw [ih _ _ h, List.map_cons, fromVec_zeros_cons z _ h0]
      simp
    have both_case : ∀ a b, a + b ≠ 0 → x = .both a b →
        (U8.norm .debug (a + b) >>= fun c =>
          addLoop .debug items 0 (degs ++ List.replicate z 0 ++ [c])) = .ok c →
        c = degs ++ fromVec (List.replicate z 0 ++ (x :: items).map itemSum) := by
      rintro a b h0 rfl h
      obtain ⟨d, hd, h⟩ := bind_eq_ok.mp h
      unfold U8.norm at hd
      split at hd
      · cases hd; exact pos_case h0 h
      · cases hd
    match x with
    | .both 0 0 => exact zero_case rfl h
    | .left 0 => exact zero_case rfl h
    | .right 0 => exact zero_case rfl h
    | .left (a + 1) => exact pos_case (by simp [itemSum]) h
    | .right (a + 1) => exact pos_case (by simp [itemSum]) h
    | .both (a + 1) b =>
      rw [addLoop] at h
      · exact both_case _ _ (by omega) rfl h
      · rintro h; cases h
    | .both 0 (b + 1) =>
      rw [addLoop] at h
      · exact both_case _ _ (by omega) rfl h
      · rintro _ h; cases h

theorem deg_add {a b c : MDeg} (h : add .debug a b = .ok c) (i : ℕ) : deg c i = deg a i + deg b i := by
  have := addLoop_ok _ _ _ _ h
  rw [this, List.replicate_zero, List.nil_append, List.nil_append, ← zipWithLongest_add, deg_fromVec,
    deg_zipWithLongest (by rfl)]

theorem add_left_inj {a a' b c : MDeg} (ha : a.getLast? ≠ some 0) (ha' : a'.getLast? ≠ some 0)
    (h : add .debug a b = .ok c) (h' : add .debug a' b = .ok c) : a = a' :=
  ext_deg ha ha' fun i => by
    have h1 := deg_add h i
    have h2 := deg_add h' i
    omega

end MDeg

section
variable {F : Type}

/-! ### Leading terms and sorting -/

/-- No total degree overflows where the order `k` computes them in the build `b`. -/
def OrdKind.Fits (k : OrdKind) (b : Build) (f : Poly F) : Prop :=
  b = .release ∨ k.graded = false ∨ ∀ t ∈ f, t.mdeg.sum < 256

theorem OrdKind.cmp_fits {k : OrdKind} {b : Build} {x y : MDeg} {o : Ordering}
    (h : (k.order b).cmp x y = .ok o) : b = .release ∨ k.graded = false ∨ x.sum < 256 ∧ y.sum < 256 := by
  cases b with
  | release => exact .inl rfl
  | debug =>
    have key : ∀ {f : Ordering → Res Ordering}, (MOrder.grad .debug x y >>= f) = .ok o →
        x.sum < 256 ∧ y.sum < 256 := by
      intro f h
      obtain ⟨c, hc, -⟩ := bind_eq_ok.mp h
      unfold MOrder.grad at hc
      rw [MDeg.totalDeg_eq, MDeg.totalDeg_eq] at hc
      split at hc
      · split at hc
        · exact ⟨‹_›, ‹_›⟩
        · cases hc
      · cases hc
    cases k with
    | lex => exact .inr (.inl rfl)
    | revLex => exact .inr (.inl rfl)
    | grLex => exact .inr (.inr (key h))
    | gRevLex => exact .inr (.inr (key h))

theorem maxBy_fits {k : OrdKind} {b : Build} {f : Poly F} {x : Option (Term F)}
    (h : leadingTerm (k.order b) f = .ok x) : f.length ≤ 1 ∨ k.Fits b f := by
  match f, h with
  | [], _ => exact .inl (by simp)
  | [_], _ => exact .inl (by simp)
  | s :: t :: f, h =>
    right
    have key : ∀ (f : Poly F) (s : Term F) (y : Term F), f.foldlM (fun best y => do
        match ← (k.order b).cmp best.mdeg y.mdeg with
        | .gt => pure best
        | _ => pure y) s = .ok y → f ≠ [] → k.Fits b (s :: f) := by
      intro f
      induction f with
      | nil => intro s y _ h; exact absurd rfl h
      | cons t f ih =>
        intro s y h _
        rw [List.foldlM_cons] at h
        obtain ⟨u, hu, h⟩ := bind_eq_ok.mp h
        obtain ⟨o, ho, hu⟩ := bind_eq_ok.mp hu
        rcases OrdKind.cmp_fits ho with h1 | h1 | h1
        · exact .inl h1
        · exact .inr (.inl h1)
        · by_cases hf : f = []
          · subst hf
            exact .inr (.inr (by simpa using h1))
          · rcases ih u y h hf with h2 | h2 | h2
            · exact .inl h2
            · exact .inr (.inl h2)
            · refine .inr (.inr fun v hv => ?_)
              rcases List.mem_cons.mp hv with rfl | hv
              · exact h1.1
              · rcases List.mem_cons.mp hv with rfl | hv
                · exact h1.2
                · exact h2 v (.tail _ hv)
    obtain ⟨y, hy, -⟩ := bind_eq_ok.mp ((map_eq_pure_bind _ _).symm.trans h)
    exact key _ _ _ hy (by simp)

theorem insertBy_fits {k : OrdKind} {b : Build} {u : Term F} {f r : Poly F} (hf : f.length ≤ 1 ∨ k.Fits b f)
    (h : insertBy (fun s t : Term F => (k.order b).cmp s.mdeg t.mdeg) u f = .ok r) :
    r.length ≤ 1 ∨ k.Fits b r := by
  cases f with
  | nil => cases h; exact .inl (by simp)
  | cons t f =>
    right
    have hmem := fun v => (insertBy_perm h).mem_iff (a := v)
    rw [insertBy] at h
    obtain ⟨o, ho, -⟩ := bind_eq_ok.mp h
    rcases OrdKind.cmp_fits ho with h1 | h1 | h1
    · exact .inl h1
    · exact .inr (.inl h1)
    · have : k.Fits b (t :: f) := by
        rcases hf with hf | hf
        · have : f = [] := by simpa using hf
          subst this
          exact .inr (.inr (by simpa using h1.2))
        · exact hf
      rcases this with h2 | h2 | h2
      · exact .inl h2
      · exact .inr (.inl h2)
      · refine .inr (.inr fun v hv => ?_)
        rcases List.mem_cons.mp ((hmem v).mp hv) with rfl | hv
        · exact h1.1
        · exact h2 v hv

theorem sortTerms_fits {k : OrdKind} {b : Build} {f r : Poly F} (h : sortTerms (k.order b) f = .ok r) :
    f.length ≤ 1 ∨ k.Fits b f := by
  have key : ∀ (f acc r : Poly F), acc.length ≤ 1 ∨ k.Fits b acc →
      f.foldlM (fun acc x => insertBy (fun s t : Term F => (k.order b).cmp s.mdeg t.mdeg) x acc) acc = .ok r →
      r.length ≤ 1 ∨ k.Fits b r := by
    intro f
    induction f with
    | nil => intro acc r ha h; cases h; exact ha
    | cons t f ih =>
      intro acc r ha h
      rw [List.foldlM_cons] at h
      obtain ⟨acc', h1, h⟩ := bind_eq_ok.mp h
      exact ih acc' r (insertBy_fits ha h1) h
  have hp : r.Perm f := sortBy_perm h
  rcases key f [] r (.inl (by simp)) h with h1 | h1 | h1 | h1
  · exact .inl (hp.length_eq ▸ h1)
  · exact .inr (.inl h1)
  · exact .inr (.inr (.inl h1))
  · exact .inr (.inr (.inr fun t ht => h1 t (hp.mem_iff.mpr ht)))

theorem Poly.Alike.eq_of_length {p q : Poly F} (h : p.Alike q) (hp : p.length ≤ 1) : p = q := by
  have := h.perm
  match p, hp with
  | [], _ => exact (List.nil_perm.mp this).symm
  | [x], _ => exact List.singleton_perm.mp this

theorem OrdKind.Fits.alike {k : OrdKind} {b : Build} {p q : Poly F} (h : p.Alike q) (hp : k.Fits b p) :
    k.Fits b q := by
  rcases hp with h1 | h1 | h1
  · exact .inl h1
  · exact .inr (.inl h1)
  · exact .inr (.inr fun t ht => h1 t (h.mem.mpr ht))

/-- The last of the greatest terms. -/
theorem leadingTerm_eq {S : Type} [LinearOrder S] {O : MOrder} (key : MDeg → S) {f : Poly F}
    (hk : ∀ s ∈ f, ∀ t ∈ f, O.cmp s.mdeg t.mdeg = .ok (ordOf (key s.mdeg) (key t.mdeg))) (hf : f ≠ []) :
    ∃ t ∈ f, leadingTerm O f = .ok (some t) ∧ (∀ s ∈ f, key s.mdeg ≤ key t.mdeg) ∧
      (f.at t.mdeg).getLast? = some t := by
  have aux : ∀ (f : Poly F) (x : Term F),
      (∀ s ∈ x :: f, ∀ t ∈ x :: f, O.cmp s.mdeg t.mdeg = .ok (ordOf (key s.mdeg) (key t.mdeg))) →
      ∃ t ∈ x :: f, f.foldlM (fun best y => do
        match ← O.cmp best.mdeg y.mdeg with
        | .gt => pure best
        | _ => pure y) x = .ok t ∧ (∀ s ∈ x :: f, key s.mdeg ≤ key t.mdeg) ∧
        (Poly.at (x :: f) t.mdeg).getLast? = some t := by
    intro f
    induction f with
    | nil =>
      intro x _
      exact ⟨x, .head _, rfl, by simp, by rw [Poly.at_cons, if_pos rfl]; rfl⟩
    | cons y f ih =>
      intro x hk
      rw [List.foldlM_cons, hk x (.head _) y (.tail _ (.head _)), bind_ok]
      rcases lt_or_ge (key y.mdeg) (key x.mdeg) with h | h
      · obtain ⟨t, ht, h1, h2, h3⟩ := ih x fun s hs t ht => hk s (by
          rcases List.mem_cons.mp hs with rfl | hs
          · exact .head _
          · exact .tail _ (.tail _ hs)) t (by
          rcases List.mem_cons.mp ht with rfl | ht
          · exact .head _
          · exact .tail _ (.tail _ ht))
        refine ⟨t, ?_, ?_, ?_, ?_⟩
        · rcases List.mem_cons.mp ht with rfl | ht
          · exact .head _
          · exact .tail _ (.tail _ ht)
        · rw [ordOf_gt h]
          exact h1
        · intro s hs
          rcases List.mem_cons.mp hs with rfl | hs
          · exact h2 _ (.head _)
          · rcases List.mem_cons.mp hs with rfl | hs
            · exact h.le.trans (h2 x (.head _))
            · exact h2 s (.tail _ hs)
        · have hne : ¬ y.mdeg = t.mdeg := fun e => absurd (h2 x (.head _)) (by rw [← e]; exact not_le.mpr h)
          rw [Poly.at_cons] at h3 ⊢
          rw [Poly.at_cons, if_neg hne]
          exact h3
      · obtain ⟨t, ht, h1, h2, h3⟩ := ih y fun s hs t ht => hk s (.tail _ hs) t (.tail _ ht)
        refine ⟨t, .tail _ ht, ?_, ?_, ?_⟩
        · rcases h.lt_or_eq with h | h
          · rw [ordOf_lt h]
            exact h1
          · rw [h, ordOf_self]
            exact h1
        · intro s hs
          rcases List.mem_cons.mp hs with rfl | hs
          · exact h.trans (h2 y (.head _))
          · exact h2 s hs
        · rw [Poly.at_cons]
          split
          · rw [List.getLast?_cons, h3]
            rfl
          · exact h3
  cases f with
  | nil => exact absurd rfl hf
  | cons x f =>
    obtain ⟨t, ht, h1, h2⟩ := aux f x hk
    refine ⟨t, ht, ?_, h2⟩
    change (some <$> _) = _
    rw [map_eq_pure_bind]
    exact bind_eq_ok.mpr ⟨t, h1, rfl⟩

theorem leadingTerm_alike {k : OrdKind} {b : Build} {f f' : Poly F} (h : f.Alike f') :
    Ret (· = ·) (leadingTerm (k.order b) f) (leadingTerm (k.order b) f') := by
  intro x hx
  refine ⟨x, ?_, rfl⟩
  rcases maxBy_fits hx with hl | hfit
  · rw [← h.eq_of_length hl]; exact hx
  obtain ⟨S, _, key, hinj, hkey⟩ := k.exists_key b
  have hk : ∀ {g : Poly F}, k.Fits b g → ∀ s ∈ g, ∀ t ∈ g, (k.order b).cmp s.mdeg t.mdeg =
      .ok (ordOf (key s.mdeg) (key t.mdeg)) := fun hg s hs t ht => hkey _ _ (by
    rcases hg with h | h | h
    · exact .inl h
    · exact .inr (.inl h)
    · exact .inr (.inr ⟨h s hs, h t ht⟩))
  by_cases hf : f = []
  · rw [h.nil_iff.mp hf, ← hf]; exact hx
  · obtain ⟨t, ht, h1, h2, h3⟩ := leadingTerm_eq key (hk hfit) hf
    obtain ⟨t', ht', h1', h2', h3'⟩ := leadingTerm_eq key (hk (hfit.alike h)) (fun e => hf (h.nil_iff.mpr e))
    have e : t.mdeg = t'.mdeg := hinj (le_antisymm (h2' t (h.mem.mp ht)) (h2 t' (h.mem.mpr ht')))
    rw [e, h, h3'] at h3
    rw [h1', h3, ← h1]
    exact hx

theorem sortTerms_alike {k : OrdKind} {b : Build} {f f' : Poly F} (h : f.Alike f') :
    Ret (· = ·) (sortTerms (k.order b) f) (sortTerms (k.order b) f') := by
  intro x hx
  refine ⟨x, ?_, rfl⟩
  rcases sortTerms_fits hx with hl | hfit
  · rw [← h.eq_of_length hl]; exact hx
  obtain ⟨r, h1, h2⟩ := C193_sort_terms k b f hfit
  obtain ⟨r', h1', h2'⟩ := C193_sort_terms k b f' (hfit.alike h)
  have e : r = r' := (h2' r).mpr ⟨((h2 r).mp rfl).1, fun m => (((h2 r).mp rfl).2 m).trans (h m)⟩
  rw [h1', ← e, ← h1]
  exact hx

variable [RField F]

omit [RField F] in
theorem leadingCoef_alike {k : OrdKind} {b : Build} {f f' : Poly F} (h : f.Alike f') :
    Ret (· = ·) (leadingCoef (k.order b) f) (leadingCoef (k.order b) f') :=
  (leadingTerm_alike h).bind fun _ _ _ _ e => by subst e; exact Ret.pure rfl

omit [RField F] in
theorem unwrapLeadingTerm_alike {k : OrdKind} {b : Build} {f f' : Poly F} (h : f.Alike f') :
    Ret (· = ·) (unwrapLeadingTerm (k.order b) f) (unwrapLeadingTerm (k.order b) f') :=
  (leadingTerm_alike h).bind fun a _ _ _ e => by
    subst e
    cases a with
    | none => exact Ret.panic
    | some t => exact Ret.pure rfl

/-- What is asked of polynomials that are multiplied. -/
def Poly.Proper (p : Poly F) : Prop := ∀ t ∈ p, t.isZero = false ∧ t.mdeg.getLast? ≠ some 0

/-- The same polynomial, or one with its terms in another order. -/
def Poly.Like (p q : Poly F) : Prop := p = q ∨ p.Alike q ∧ p.Proper

theorem Poly.Like.alike {p q : Poly F} (h : p.Like q) : p.Alike q := by
  rcases h with rfl | h
  · exact .refl _
  · exact h.1

theorem Poly.Like.symm {p q : Poly F} (h : p.Like q) : q.Like p := by
  rcases h with rfl | h
  · exact .inl rfl
  · exact .inr ⟨h.1.symm, fun t ht => h.2 t (h.1.mem.mpr ht)⟩

theorem Poly.Like.refl (p : Poly F) : p.Like p := .inl rfl

variable (hb : RField.build F = .debug)
include hb

theorem Poly.mulTerm_alike {p q : Poly F} (h : p.Like q) (u : Term F) :
    Ret Poly.Alike (mulTerm p u) (mulTerm q u) := by
  rcases h with rfl | ⟨h, hp⟩
  · exact Ret.refl Poly.Alike.refl
  unfold mulTerm
  rw [h.isZero]
  split
  · exact Ret.refl Poly.Alike.refl
  rename_i hz
  rw [Bool.or_eq_true, not_or] at hz
  refine mapM_alike h fun s hs t ht v w hv hw hne e => hne ?_
  unfold Term.mul at hv hw
  have hu : u.isZero = false := by simpa using hz.1
  rw [(hp s hs).1, hu] at hv
  rw [(hp t ht).1, hu] at hw
  obtain ⟨c, -, hv⟩ := bind_eq_ok.mp hv
  obtain ⟨m, hm, hv⟩ := bind_eq_ok.mp hv
  cases hv
  obtain ⟨c', -, hw⟩ := bind_eq_ok.mp hw
  obtain ⟨m', hm', hw⟩ := bind_eq_ok.mp hw
  cases hw
  change m = m' at e
  subst e
  rw [hb] at hm hm'
  exact MDeg.add_left_inj (hp s hs).2 (hp t ht).2 hm hm'

variable {k : OrdKind} {b : Build}

/-- The second factor of a product. -/
theorem Poly.mul_alike (p : Poly F) {q q' : Poly F} (h : q.Like q') :
    Ret Poly.Alike (mul p q) (mul p q') := by
  unfold mul
  have key : ∀ (p a a' : Poly F), a.Alike a' → Ret Poly.Alike
      ((p.map fun t => mulTerm q t).foldlM (fun acc x => do add acc (← x)) a)
      ((p.map fun t => mulTerm q' t).foldlM (fun acc x => do add acc (← x)) a') := by
    intro p
    induction p with
    | nil => exact fun a a' ha => Ret.pure ha
    | cons t p ih =>
      intro a a' ha
      rw [List.map_cons, List.map_cons, List.foldlM_cons, List.foldlM_cons]
      exact ((mulTerm_alike hb h t).bind fun _ _ _ _ hx => add_alike ha hx).bind fun _ _ _ _ => ih _ _
  cases p with
  | nil => exact Ret.refl Poly.Alike.refl
  | cons t p =>
    rw [List.map_cons, List.map_cons]
    exact (mulTerm_alike hb h t).bind fun _ _ _ _ hx => key p _ _ hx

theorem divideFor_alike (lt : Term F) {f f' : Poly F} (hf : f.Alike f')
    {l l' : List (Poly F × Poly F)} (hl : List.Forall₂ (fun x y => x.1.Like y.1 ∧ x.2 = y.2) l l') :
    Ret (ORel fun x y => x.1 = y.1 ∧ Poly.Alike x.2 y.2) (divideFor (k.order b) lt f l)
      (divideFor (k.order b) lt f' l') := by
  induction hl with
  | nil => exact Ret.pure (R := ORel _) (a := none) (b := none) trivial
  | @cons x y rest rest' h hl ih =>
    obtain ⟨g₁, q₁⟩ := x
    obtain ⟨g₂, q₂⟩ := y
    obtain ⟨hg, hq⟩ := h
    dsimp only at hg hq
    subst hq
    unfold divideFor
    dsimp only
    have next : Ret (ORel fun x y => x.1 = y.1 ∧ Poly.Alike x.2 y.2)
        (divideFor (k.order b) lt f rest >>= fun o => match o with
          | none => pure none
          | some (qs, f') => pure (some (q₁ :: qs, f')))
        (divideFor (k.order b) lt f' rest' >>= fun o => match o with
          | none => pure none
          | some (qs, f') => pure (some (q₁ :: qs, f'))) := by
      refine ih.bind fun a c _ _ hac => ?_
      rcases a with _ | ⟨qs, f'⟩ <;> rcases c with _ | ⟨qs', g'⟩
      · exact Ret.pure (R := ORel _) (a := none) (b := none) trivial
      · exact hac.elim
      · exact hac.elim
      · exact Ret.pure (R := ORel _) (a := some _) (b := some _) ⟨congrArg (q₁ :: ·) hac.1, hac.2⟩
    refine (leadingTerm_alike hg.alike).bind fun a c _ _ e => ?_
    subst e
    rcases a with _ | a
    · exact next
    · refine Ret.same fun a _ => ?_
      rcases a with _ | a
      · exact next
      · refine Ret.same fun q' _ => ?_
        refine (Poly.mulTerm_alike hb hg a).bind fun u v _ _ huv => ?_
        refine (Poly.sub_alike hf huv).bind fun x y _ _ hxy => ?_
        refine Ret.pure (R := ORel _) (a := some _) (b := some _) ⟨?_, hxy⟩
        dsimp only
        have : rest.map (·.2) = rest'.map (·.2) := by
          clear next ih
          induction hl with
          | nil => rfl
          | cons h _ ih => rw [List.map_cons, List.map_cons, ih, h.2]
        rw [this]

omit [RField F] hb in
/-- Related states of `divide`. -/
def DAlike (s t : DivState F) : Prop :=
  s.f.Alike t.f ∧ s.quotients = t.quotients ∧ s.remainder = t.remainder

theorem divideStep_alike {divs divs' : List (Poly F)} (hd : List.Forall₂ Poly.Like divs divs')
    {s t : DivState F} (hs : DAlike s t) :
    Ret (SRel DAlike (· = ·)) (divideStep (k.order b) divs s) (divideStep (k.order b) divs' t) := by
  obtain ⟨f, qs, r⟩ := s
  obtain ⟨f', qs', r'⟩ := t
  obtain ⟨hf, hq, hr⟩ := hs
  dsimp only at hf hq hr
  subst hq hr
  unfold divideStep
  refine (leadingTerm_alike hf).bind fun a c _ _ e => ?_
  subst e
  rcases a with _ | a
  · exact Ret.pure (R := SRel _ _) (a := .inr _) (b := .inr _) rfl
  · have hz : List.Forall₂ (fun x y : Poly F × Poly F => x.1.Like y.1 ∧ x.2 = y.2) (divs.zip qs)
        (divs'.zip qs) := forall₂_zip hd (List.forall₂_same.mpr fun _ _ => rfl)
    refine (divideFor_alike hb a hf hz).bind fun x y _ _ hxy => ?_
    rcases x with _ | ⟨qs₁, f₁⟩ <;> rcases y with _ | ⟨qs₂, f₂⟩
    · refine (sortTerms_alike hf).bind fun u v _ _ e => ?_
      subst e
      cases u.getLast? with
      | none => exact Ret.pure (R := SRel _ _) (a := .inl _) (b := .inl _) ⟨.refl _, rfl, rfl⟩
      | some lt =>
        refine Ret.same fun r' _ => ?_
        exact Ret.pure (R := SRel _ _) (a := .inl _) (b := .inl _) ⟨.refl _, rfl, rfl⟩
    · exact hxy.elim
    · exact hxy.elim
    · exact Ret.pure (R := SRel _ _) (a := .inl _) (b := .inl _) ⟨hxy.2, hxy.1, rfl⟩

theorem divide_alike {f f' : Poly F} (hf : f.Alike f') {divs divs' : List (Poly F)}
    (hd : List.Forall₂ Poly.Like divs divs') :
    Ret (· = ·) (divide (k.order b) f divs) (divide (k.order b) f' divs') := by
  refine Ret.loop (R := DAlike) (fun x y hxy => divideStep_alike hb hd hxy) ⟨hf, ?_, rfl⟩
  dsimp only
  rw [hd.length_eq]

theorem tryReduce_alike {f g f' g' : Poly F} (hf : f.Like f') (hg : g.Like g') :
    Ret (ORel Poly.Alike) (tryReduce (k.order b) f g) (tryReduce (k.order b) f' g') := by
  have hnone : Ret (ORel Poly.Alike) (pure none : Res (Option (Poly F))) (pure none) :=
    Ret.pure (R := ORel _) (a := none) (b := none) trivial
  unfold tryReduce
  refine (leadingTerm_alike hf.alike).bind fun a c _ _ e => ?_
  subst e
  rcases a with _ | a
  · exact hnone
  refine (leadingTerm_alike hg.alike).bind fun c d _ _ e => ?_
  subst e
  rcases c with _ | c
  · exact hnone
  dsimp only
  refine Ret.same fun u _ => ?_
  rcases u with _ | u
  · exact hnone
  refine (Poly.mulTerm_alike hb hf u).bind fun x y _ _ hxy => ?_
  refine Ret.same fun v _ => ?_
  rcases v with _ | v
  · exact hnone
  refine (Poly.mulTerm_alike hb hg v).bind fun x' y' _ _ hxy' => ?_
  exact (Poly.sub_alike hxy hxy').bind fun _ _ _ _ h => Ret.pure (R := ORel _) (a := some _) (b := some _) h

omit hb [RField F] in
theorem index_ret {α β : Type} {S : α → β → Prop} {l : List α} {l' : List β} (hl : List.Forall₂ S l l')
    (i : ℕ) : Ret S (index l i) (index l' i) := by
  unfold index
  induction hl generalizing i with
  | nil => exact nofun
  | cons h _ ih =>
    cases i with
    | zero => exact fun _ e => by cases e; exact ⟨_, rfl, h⟩
    | succ i => simpa using ih i

theorem criterionFor_alike {gens gens' : List (Poly F)} (hg : List.Forall₂ Poly.Like gens gens')
    (l : List (ℕ × ℕ)) :
    Ret (· = ·) (criterionFor (k.order b) gens l) (criterionFor (k.order b) gens' l) := by
  induction l with
  | nil => exact Ret.pure rfl
  | cons x rest ih =>
    obtain ⟨i, j⟩ := x
    unfold criterionFor
    refine (index_ret hg i).bind fun a b _ _ hab => (index_ret hg j).bind fun c d _ _ hcd => ?_
    refine (tryReduce_alike hb hab hcd).bind fun u v _ _ huv => ?_
    rcases u with _ | u <;> rcases v with _ | v
    · exact Ret.panic
    · exact huv.elim
    · exact huv.elim
    · refine (divide_alike hb huv hg).bind fun x y _ _ e => ?_
      subst e
      dsimp only
      split
      · exact Ret.pure rfl
      · exact ih

theorem buchbergerCriterion_alike {gens gens' : List (Poly F)} (hg : List.Forall₂ Poly.Like gens gens') :
    Ret (· = ·) (buchbergerCriterion (k.order b) gens) (buchbergerCriterion (k.order b) gens') := by
  unfold buchbergerCriterion
  rw [hg.length_eq]
  exact criterionFor_alike hb hg _

theorem extendFor_alike {gens gens' : List (Poly F)} (hg : List.Forall₂ Poly.Like gens gens') (i : ℕ)
    (l : List ℕ) : Ret (· = ·) (extendFor (k.order b) gens i l) (extendFor (k.order b) gens' i l) := by
  induction l with
  | nil => exact Ret.pure rfl
  | cons j rest ih =>
    unfold extendFor
    refine (index_ret hg i).bind fun a b _ _ hab => (index_ret hg j).bind fun c d _ _ hcd => ?_
    refine (tryReduce_alike hb hab hcd).bind fun u v _ _ huv => ?_
    rcases u with _ | u <;> rcases v with _ | v
    · exact Ret.panic
    · exact huv.elim
    · exact huv.elim
    · refine (divide_alike hb huv hg).bind fun x y _ _ e => ?_
      subst e
      refine Ret.same fun o _ => ?_
      rcases o with _ | lc
      · exact ih
      · exact Ret.refl fun _ => rfl

theorem buchbergerExtend_alike {gens gens' : List (Poly F)} (hg : List.Forall₂ Poly.Like gens gens') :
    Ret (List.Forall₂ Poly.Like) (buchbergerExtend (k.order b) gens) (buchbergerExtend (k.order b) gens') := by
  refine Ret.loop (R := fun x y => List.Forall₂ Poly.Like x.1 y.1 ∧ x.2 = y.2) ?_ ⟨hg, rfl⟩
  rintro ⟨gens, i⟩ ⟨gens', i'⟩ ⟨hg, hi⟩
  dsimp only at hg hi
  subst hi
  unfold extendStep
  dsimp only
  rw [hg.length_eq]
  split
  · refine (extendFor_alike hb hg i _).bind fun u v _ _ e => ?_
    subst e
    rcases u with _ | u
    · exact Ret.pure (R := SRel _ _) (a := .inl _) (b := .inl _) ⟨hg, rfl⟩
    · exact Ret.pure (R := SRel _ _) (a := .inl _) (b := .inl _)
        ⟨List.rel_append hg (.cons (.refl u) .nil), rfl⟩
  · exact Ret.pure (R := SRel _ _) (a := .inr _) (b := .inr _) hg

omit hb in
theorem minimizeFor_alike {gens gens' : List (Poly F)} (hg : List.Forall₂ Poly.Like gens gens')
    (l : List (ℕ × ℕ)) :
    Ret (· = ·) (minimizeFor (k.order b) gens l) (minimizeFor (k.order b) gens' l) := by
  induction l with
  | nil => exact Ret.pure rfl
  | cons x rest ih =>
    obtain ⟨i, j⟩ := x
    unfold minimizeFor
    refine (index_ret hg j).bind fun _ _ _ _ hab => (unwrapLeadingTerm_alike hab.alike).bind fun s _ _ _ e => ?_
    subst e
    refine (index_ret hg i).bind fun _ _ _ _ hab => (unwrapLeadingTerm_alike hab.alike).bind fun t _ _ _ e => ?_
    subst e
    split
    · exact Ret.pure rfl
    · exact ih

omit hb in
theorem buchbergerMinimize_alike {gens gens' : List (Poly F)} (hg : List.Forall₂ Poly.Like gens gens') :
    Ret (List.Forall₂ Poly.Like) (buchbergerMinimize (k.order b) gens)
      (buchbergerMinimize (k.order b) gens') := by
  refine Ret.loop (fun gens gens' hg => ?_) hg
  unfold minimizeStep
  rw [hg.length_eq]
  refine (minimizeFor_alike hg _).bind fun u v _ _ e => ?_
  subst e
  rcases u with _ | i
  · exact Ret.pure (R := SRel _ _) (a := .inr _) (b := .inr _) hg
  · exact Ret.pure (R := SRel _ _) (a := .inl _) (b := .inl _) (forall₂_eraseIdx hg i)

omit hb in
theorem reduceTerms_ok {O : MOrder} {g : Poly F} {l : List (Term F)} {x : Bool} (hl : l ≠ []) :
    reduceTerms O g l = .ok x ↔ ∃ t, unwrapLeadingTerm O g = .ok t ∧ x = l.any (t.divides ·) := by
  induction l with
  | nil => exact absurd rfl hl
  | cons s l ih =>
    unfold reduceTerms
    rw [bind_eq_ok]
    refine exists_congr fun t => and_congr_right fun ht => ?_
    rw [List.any_cons]
    split
    · rename_i h
      rw [h, Bool.true_or]
      exact ⟨fun h => by cases h; rfl, fun h => by rw [h]; rfl⟩
    · rename_i h
      have h : t.divides s = false := by simpa using h
      rw [h, Bool.false_or]
      by_cases hl : l = []
      · subst hl
        exact ⟨fun h => by cases h; rfl, fun h => by rw [h]; rfl⟩
      · rw [ih hl]
        exact ⟨fun ⟨t', h1, h2⟩ => by rw [ht] at h1; cases h1; exact h2, fun h => ⟨t, ht, h⟩⟩

omit hb in
theorem reduceTerms_alike {g g' f f' : Poly F} (hg : g.Like g') (hf : f.Like f') :
    Ret (· = ·) (reduceTerms (k.order b) g f) (reduceTerms (k.order b) g' f') := by
  by_cases h0 : f = []
  · rw [hf.alike.nil_iff.mp h0, h0]
    exact Ret.pure rfl
  · intro x hx
    refine ⟨x, ?_, rfl⟩
    obtain ⟨t, ht, hx⟩ := (reduceTerms_ok h0).mp hx
    obtain ⟨_, ht', rfl⟩ := unwrapLeadingTerm_alike hg.alike t ht
    refine (reduceTerms_ok fun h => h0 (hf.alike.nil_iff.mpr h)).mpr ⟨t, ht', ?_⟩
    rw [hx, Bool.eq_iff_iff, List.any_eq_true, List.any_eq_true]
    simp only [hf.alike.mem]

omit hb in
theorem reduceFor_alike {gens gens' : List (Poly F)} (hg : List.Forall₂ Poly.Like gens gens')
    (l : List (ℕ × ℕ)) :
    Ret (· = ·) (reduceFor (k.order b) gens l) (reduceFor (k.order b) gens' l) := by
  induction l with
  | nil => exact Ret.pure rfl
  | cons x rest ih =>
    obtain ⟨i, j⟩ := x
    unfold reduceFor
    refine (index_ret hg i).bind fun a b _ _ hab => (index_ret hg j).bind fun c d _ _ hcd => ?_
    refine (reduceTerms_alike hcd hab).bind fun u v _ _ e => ?_
    subst e
    split
    · exact Ret.pure rfl
    · exact ih

theorem buchbergerReduce_alike {gens gens' : List (Poly F)} (hg : List.Forall₂ Poly.Like gens gens') :
    Ret (List.Forall₂ Poly.Like) (buchbergerReduce (k.order b) gens)
      (buchbergerReduce (k.order b) gens') := by
  refine Ret.loop (fun gens gens' hg => ?_) hg
  unfold reduceStep
  rw [hg.length_eq]
  refine (reduceFor_alike hg _).bind fun u v _ _ e => ?_
  subst e
  rcases u with _ | i
  · exact Ret.pure (R := SRel _ _) (a := .inr _) (b := .inr _) hg
  · refine (index_ret hg i).bind fun a b _ _ hab => ?_
    refine (divide_alike hb hab.alike (forall₂_eraseIdx hg i)).bind fun x y _ _ e => ?_
    subst e
    exact Ret.pure (R := SRel _ _) (a := .inl _) (b := .inl _)
      (List.rel_append (forall₂_eraseIdx hg i) (.cons (.refl _) .nil))

theorem buchbergerAlgorithm_alike {gens gens' : List (Poly F)} (hg : List.Forall₂ Poly.Like gens gens') :
    Ret (List.Forall₂ Poly.Like) (buchbergerAlgorithm (k.order b) gens)
      (buchbergerAlgorithm (k.order b) gens') :=
  (buchbergerExtend_alike hb hg).bind fun _ _ _ _ h => (buchbergerMinimize_alike h).bind
    fun _ _ _ _ h => buchbergerReduce_alike hb h

end

end Verif
