import Verif.Proofs.Closed
import Verif.Proofs.Divide
import Verif.Proofs.Run
import Verif.Props.F64Poly

/-!
# Property C183: exponents and variables that do not occur in the input do not occur in the output

Nothing is assumed of the coefficient type, and the polynomials need not be canonical.
-/

namespace Verif
open Res LinAlg Computer

/-- Sets of exponents, one for each variable, that contain zero and are closed under sums of exponents
(as computed by the build) and differences. -/
structure ClosedExp (bd : Build) (E : ℕ → ℕ → Prop) : Prop where
  zero : ∀ k, E k 0
  add : ∀ k a b, E k a → E k b → Holds (E k) (U8.norm bd (a + b))
  sub : ∀ k a b, E k a → E k b → b < a → E k (a - b)

/-- Every exponent of the multidegree is in the set of its variable. -/
def MDeg.Within (E : ℕ → ℕ → Prop) (m : MDeg) : Prop := ∀ k, E k (m.deg k)

/-- Every exponent of the polynomial is in the set of its variable. -/
def Poly.Within {F : Type} (E : ℕ → ℕ → Prop) (p : Poly F) : Prop := ∀ t ∈ p, t.mdeg.Within E

namespace MDeg
variable {bd : Build} {E : ℕ → ℕ → Prop}

/-- The items of `zip_longest` from position `p` on. -/
def Items (E : ℕ → ℕ → Prop) : ℕ → List (EitherOrBoth ℕ) → Prop
  | _, [] => True
  | p, .both a b :: l => E p a ∧ E p b ∧ Items E (p + 1) l
  | p, .left a :: l => E p a ∧ Items E (p + 1) l
  | p, .right b :: l => E p b ∧ Items E (p + 1) l

theorem items_zipLongest (a b : MDeg) (p : ℕ) (ha : ∀ k, E (p + k) (deg a k)) (hb : ∀ k, E (p + k) (deg b k)) :
    Items E p (zipLongest a b) := by
  have shift : ∀ {x : ℕ} {l : MDeg} {p : ℕ}, (∀ k, E (p + k) (deg (x :: l) k)) →
      E p x ∧ ∀ k, E (p + 1 + k) (deg l k) := by
    intro x l p h
    refine ⟨h 0, fun k => ?_⟩
    have := h (k + 1)
    rwa [show p + (k + 1) = p + 1 + k by omega] at this
  induction a generalizing b p with
  | nil =>
    have : ∀ (b : MDeg) (p : ℕ), (∀ k, E (p + k) (deg b k)) → Items E p (b.map .right) := by
      intro b
      induction b with
      | nil => intro p _; trivial
      | cons y b ih => intro p hb; exact ⟨(shift hb).1, ih _ (shift hb).2⟩
    cases b with
    | nil => trivial
    | cons y b => exact this (y :: b) p hb
  | cons x a ih =>
    cases b with
    | nil =>
      have : ∀ (b : MDeg) (p : ℕ), (∀ k, E (p + k) (deg b k)) → Items E p (b.map .left) := by
        intro b
        induction b with
        | nil => intro p _; trivial
        | cons y b ih => intro p hb; exact ⟨(shift hb).1, ih _ (shift hb).2⟩
      exact this (x :: a) p ha
    | cons y b => exact ⟨(shift ha).1, (shift hb).1, ih b (p + 1) (shift ha).2 (shift hb).2⟩

theorem within_push (h0 : ∀ k, E k 0) {degs : MDeg} {z c : ℕ} (hd : Within E degs)
    (hc : E (degs.length + z) c) : Within E (degs ++ List.replicate z 0 ++ [c]) := by
  intro k
  rw [deg_append]
  split
  · have : ∀ (z : ℕ), E k (deg (degs ++ List.replicate z 0) k) := by
      intro z
      induction z with
      | zero => simpa using hd k
      | succ z ih =>
        rw [List.replicate_succ', ← List.append_assoc, deg_append]
        split
        · exact ih
        · split <;> exact h0 k
    exact this z
  · split
    · next h => rw [h, List.length_append, List.length_replicate]; exact hc
    · exact h0 k

theorem within_addLoop (c : ClosedExp bd E) (l : List (EitherOrBoth ℕ)) (z : ℕ) (degs : MDeg)
    (hd : Within E degs) (hl : Items E (degs.length + z) l) : Holds (Within E) (addLoop bd l z degs) := by
  have len : ∀ (degs : MDeg) (z x : ℕ), (degs ++ List.replicate z 0 ++ [x]).length + 0 = degs.length + z + 1 := by
    intro degs z x; simp; omega
  induction l generalizing z degs with
  | nil => exact Holds.ok hd
  | cons x rest ih =>
    unfold addLoop
    split
    · exact ih _ _ hd hl.2.2
    · exact ih _ _ hd hl.2
    · exact ih _ _ hd hl.2
    · refine (c.add _ _ _ hl.1 hl.2.1).bind fun s hs => ?_
      exact ih _ _ (within_push c.zero hd hs) (by rw [len]; exact hl.2.2)
    · exact ih _ _ (within_push c.zero hd hl.1) (by rw [len]; exact hl.2)
    · exact ih _ _ (within_push c.zero hd hl.1) (by rw [len]; exact hl.2)

theorem within_add (c : ClosedExp bd E) {a b : MDeg} (ha : Within E a) (hb : Within E b) :
    Holds (Within E) (add bd a b) :=
  within_addLoop c _ 0 [] (fun k => by simpa [deg] using c.zero k) (by
    refine items_zipLongest a b _ ?_ ?_
    · intro k; simpa using ha k
    · intro k; simpa using hb k)

theorem within_checkedSubLoop (c : ClosedExp bd E) (l : List (EitherOrBoth ℕ)) (z : ℕ) (degs : MDeg)
    (hd : Within E degs) (hl : Items E (degs.length + z) l) :
    ∀ m, checkedSubLoop l z degs = some m → Within E m := by
  have len : ∀ (degs : MDeg) (z x : ℕ), (degs ++ List.replicate z 0 ++ [x]).length + 0 = degs.length + z + 1 := by
    intro degs z x; simp; omega
  induction l generalizing z degs with
  | nil => rintro m ⟨⟩; exact hd
  | cons x rest ih =>
    rcases x with ⟨a, b⟩ | a | b
    · unfold checkedSubLoop
      split
      · rintro m ⟨⟩
      · exact ih _ _ hd hl.2.2
      · next h =>
        refine ih _ _ (within_push c.zero hd (c.sub _ _ _ hl.1 hl.2.1 ?_)) (by rw [len]; exact hl.2.2)
        exact Nat.compare_eq_gt.mp h
    · exact ih _ _ (within_push c.zero hd hl.1) (by rw [len]; exact hl.2)
    · rintro m ⟨⟩

theorem within_checkedSub (c : ClosedExp bd E) {a b : MDeg} (ha : Within E a) (hb : Within E b) :
    ∀ m, checkedSub a b = some m → Within E m := by
  intro m h
  unfold checkedSub at h
  split at h
  · cases h; exact ha
  · split at h
    · cases h
    · refine within_checkedSubLoop c _ 0 [] (fun k => by simpa [deg] using c.zero k) ?_ m h
      refine items_zipLongest a b _ ?_ ?_
      · intro k; simpa using ha k
      · intro k; simpa using hb k

theorem within_lcm {a b : MDeg} (ha : Within E a) (hb : Within E b) : Within E (lcmMDeg a b) := by
  intro k
  rw [lcmMDeg_eq, deg_zipWithLongest (by simp)]
  rcases max_choice (deg a k) (deg b k) with h | h <;> rw [h]
  · exact ha k
  · exact hb k

end MDeg

variable {F : Type} [RField F] {E : ℕ → ℕ → Prop}

theorem Poly.within_ofTerm {t : Term F} (h : t.mdeg.Within E) : (Poly.ofTerm t).Within E := by
  unfold Poly.ofTerm
  split
  · intro s hs; cases hs
  · intro s hs
    rw [List.mem_singleton.mp hs]
    exact h

theorem Poly.within_addNonzeroTerm {p : Poly F} {t : Term F} (hp : p.Within E)
    (ht : t.mdeg.Within E) : Holds (Poly.Within E) (Poly.addNonzeroTerm p t) := by
  induction p with
  | nil =>
    refine Holds.ok ?_
    intro s hs
    rw [List.mem_singleton.mp hs]
    exact ht
  | cons s ts ih =>
    have hs : s.mdeg.Within E := hp s (by simp)
    have hts : Poly.Within E ts := fun x hx => hp x (by simp [hx])
    unfold Poly.addNonzeroTerm
    split
    · refine Holds.bind' fun a => ?_
      dsimp only
      split
      · exact Holds.ok hts
      · refine Holds.ok ?_
        intro x hx
        rcases List.mem_cons.mp hx with rfl | hx
        · exact hs
        · exact hts x hx
    · refine (ih hts).bind fun ts' h' => Holds.ok ?_
      intro x hx
      rcases List.mem_cons.mp hx with rfl | hx
      · exact hs
      · exact h' x hx

theorem Poly.within_addTerm {p : Poly F} {t : Term F} (hp : p.Within E)
    (ht : t.mdeg.Within E) : Holds (Poly.Within E) (Poly.addTerm p t) := by
  unfold Poly.addTerm
  split
  · exact Holds.ok (Poly.within_ofTerm ht)
  · split
    · exact Holds.ok hp
    · exact Poly.within_addNonzeroTerm hp ht

theorem Poly.within_add {p q : Poly F} (hp : p.Within E) (hq : q.Within E) :
    Holds (Poly.Within E) (Poly.add p q) :=
  Holds.foldlM hp fun _ t ht h => Poly.within_addTerm h (hq t ht)

theorem Poly.within_neg {p : Poly F} (hp : p.Within E) : Holds (Poly.Within E) (Poly.neg p) :=
  Holds.mapM fun t ht => Holds.bind' fun _ => Holds.ok (hp t ht)

theorem Poly.within_sub {p q : Poly F} (hp : p.Within E) (hq : q.Within E) :
    Holds (Poly.Within E) (Poly.sub p q) :=
  (Poly.within_neg hq).bind fun _ h => Poly.within_add hp h

theorem ClosedExp.within_zero {bd : Build} (c : ClosedExp bd E) : MDeg.Within E MDeg.zero :=
  fun k => by simpa [MDeg.deg, MDeg.zero] using c.zero k

variable (c : ClosedExp (RField.build F) E)
include c

theorem Term.within_mul {s t : Term F} (hs : s.mdeg.Within E) (ht : t.mdeg.Within E) :
    Holds (fun t : Term F => t.mdeg.Within E) (s.mul t) := by
  unfold Term.mul
  split
  · exact Holds.ok c.within_zero
  · exact Holds.bind' fun _ => (MDeg.within_add c hs ht).bind fun _ h => Holds.ok h

theorem Poly.within_mulTerm {p : Poly F} {t : Term F} (hp : p.Within E)
    (ht : t.mdeg.Within E) : Holds (Poly.Within E) (Poly.mulTerm p t) := by
  unfold Poly.mulTerm
  split
  · refine Holds.ok ?_
    intro s hs; cases hs
  · exact Holds.mapM fun s hs => Term.within_mul c (hp s hs) ht

theorem Poly.within_mul {p q : Poly F} (hp : p.Within E) (hq : q.Within E) :
    Holds (Poly.Within E) (Poly.mul p q) := by
  refine Holds.reduceM (by intro s hs; cases hs) ?_ fun _ _ h1 h2 => Poly.within_add h1 h2
  intro x hx
  obtain ⟨t, ht, rfl⟩ := List.mem_map.mp hx
  exact Poly.within_mulTerm c hq (hp t ht)

theorem Poly.within_divCoef {p : Poly F} {a : F} (hp : p.Within E) :
    Holds (Poly.Within E) (Poly.divCoef p a) :=
  Holds.bind' fun _ => Poly.within_mulTerm c hp c.within_zero

theorem Term.within_tryDiv {s t : Term F} (hs : s.mdeg.Within E) (ht : t.mdeg.Within E) :
    Holds (fun o => ∀ a, o = some a → a.mdeg.Within E) (s.tryDiv t) := by
  unfold Term.tryDiv
  split
  · refine Holds.ok ?_
    rintro a ⟨⟩; exact c.within_zero
  · split
    · refine Holds.ok ?_
      rintro a ⟨⟩
    · refine Holds.bind' fun _ => ?_
      split
      · refine Holds.ok ?_
        rintro a ⟨⟩
      · next m hm =>
        refine Holds.ok ?_
        rintro a ⟨⟩; exact MDeg.within_checkedSub c hs ht m hm

theorem within_divideFor {O : MOrder} {ltF : Term F}
    {f : Poly F} (hlt : ltF.mdeg.Within E) (hf : f.Within E) (l : List (Poly F × Poly F))
    (hl : ∀ x ∈ l, x.1.Within E ∧ x.2.Within E) :
    Holds (fun o => ∀ qs f', o = some (qs, f') → (∀ q ∈ qs, Poly.Within E q) ∧ Poly.Within E f')
      (divideFor O ltF f l) := by
  induction l with
  | nil => exact Holds.ok (by simp)
  | cons x rest ih =>
    obtain ⟨g, q⟩ := x
    obtain ⟨hg, hq⟩ := hl (g, q) (by simp)
    have hrest : ∀ x ∈ rest, x.1.Within E ∧ x.2.Within E := fun x hx => hl x (by simp [hx])
    have next : Holds (fun o => ∀ qs f', o = some (qs, f') →
        (∀ q ∈ qs, Poly.Within E q) ∧ Poly.Within E f')
        (divideFor O ltF f rest >>= fun o => match o with
          | none => pure none
          | some (qs, f') => pure (some (q :: qs, f'))) := by
      refine (ih hrest).bind fun o ho => ?_
      rcases o with _ | ⟨qs, f'⟩
      · exact Holds.ok (by simp)
      · refine Holds.ok ?_
        rintro qs' f'' ⟨⟩
        obtain ⟨h1, h2⟩ := ho qs f' rfl
        refine ⟨fun q' hq' => ?_, h2⟩
        rcases List.mem_cons.mp hq' with rfl | hq'
        · exact hq
        · exact h1 q' hq'
    unfold divideFor
    refine leadingTerm_holds_mem.bind fun o ho => ?_
    rcases o with _ | ltG
    · exact next
    · refine (Term.within_tryDiv c hlt (hg ltG (ho ltG rfl))).bind fun oa hoa => ?_
      rcases oa with _ | a
      · exact next
      · have ha := hoa a rfl
        refine (Poly.within_addTerm hq ha).bind fun q' hq' => ?_
        refine (Poly.within_mulTerm c hg ha).bind fun ag hag => ?_
        refine (Poly.within_sub hf hag).bind fun f' hf' => Holds.ok ?_
        rintro qs f'' ⟨⟩
        refine ⟨fun x hx => ?_, hf'⟩
        rcases List.mem_cons.mp hx with rfl | hx
        · exact hq'
        · obtain ⟨y, hy, rfl⟩ := List.mem_map.mp hx
          exact (hrest y hy).2

theorem within_divide {O : MOrder} {f : Poly F}
    {divs : List (Poly F)} (hf : f.Within E) (hg : ∀ g ∈ divs, g.Within E) :
    Holds (fun x => x.1.Within E ∧ (∀ q ∈ x.2, Poly.Within E q))
      (divide O f divs) := by
  refine Holds.loop (fun s : DivState F => s.f.Within E ∧ (∀ q ∈ s.quotients, Poly.Within E q) ∧
    s.remainder.Within E) ?_
    ⟨hf, ?_, by intro t ht; cases ht⟩
  · rintro s ⟨h1, h2, h3⟩
    unfold divideStep
    refine leadingTerm_holds_mem.bind fun o ho => ?_
    rcases o with _ | ltF
    · exact Holds.ok ⟨h3, h2⟩
    · have hlt := h1 ltF (ho ltF rfl)
      refine (within_divideFor c hlt h1 (divs.zip s.quotients) fun x hx => ?_).bind fun o ho => ?_
      · obtain ⟨h4, h5⟩ := List.of_mem_zip (a := x.1) (b := x.2) hx
        exact ⟨hg _ h4, h2 _ h5⟩
      · rcases o with _ | ⟨qs, f'⟩
        · refine sortBy_mem.bind fun sorted hsort => ?_
          split
          · exact Holds.ok ⟨fun t ht => h1 t (hsort t ht), h2, h3⟩
          · next lt hlast =>
            have hmem := hsort lt (List.mem_of_getLast? hlast)
            refine (Poly.within_addTerm h3 (h1 lt hmem)).bind fun r hr => Holds.ok ⟨?_, h2, hr⟩
            exact fun t ht => h1 t (hsort t (List.dropLast_subset _ ht))
        · obtain ⟨h4, h5⟩ := ho qs f' rfl
          exact Holds.ok ⟨h5, h4, h3⟩
  · intro q hq
    rw [List.eq_of_mem_replicate hq]
    intro t ht; cases ht

theorem within_tryReduce {O : MOrder} {f g : Poly F} (hf : f.Within E)
    (hg : g.Within E) : Holds (fun o => ∀ h, o = some h → Poly.Within E h) (tryReduce O f g) := by
  unfold tryReduce
  refine leadingTerm_holds_mem.bind fun o ho => ?_
  rcases o with _ | ltF
  · exact Holds.ok (by simp)
  refine leadingTerm_holds_mem.bind fun o' ho' => ?_
  rcases o' with _ | ltG
  · exact Holds.ok (by simp)
  have h1 := hf ltF (ho ltF rfl)
  have h2 := hg ltG (ho' ltG rfl)
  have hl : (monicLcm ltF ltG).mdeg.Within E := by
    unfold monicLcm
    split
    · exact c.within_zero
    · exact MDeg.within_lcm h1 h2
  refine (Term.within_tryDiv c hl h1).bind fun oa hoa => ?_
  rcases oa with _ | a
  · exact Holds.ok (by simp)
  refine (Poly.within_mulTerm c hf (hoa a rfl)).bind fun af haf => ?_
  refine (Term.within_tryDiv c hl h2).bind fun ob hob => ?_
  rcases ob with _ | b
  · exact Holds.ok (by simp)
  refine (Poly.within_mulTerm c hg (hob b rfl)).bind fun bg hbg => ?_
  refine (Poly.within_sub haf hbg).bind fun s hs => Holds.ok ?_
  rintro h ⟨⟩
  exact hs

theorem within_extendFor {O : MOrder} {gens : List (Poly F)} {i : ℕ}
    (hg : ∀ g ∈ gens, Poly.Within E g) (l : List ℕ) :
    Holds (fun o => ∀ r, o = some r → Poly.Within E r) (extendFor O gens i l) := by
  induction l with
  | nil => exact Holds.ok (by simp)
  | cons j rest ih =>
    unfold extendFor
    refine index_holds_mem.bind fun gi hgi => index_holds_mem.bind fun gj hgj => ?_
    refine (within_tryReduce c (hg gi hgi) (hg gj hgj)).bind fun o ho => ?_
    rcases o with _ | s
    · exact Holds.panic
    · refine (within_divide c (ho s rfl) hg).bind fun x hx => ?_
      obtain ⟨r, qs⟩ := x
      refine Holds.bind' fun o => ?_
      rcases o with _ | lc
      · exact ih
      · refine (Poly.within_divCoef c hx.1).bind fun r' hr' => Holds.ok ?_
        rintro r ⟨⟩
        exact hr'

theorem within_buchbergerExtend {O : MOrder} {gens : List (Poly F)}
    (hg : ∀ g ∈ gens, Poly.Within E g) :
    Holds (fun l => ∀ g ∈ l, Poly.Within E g) (buchbergerExtend O gens) := by
  refine Holds.loop (fun s : List (Poly F) × ℕ => ∀ g ∈ s.1, Poly.Within E g) (fun s hs => ?_) hg
  unfold extendStep
  split
  · refine (within_extendFor c hs _).bind fun o ho => ?_
    rcases o with _ | r
    · exact Holds.ok hs
    · refine Holds.ok ?_
      intro g hg
      rcases List.mem_append.mp hg with hg | hg
      · exact hs g hg
      · rw [List.mem_singleton.mp hg]; exact ho r rfl
  · exact Holds.ok hs

omit c in
theorem within_buchbergerMinimize {O : MOrder} {gens : List (Poly F)}
    (hg : ∀ g ∈ gens, Poly.Within E g) :
    Holds (fun l => ∀ g ∈ l, Poly.Within E g) (buchbergerMinimize O gens) := by
  refine Holds.loop (fun s : List (Poly F) => ∀ g ∈ s, Poly.Within E g) (fun s hs => ?_) hg
  unfold minimizeStep
  refine Holds.bind' fun o => ?_
  rcases o with _ | i
  · exact Holds.ok hs
  · exact Holds.ok fun g hg => hs g (List.mem_of_mem_eraseIdx hg)

theorem within_buchbergerReduce {O : MOrder} {gens : List (Poly F)}
    (hg : ∀ g ∈ gens, Poly.Within E g) :
    Holds (fun l => ∀ g ∈ l, Poly.Within E g) (buchbergerReduce O gens) := by
  refine Holds.loop (fun s : List (Poly F) => ∀ g ∈ s, Poly.Within E g) (fun s hs => ?_) hg
  unfold reduceStep
  refine Holds.bind' fun o => ?_
  rcases o with _ | i
  · exact Holds.ok hs
  · refine index_holds_mem.bind fun g hgm => ?_
    have hs' : ∀ g ∈ s.eraseIdx i, Poly.Within E g := fun g hg => hs g (List.mem_of_mem_eraseIdx hg)
    refine (within_divide c (hs g hgm) hs').bind fun x hx => Holds.ok ?_
    intro g hg
    rcases List.mem_append.mp hg with hg | hg
    · exact hs' g hg
    · rw [List.mem_singleton.mp hg]; exact hx.1

theorem within_buchbergerAlgorithm {O : MOrder} {gens : List (Poly F)}
    (hg : ∀ g ∈ gens, Poly.Within E g) :
    Holds (fun l => ∀ g ∈ l, Poly.Within E g) (buchbergerAlgorithm O gens) :=
  (within_buchbergerExtend c hg).bind fun _ h1 => (within_buchbergerMinimize h1).bind fun _ h2 =>
    within_buchbergerReduce c h2

omit c in
/-- Multiples of given numbers; in a build that wraps around the numbers must divide 256. -/
theorem closedExp_dvd (c : ℕ → ℕ) (bd : Build) (hc : bd = .debug ∨ ∀ k, c k ∣ 256 ∨ c k = 0) :
    ClosedExp bd fun k d => c k ∣ d where
  zero k := dvd_zero _
  add k a b ha hb := by
    intro d hd
    unfold U8.norm at hd
    split at hd
    · cases hd; exact dvd_add ha hb
    · rcases hc with rfl | hc
      · cases hd
      · cases bd
        · cases hd
        · cases hd
          rcases hc k with h | h
          · exact (Nat.dvd_mod_iff h).mpr (dvd_add ha hb)
          · rw [h, zero_dvd_iff] at ha hb
            rw [h, ha, hb]
            exact dvd_zero 0
  sub k a b ha hb _ := Nat.dvd_sub ha hb

omit c in
/-- C183 for sums, differences and products. -/
theorem C183_arith (c : ℕ → ℕ) (hc : RField.build F = .debug ∨ ∀ k, c k ∣ 256 ∨ c k = 0) (p q : Poly F)
    (hp : ∀ t ∈ p, ∀ k, c k ∣ t.mdeg.deg k) (hq : ∀ t ∈ q, ∀ k, c k ∣ t.mdeg.deg k) {r : Poly F}
    (h : Poly.add p q = .ok r ∨ Poly.sub p q = .ok r ∨ Poly.mul p q = .ok r) :
    ∀ t ∈ r, ∀ k, c k ∣ t.mdeg.deg k := by
  have cl := closedExp_dvd c _ hc
  rcases h with h | h | h
  · exact Poly.within_add (E := fun k d => c k ∣ d) hp hq _ h
  · exact Poly.within_sub (E := fun k d => c k ∣ d) hp hq _ h
  · exact Poly.within_mul cl hp hq _ h

omit c in
/-- C183 for division: if in the dividend and the divisors every exponent of the `k`-th variable is a
multiple of `c k`, so it is in the remainder and the quotients. -/
theorem C183_divide (c : ℕ → ℕ) (hc : RField.build F = .debug ∨ ∀ k, c k ∣ 256 ∨ c k = 0) (O : MOrder)
    (f : Poly F) (divs : List (Poly F)) (hf : ∀ t ∈ f, ∀ k, c k ∣ t.mdeg.deg k)
    (hg : ∀ g ∈ divs, ∀ t ∈ g, ∀ k, c k ∣ t.mdeg.deg k) {r : Poly F} {qs : List (Poly F)}
    (h : divide O f divs = .ok (r, qs)) :
    (∀ t ∈ r, ∀ k, c k ∣ t.mdeg.deg k) ∧ ∀ q ∈ qs, ∀ t ∈ q, ∀ k, c k ∣ t.mdeg.deg k :=
  within_divide (closedExp_dvd c _ hc) hf hg _ h

omit c in
/-- C183 for Gröbner bases. -/
theorem C183_groebner (c : ℕ → ℕ) (hc : RField.build F = .debug ∨ ∀ k, c k ∣ 256 ∨ c k = 0) (O : MOrder)
    (gens : List (Poly F)) (hg : ∀ g ∈ gens, ∀ t ∈ g, ∀ k, c k ∣ t.mdeg.deg k) {G : List (Poly F)}
    (h : buchbergerAlgorithm O gens = .ok G) : ∀ g ∈ G, ∀ t ∈ g, ∀ k, c k ∣ t.mdeg.deg k :=
  within_buchbergerAlgorithm (closedExp_dvd c _ hc) hg _ h

omit c in
/-- C183, variables, in every build: a variable that occurs in the remainder or in a quotient occurs in
the dividend or in a divisor. -/
theorem C183_divide_variables (O : MOrder) (f : Poly F) (divs : List (Poly F)) (k : ℕ)
    (hf : ∀ t ∈ f, t.mdeg.deg k = 0) (hg : ∀ g ∈ divs, ∀ t ∈ g, t.mdeg.deg k = 0) {r : Poly F}
    {qs : List (Poly F)} (h : divide O f divs = .ok (r, qs)) :
    (∀ t ∈ r, t.mdeg.deg k = 0) ∧ ∀ q ∈ qs, ∀ t ∈ q, t.mdeg.deg k = 0 := by
  have hk : ∀ d j, (if j = k then 0 else 1) ∣ d ↔ (j = k → d = 0) := by
    intro d j
    split
    · next e => simp [e]
    · next e => simp [e]
  obtain ⟨h1, h2⟩ := C183_divide (fun j => if j = k then 0 else 1)
    (.inr fun j => by split <;> simp) O f divs
    (fun t ht j => (hk _ _).mpr fun e => e ▸ hf t ht) (fun g hgm t ht j => (hk _ _).mpr fun e => e ▸ hg g hgm t ht) h
  exact ⟨fun t ht => (hk _ _).mp (h1 t ht k) rfl, fun q hq t ht => (hk _ _).mp (h2 q hq t ht k) rfl⟩

omit c in
/-- C183, variables, in every build: a variable that occurs in the result occurs in a generator. -/
theorem C183_variables (O : MOrder) (gens : List (Poly F)) (k : ℕ)
    (hg : ∀ g ∈ gens, ∀ t ∈ g, t.mdeg.deg k = 0) {G : List (Poly F)}
    (h : buchbergerAlgorithm O gens = .ok G) : ∀ g ∈ G, ∀ t ∈ g, t.mdeg.deg k = 0 := by
  have hk : ∀ d j, (if j = k then 0 else 1) ∣ d ↔ (j = k → d = 0) := by
    intro d j
    split
    · next e => simp [e]
    · next e => simp [e]
  intro g hgm t ht
  exact (hk _ _).mp (C183_groebner (fun j => if j = k then 0 else 1) (.inr fun j => by split <;> simp) O gens
    (fun g hgm t ht j => (hk _ _).mpr fun e => e ▸ hg g hgm t ht) h g hgm t ht k) rfl

omit c in
/-- x²z² + 1 and x² - z⁴. -/
theorem evenRun :
    letI := Rational.field .debug
    buchbergerAlgorithm (F := Rational) MOrder.lex
      [[⟨⟨1, 1⟩, [2, 0, 2]⟩, ⟨⟨1, 1⟩, []⟩], [⟨⟨1, 1⟩, [2]⟩, ⟨⟨-1, 1⟩, [0, 0, 4]⟩]] =
      .ok [[⟨⟨1, 1⟩, [2]⟩, ⟨⟨-1, 1⟩, [0, 0, 4]⟩], [⟨⟨1, 1⟩, [0, 0, 6]⟩, ⟨⟨1, 1⟩, []⟩]] := by
  let _ := Rational.field .debug
  exact (Computer.buchbergerAlgorithmN_approx 20 _).eq (by decide +kernel) (by simp)

/-- x²z² + 1 and x² - z⁴ are in x and z and have even exponents: so is the result. -/
example :
    letI := Rational.field .debug
    ∃ G, buchbergerAlgorithm (F := Rational) MOrder.lex
        [[⟨⟨1, 1⟩, [2, 0, 2]⟩, ⟨⟨1, 1⟩, []⟩], [⟨⟨1, 1⟩, [2]⟩, ⟨⟨-1, 1⟩, [0, 0, 4]⟩]] = .ok G ∧ G.length = 2 ∧
      ∀ g ∈ G, ∀ t ∈ g, ∀ k, [2, 0, 2].getD k 0 ∣ t.mdeg.deg k := by
  let _ := Rational.field .debug
  refine ⟨_, evenRun, rfl, C183_groebner (fun k => [2, 0, 2].getD k 0) (.inl rfl) _ _ ?_ evenRun⟩
  intro g hg t ht k
  simp only [List.mem_cons, List.not_mem_nil, or_false] at hg
  rcases hg with rfl | rfl <;> simp only [List.mem_cons, List.not_mem_nil, or_false] at ht <;>
    rcases ht with rfl | rfl <;> rcases k with _ | _ | _ | k <;> simp [MDeg.deg]

/-- In a build that wraps around, x²⁵⁵ times x³ is x²: its exponent is not a multiple of three. -/
example :
    letI := Rational.field .release
    Poly.mul (F := Rational) [⟨⟨1, 1⟩, [255]⟩] [⟨⟨1, 1⟩, [3]⟩] = .ok [⟨⟨1, 1⟩, [2]⟩] := by
  decide +kernel

end Verif
