import Verif.Props.ConeExact
import Verif.Props.F64Exact

/-!
# Property C126: `Cone::new` over every coefficient type

No law of the coefficient type is used: `F` may be `f64`, with comparisons that are undefined.
-/

set_option linter.unusedSectionVars false

namespace Verif
open Res

section
variable {F : Type} [RField F] [EpsilonEquality F] [StabilityCmp F] [FieldOrd F]

/-- The computed product of `g` and the normal is comparable with zero, and not below it. -/
def Above (normal g : Mat F) : Prop :=
  ∃ d o, g.dot normal = .ok d ∧ FieldOrd.partialCmp d (RField.zero : F) = .ok (some o) ∧ o ≠ .lt

/-- `M` is the computed reduced row echelon form of the matrix with rows `S`, of computed rank `r`,
and `ker` the computed kernel. -/
def RowsData (S : List (Mat F)) (r : ℕ) (ker : List (Mat F)) : Prop :=
  ∃ A form M, Mat.fromRowVectors S = .ok A ∧ A.rowEchelon = .ok form ∧ form.toRref = .ok M ∧
    M.rank = .ok r ∧ M.computeKernel = .ok ker

/-- `N` is the first computed kernel vector of the matrix with rows `S`, which has full rank, negated
if its product with the first generator is below zero; that product must be comparable with zero. -/
def CandidateNormal (gs S : List (Mat F)) (N : Mat F) : Prop :=
  ∃ v rest g₀ gs' d o, RowsData S S.length (v :: rest) ∧ gs = g₀ :: gs' ∧
    g₀.dot v = .ok d ∧ FieldOrd.partialCmp d (RField.zero : F) = .ok (some o) ∧
    (o ≠ .lt → N = v) ∧
    (o = .lt → ∃ s, RField.sub (RField.zero : F) RField.one = .ok s ∧ v.scale s = .ok N)

theorem allAbove_true (N : Mat F) (gs : List (Mat F)) :
    Cone.allAbove N gs = .ok true ↔ ∀ g ∈ gs, Above N g := by
  induction gs with
  | nil => simp [Cone.allAbove]
  | cons g gs ih =>
    unfold Cone.allAbove
    rw [List.forall_mem_cons, ← ih, bind_eq_ok]
    constructor
    · rintro ⟨d, hd, h⟩
      rw [bind_eq_ok] at h
      obtain ⟨o, ho, h⟩ := h
      rcases o with _ | (_ | _ | _)
      · cases h
      · cases h
      · exact ⟨⟨d, _, hd, ho, by simp⟩, h⟩
      · exact ⟨⟨d, _, hd, ho, by simp⟩, h⟩
    · rintro ⟨⟨d, o, hd, ho, hne⟩, h⟩
      refine ⟨d, hd, ?_⟩
      rw [bind_eq_ok]
      refine ⟨some o, ho, ?_⟩
      cases o
      · exact absurd rfl hne
      · exact h
      · exact h

theorem facetOf_some (gs S : List (Mat F)) (f : Face F) :
    Cone.facetOf gs S.length S = .ok (some f) ↔
      f.generators = S ∧ CandidateNormal gs S f.normal ∧ ∀ g ∈ gs, Above f.normal g := by
  unfold Cone.facetOf
  constructor
  · intro h
    rw [bind_eq_ok] at h
    obtain ⟨A, hA, h⟩ := h
    rw [bind_eq_ok] at h
    obtain ⟨form, hform, h⟩ := h
    rw [bind_eq_ok] at h
    obtain ⟨M, hM, h⟩ := h
    rw [bind_eq_ok] at h
    obtain ⟨r, hr, h⟩ := h
    split at h
    · cases h
    rename_i hrk
    simp only [ne_eq, not_not] at hrk
    subst hrk
    rw [bind_eq_ok] at h
    obtain ⟨ker, hker, h⟩ := h
    rw [bind_eq_ok] at h
    obtain ⟨v, hv, h⟩ := h
    rw [bind_eq_ok] at h
    obtain ⟨g₀, hg₀, h⟩ := h
    rw [bind_eq_ok] at h
    obtain ⟨d, hd, h⟩ := h
    rw [bind_eq_ok] at h
    obtain ⟨o, ho, h⟩ := h
    rcases o with _ | o
    · cases h
    have hN : ∃ N, (o ≠ .lt → N = v) ∧ (o = .lt → ∃ s,
        RField.sub (RField.zero : F) RField.one = .ok s ∧ v.scale s = .ok N) ∧
        Cone.allAbove N gs = .ok true ∧ f = ⟨N, S⟩ := by
      have key : ∀ N, (Cone.allAbove N gs >>= fun b => if b = true then pure (some ⟨N, S⟩)
          else pure none) = Res.ok (some f) → Cone.allAbove N gs = .ok true ∧ f = ⟨N, S⟩ := by
        intro N h
        rw [bind_eq_ok] at h
        obtain ⟨b, hb, h⟩ := h
        cases b
        · cases h
        · cases h
          exact ⟨hb, rfl⟩
      cases o
      · simp only at h
        rw [bind_eq_ok] at h
        obtain ⟨s, hs, h⟩ := h
        rw [bind_eq_ok] at h
        obtain ⟨N, hN, h⟩ := h
        exact ⟨N, by simp, fun _ => ⟨s, hs, hN⟩, key N h⟩
      · exact ⟨v, fun _ => rfl, by simp, key v h⟩
      · exact ⟨v, fun _ => rfl, by simp, key v h⟩
    obtain ⟨N, h1, h2, hb, rfl⟩ := hN
    refine ⟨rfl, ?_, (allAbove_true _ _).mp hb⟩
    rcases ker with _ | ⟨v', rest⟩
    · cases hv
    cases hv
    rcases gs with _ | ⟨g, gs⟩
    · cases hg₀
    cases hg₀
    exact ⟨v, rest, g₀, gs, d, o, ⟨A, form, M, hA, hform, hM, hr, hker⟩, rfl, hd, ho, h1, h2⟩
  · rintro ⟨rfl, ⟨v, rest, g₀, gs', d, o, ⟨A, form, M, hA, hform, hM, hr, hker⟩, rfl, hd, ho, h1, h2⟩,
      hab⟩
    obtain ⟨N, S⟩ := f
    simp only at *
    rw [hA, bind_ok, hform, bind_ok, hM, bind_ok, hr, bind_ok, if_neg (by simp), hker, bind_ok]
    simp only [Mat.nth, List.getElem?_cons_zero, bind_ok]
    rw [hd, bind_ok, ho, bind_ok]
    have hall := (allAbove_true _ _).mpr hab
    cases o
    · obtain ⟨s, hs, hN⟩ := h2 rfl
      simp only [hs, hN, bind_ok, hall]
      rfl
    · obtain rfl := h1 (by simp)
      simp only [pure_eq, bind_ok, hall]
      rfl
    · obtain rfl := h1 (by simp)
      simp only [pure_eq, bind_ok, hall]
      rfl

theorem fold_facets (gs : List (Mat F)) (k : ℕ) (l : List (List (Mat F))) (acc res : List (Face F))
    (h : l.foldlM (fun (facets : List (Face F)) subset => do
      match ← Cone.facetOf gs k subset with
      | some f => pure (facets ++ [f])
      | none => pure facets) acc = .ok res) :
    ∃ os : List (Option (Face F)), List.Forall₂ (fun S o => Cone.facetOf gs k S = .ok o) l os ∧
      res = acc ++ os.filterMap id := by
  induction l generalizing acc with
  | nil =>
    cases h
    exact ⟨[], .nil, by simp⟩
  | cons S l ih =>
    rw [List.foldlM_cons, bind_eq_ok] at h
    obtain ⟨acc', h', h⟩ := h
    rw [bind_eq_ok] at h'
    obtain ⟨o, ho, h'⟩ := h'
    obtain ⟨os, hos, hres⟩ := ih acc' h
    refine ⟨o :: os, .cons ho hos, ?_⟩
    rcases o with _ | f <;> cases h' <;> simp [hres]

theorem cone_run (gs : List (Mat F)) (c : Cone F) (h : Cone.new gs = .ok c) :
    c.generators = gs ∧ (∃ g₀ gs', gs = g₀ :: gs' ∧ c.ambientDim = g₀.rows) ∧ 0 < c.dim ∧
      RowsData gs c.dim c.orthCompBasis ∧ ∃ os : List (Option (Face F)),
        List.Forall₂ (fun S o => Cone.facetOf gs (c.dim - 1) S = .ok o)
          (combinationsList (c.dim - 1) gs) os ∧ c.facets = os.filterMap id := by
  unfold Cone.new at h
  rw [bind_eq_ok] at h
  obtain ⟨g₀, hg₀, h⟩ := h
  rw [bind_eq_ok] at h
  obtain ⟨A, hA, h⟩ := h
  rw [bind_eq_ok] at h
  obtain ⟨form, hform, h⟩ := h
  rw [bind_eq_ok] at h
  obtain ⟨M, hM, h⟩ := h
  rw [bind_eq_ok] at h
  obtain ⟨r, hr, h⟩ := h
  rw [bind_eq_ok] at h
  obtain ⟨ker, hker, h⟩ := h
  rw [bind_eq_ok] at h
  obtain ⟨k, hk, h⟩ := h
  rw [bind_eq_ok] at h
  obtain ⟨subs, hsubs, h⟩ := h
  rw [bind_eq_ok] at h
  obtain ⟨facets, hfacets, h⟩ := h
  cases h
  unfold combinations at hsubs
  split at hsubs
  · cases hsubs
  rename_i hlt
  cases hsubs
  have hkr : 0 < r ∧ k = r - 1 := by
    unfold Usize.sub at hk
    split at hk
    · cases hk
      exact ⟨by omega, rfl⟩
    · split at hk
      · cases hk
      · cases hk
        omega
  obtain ⟨hr0, rfl⟩ := hkr
  obtain ⟨os, hos, hf⟩ := fold_facets gs _ _ _ _ hfacets
  refine ⟨rfl, ?_, hr0, ⟨A, form, M, hA, hform, hM, hr, hker⟩, os, hos, by simpa using hf⟩
  rcases gs with _ | ⟨g, gs⟩
  · cases hg₀
  · cases hg₀
    exact ⟨_, _, rfl, rfl⟩

/-- C126. Exactly which facets `Cone::new` records, for every coefficient type: those made of
`dim() - 1` generators of full computed rank, with the first computed kernel vector (turned towards
the first generator) as normal, if the product of the normal with every generator compares as equal
to or above zero.  A comparison that is undefined drops the facet. -/
theorem C126_facets (gs : List (Mat F)) (c : Cone F) (h : Cone.new gs = .ok c) (f : Face F) :
    f ∈ c.facets ↔ f.generators.Sublist gs ∧ f.generators.length + 1 = c.dim ∧
      CandidateNormal gs f.generators f.normal ∧ ∀ g ∈ gs, Above f.normal g := by
  obtain ⟨-, -, hd, -, os, hos, hf⟩ := cone_run gs c h
  have hmem : f ∈ c.facets ↔ ∃ S ∈ combinationsList (c.dim - 1) gs,
      Cone.facetOf gs (c.dim - 1) S = .ok (some f) := by
    rw [hf, List.mem_filterMap]
    clear hf
    generalize combinationsList (c.dim - 1) gs = L at hos
    induction hos with
    | nil => simp
    | @cons S o l os h _ ih =>
      rw [List.exists_mem_cons_iff, List.exists_mem_cons_iff, ih, h, Res.ok.injEq]
      rfl
  rw [hmem]
  constructor
  · rintro ⟨S, hS, hSf⟩
    obtain ⟨h1, h2⟩ := mem_combinationsList.mp hS
    rw [← h2, facetOf_some] at hSf
    obtain ⟨rfl, h3, h4⟩ := hSf
    exact ⟨h1, by omega, h3, h4⟩
  · rintro ⟨h1, h2, h3, h4⟩
    have hl : f.generators.length = c.dim - 1 := by omega
    refine ⟨f.generators, mem_combinationsList.mpr ⟨h1, hl⟩, ?_⟩
    rw [← hl, facetOf_some]
    exact ⟨rfl, h3, h4⟩

/-- C126. The facets come in the lexicographic order of the positions of their generators, at most
one for each choice of positions. -/
theorem C126_order (gs : List (Mat F)) (c : Cone F) (h : Cone.new gs = .ok c) :
    ∃ L : List (List (Fin gs.length)), L.Pairwise (· < ·) ∧ (∀ l ∈ L, l.Pairwise (· < ·)) ∧
      c.facets.map (·.generators) = L.map (List.map gs.get) := by
  obtain ⟨-, -, -, -, os, hos, hf⟩ := cone_run gs c h
  have hget : combinationsList (c.dim - 1) gs =
      (combinationsList (c.dim - 1) (List.finRange gs.length)).map (List.map gs.get) := by
    rw [← combinationsList_map, List.map_get_finRange]
  have hlex := combinationsList_lex (c.dim - 1) _ (List.pairwise_lt_finRange gs.length)
  have hsub : ∀ l ∈ combinationsList (c.dim - 1) (List.finRange gs.length), l.Pairwise (· < ·) :=
    fun l hl => sublist_finRange.mp (mem_combinationsList.mp hl).1
  have hlen : ∀ l ∈ combinationsList (c.dim - 1) (List.finRange gs.length),
      (l.map gs.get).length = c.dim - 1 := fun l hl => by
    rw [List.length_map]; exact (mem_combinationsList.mp hl).2
  rw [hget, List.forall₂_map_left_iff] at hos
  rw [hf]
  clear hf hget
  generalize combinationsList (c.dim - 1) (List.finRange gs.length) = L at hos hlex hsub hlen
  suffices ∃ L' : List (List (Fin gs.length)), L'.Sublist L ∧ (os.filterMap id).map (·.generators) = L'.map (List.map gs.get) by
    obtain ⟨L', hL', he⟩ := this
    exact ⟨L', hlex.sublist hL', fun l hl => hsub l (hL'.subset hl), he⟩
  clear hlex hsub
  induction hos with
  | nil => exact ⟨[], List.Sublist.refl _, rfl⟩
  | @cons l o L os hlo _ ih =>
    obtain ⟨L', hL', he⟩ := ih fun l hl => hlen l (by simp [hl])
    rcases o with _ | f
    · exact ⟨L', hL'.cons _, by simpa using he⟩
    · refine ⟨l :: L', hL'.cons_cons _, ?_⟩
      have hfg : f.generators = l.map gs.get := by
        rw [← hlen l (by simp), facetOf_some] at hlo
        exact hlo.1
      simpa [hfg] using he

/-- C126. The other fields. -/
theorem C126_fields (gs : List (Mat F)) (c : Cone F) (h : Cone.new gs = .ok c) :
    c.generators = gs ∧ (∃ g₀ gs', gs = g₀ :: gs' ∧ c.ambientDim = g₀.rows) ∧ 0 < c.dim ∧
      RowsData gs c.dim c.orthCompBasis := by
  obtain ⟨h1, h2, h3, h4, -⟩ := cone_run gs c h
  exact ⟨h1, h2, h3, h4⟩

/-- The products of `N` with the generators and their comparisons with zero can be computed; the
comparisons may be undefined. -/
def Measured (gs : List (Mat F)) (N : Mat F) : Prop :=
  ∀ g ∈ gs, ∃ d o, g.dot N = .ok d ∧ FieldOrd.partialCmp d (RField.zero : F) = .ok o

theorem allAbove_ok {N : Mat F} {gs : List (Mat F)} (h : Measured gs N) :
    ∃ b, Cone.allAbove N gs = .ok b := by
  induction gs with
  | nil => exact ⟨_, rfl⟩
  | cons g gs ih =>
    obtain ⟨d, o, hd, ho⟩ := h g (by simp)
    obtain ⟨b, hb⟩ := ih fun g hg => h g (by simp [hg])
    unfold Cone.allAbove
    rw [hd, bind_ok, ho, bind_ok]
    rcases o with _ | (_ | _ | _)
    · exact ⟨_, rfl⟩
    · exact ⟨_, rfl⟩
    · exact ⟨b, hb⟩
    · exact ⟨b, hb⟩

/-- C126. `Cone::new` returns if the elimination of the generators and of each set of `dim() - 1` of
them returns, and the products and comparisons with the kernel vector and its negative do: that
comparisons are undefined is no reason to panic. -/
theorem C126_returns (gs : List (Mat F)) (r : ℕ) (ker : List (Mat F)) (hgs : gs ≠ [])
    (hrows : RowsData gs r ker) (h0 : 0 < r) (hcap : r < 2 ^ 60)
    (hsub : ∀ S : List (Mat F), S.Sublist gs → S.length + 1 = r → ∃ A form M r',
      Mat.fromRowVectors S = .ok A ∧ A.rowEchelon = .ok form ∧ form.toRref = .ok M ∧
      M.rank = .ok r' ∧ (r' = S.length → ∃ v rest s N, M.computeKernel = .ok (v :: rest) ∧
        RField.sub (RField.zero : F) RField.one = .ok s ∧ v.scale s = .ok N ∧
        Measured gs v ∧ Measured gs N)) :
    ∃ c, Cone.new gs = .ok c ∧ c.dim = r := by
  obtain ⟨g₀, gs', rfl⟩ := List.exists_cons_of_ne_nil hgs
  obtain ⟨A, form, M, hA, hform, hM, hr, hker⟩ := hrows
  have hfacet : ∀ S ∈ combinationsList (r - 1) (g₀ :: gs'),
      ∃ o, Cone.facetOf (g₀ :: gs') (r - 1) S = .ok o := by
    intro S hS
    obtain ⟨h1, h2⟩ := mem_combinationsList.mp hS
    obtain ⟨A, form, M, r', hA, hform, hM, hr, hker⟩ := hsub S h1 (by omega)
    unfold Cone.facetOf
    rw [hA, bind_ok, hform, bind_ok, hM, bind_ok, hr, bind_ok]
    split
    · exact ⟨_, rfl⟩
    · rename_i hrk
      simp only [ne_eq, not_not] at hrk
      obtain ⟨v, rest, s, N, hker, hs, hN, hv, hN'⟩ := hker (by omega)
      obtain ⟨d, o, hd, ho⟩ := hv g₀ (by simp)
      obtain ⟨b, hb⟩ := allAbove_ok hv
      obtain ⟨b', hb'⟩ := allAbove_ok hN'
      simp only [hker, bind_ok, Mat.nth, List.getElem?_cons_zero]
      rw [hd, bind_ok, ho, bind_ok]
      rcases o with _ | (_ | _ | _)
      · exact ⟨_, rfl⟩
      · simp only [hs, bind_ok, hN, hb']
        cases b' <;> exact ⟨_, rfl⟩
      · simp only [pure_eq, bind_ok, hb]
        cases b <;> exact ⟨_, rfl⟩
      · simp only [pure_eq, bind_ok, hb]
        cases b <;> exact ⟨_, rfl⟩
  have hfold : ∀ (L : List (List (Mat F))) (acc : List (Face F)),
      (∀ S ∈ L, ∃ o, Cone.facetOf (g₀ :: gs') (r - 1) S = .ok o) →
      ∃ res, L.foldlM (fun (facets : List (Face F)) subset => do
        match ← Cone.facetOf (g₀ :: gs') (r - 1) subset with
        | some f => pure (facets ++ [f])
        | none => pure facets) acc = .ok res := by
    intro L
    induction L with
    | nil => exact fun acc _ => ⟨acc, rfl⟩
    | cons S L ih =>
      intro acc h
      obtain ⟨o, ho⟩ := h S (by simp)
      have ih := fun acc => ih acc fun S hS => h S (by simp [hS])
      rw [List.foldlM_cons, ho, bind_ok]
      rcases o with _ | f
      · exact ih acc
      · exact ih (acc ++ [f])
  obtain ⟨facets, hfacets⟩ := hfold _ [] hfacet
  have hk : Usize.sub (RField.build F) r 1 = .ok (r - 1) := by
    unfold Usize.sub
    rw [if_pos (by omega)]
  have hcomb : combinations (g₀ :: gs') (r - 1) = .ok (combinationsList (r - 1) (g₀ :: gs')) := by
    unfold combinations
    rw [if_neg (by omega)]
  refine ⟨⟨g₀ :: gs', facets, ker, g₀.rows, r⟩, ?_, rfl⟩
  unfold Cone.new
  simp only [Mat.nth, List.getElem?_cons_zero, bind_ok]
  rw [hA, bind_ok, hform, bind_ok, hM, bind_ok, hr, bind_ok, hker, bind_ok, hk, bind_ok, hcomb,
    bind_ok]
  exact bind_eq_ok.mpr ⟨facets, hfacets, rfl⟩

end

/-- C126 over `f32` and `f64`: the product of a recorded normal with a generator is never a NaN or
negative. -/
theorem C126_float [Fmt] (b : Build) (powi : Flt → Int → Flt) (gs : List (Mat Flt)) (c : Cone Flt) :
    letI := Flt.field b powi
    letI := Flt.epsilonEquality
    letI := Flt.stability
    letI := Flt.fieldOrd
    Cone.new gs = .ok c → ∀ f ∈ c.facets, ∀ g ∈ gs, ∃ d : Flt, g.dot f.normal = .ok d ∧
      (d = .inf false ∨ ∃ s n, d = .fin s n ∧ 0 ≤ Flt.units s n) := by
  let _ := Flt.field b powi
  let _ := Flt.epsilonEquality
  let _ := Flt.stability
  let _ := Flt.fieldOrd
  intro h f hf g hg
  obtain ⟨d, o, hd, ho, hne⟩ := ((C126_facets gs c h f).mp hf).2.2.2 g hg
  refine ⟨d, hd, ?_⟩
  have ho : Flt.partialCmp d Flt.zero = some o := by injection ho
  rcases d with _ | s | ⟨s, n⟩
  · cases ho
  · left
    cases s
    · rfl
    · exact absurd (by simpa [Flt.partialCmp, Flt.zero] using ho.symm) hne
  · right
    refine ⟨s, n, rfl, ?_⟩
    by_contra hlt
    have : compare (Flt.units s n) (Flt.units false 0) = .lt := by
      rw [compare_lt_iff_lt]
      simpa [Flt.units] using hlt
    simp only [Flt.partialCmp, Flt.zero, Option.some.injEq] at ho
    exact hne (ho.symm.trans this)

/-- `Cone::new` over `f32` and `f64` on two and on three independent vectors.  In the second case, with
entries of size `2^104` and `2^1000`, a product is a NaN, and the facet of the first two generators is
dropped. -/
example [Fmt] :
    let big := Flt.fin false (2 ^ (Fmt.maxExp - 24 + Fmt.unitExp))
    let halfBig := Flt.fin false (2 ^ (Fmt.maxExp - 25 + Fmt.unitExp))
    letI := Flt.field .debug fun x _ => x
    letI := Flt.fieldOrd
    (do let c ← Cone.new [⟨[Flt.one, Flt.zero], 2, 1⟩, ⟨[Flt.one, Flt.one], 2, 1⟩]
        pure (c.dim, c.facets.map (·.generators))) =
      Res.ok (2, [[⟨[Flt.one, Flt.zero], 2, 1⟩], [⟨[Flt.one, Flt.one], 2, 1⟩]]) ∧
    (do let c ← Cone.new
          [⟨[Flt.one, Flt.zero, big], 3, 1⟩,
           ⟨[Flt.zero, Flt.one, Flt.neg halfBig], 3, 1⟩,
           ⟨[big, big, Flt.zero], 3, 1⟩]
        pure (c.dim, c.facets.map (·.generators))) = Res.ok (3, []) ∧
    (do let d ← Mat.dot
          ⟨[big, big, Flt.zero], 3, 1⟩
          ⟨[Flt.neg big, halfBig, Flt.one], 3, 1⟩
        FieldOrd.partialCmp d Flt.zero) = Res.ok none := by fmt_decide

end Verif
