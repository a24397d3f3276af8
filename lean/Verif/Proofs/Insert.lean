import Verif.Proofs.Embed
import Verif.Proofs.Ord

/-! # Inserting a variable that does not occur -/

namespace Verif

open Res Computer

namespace MDeg

/-- The multidegree after a new variable, which does not occur, has been inserted at position `k`: the
exponents from position `k` on move up by one position. -/
def ins : ℕ → MDeg → MDeg
  | _, [] => []
  | 0, a :: as => 0 :: a :: as
  | k + 1, a :: as => a :: ins k as

@[simp] theorem ins_nil (k : ℕ) : ins k [] = [] := by cases k <;> rfl

@[simp] theorem ins_zero_cons (a : ℕ) (as : MDeg) : ins 0 (a :: as) = 0 :: a :: as := rfl

@[simp] theorem ins_succ_cons (k a : ℕ) (as : MDeg) : ins (k + 1) (a :: as) = a :: ins k as := rfl

theorem ins_eq_nil {k : ℕ} {m : MDeg} : ins k m = [] ↔ m = [] := by
  cases m with
  | nil => simp
  | cons a as => cases k <;> simp

theorem ins_isEmpty (k : ℕ) (m : MDeg) : (ins k m).isEmpty = m.isEmpty := by
  cases m with
  | nil => simp
  | cons a as => cases k <;> rfl

theorem ins_inj (k : ℕ) (m n : MDeg) : ins k m = ins k n ↔ m = n := by
  induction k generalizing m n with
  | zero => cases m <;> cases n <;> simp
  | succ k ih => cases m <;> cases n <;> simp [ih]

theorem ins_length (k : ℕ) (m : MDeg) : (ins k m).length = if m.length ≤ k then m.length else m.length + 1 := by
  induction k generalizing m with
  | zero => cases m <;> simp
  | succ k ih =>
    cases m with
    | nil => simp
    | cons a as =>
      simp only [ins_succ_cons, List.length_cons, ih]
      split <;> split <;> omega

/-- The items of `zip_longest` after the insertion. -/
def insE : ℕ → List (EitherOrBoth ℕ) → List (EitherOrBoth ℕ)
  | _, [] => []
  | 0, .both a b :: l => .both 0 0 :: .both a b :: l
  | 0, .left a :: l => .left 0 :: .left a :: l
  | 0, .right b :: l => .right 0 :: .right b :: l
  | k + 1, p :: l => p :: insE k l

theorem insE_nil (k : ℕ) : insE k [] = [] := by cases k <;> rfl

theorem insE_succ_cons (k : ℕ) (p : EitherOrBoth ℕ) (l : List (EitherOrBoth ℕ)) :
    insE (k + 1) (p :: l) = p :: insE k l := by cases p <;> rfl

theorem insE_left (k : ℕ) (m : MDeg) : insE k (m.map .left) = (ins k m).map .left := by
  induction k generalizing m with
  | zero => cases m <;> rfl
  | succ k ih =>
    cases m with
    | nil => rfl
    | cons a as => simp only [List.map_cons, insE_succ_cons, ins_succ_cons, ih]

theorem insE_right (k : ℕ) (m : MDeg) : insE k (m.map .right) = (ins k m).map .right := by
  induction k generalizing m with
  | zero => cases m <;> rfl
  | succ k ih =>
    cases m with
    | nil => rfl
    | cons a as => simp only [List.map_cons, insE_succ_cons, ins_succ_cons, ih]

theorem zipLongest_nil {α : Type} (l : List α) : zipLongest l [] = l.map .left := by
  cases l <;> rfl

theorem zipLongest_ins (k : ℕ) (m n : MDeg) : zipLongest (ins k m) (ins k n) = insE k (zipLongest m n) := by
  induction k generalizing m n with
  | zero => cases m <;> cases n <;> rfl
  | succ k ih =>
    cases m with
    | nil =>
      change zipLongest [] (ins (k + 1) n) = insE (k + 1) (n.map .right)
      rw [insE_right]
      rfl
    | cons a as =>
      cases n with
      | nil =>
        rw [ins_nil, zipLongest_nil, zipLongest_nil, insE_left]
      | cons b bs =>
        simp only [ins_succ_cons, zipLongest, insE_succ_cons, ih]

/-- The sum of multidegrees, from the right. -/
def addRec (bd : Build) : List (EitherOrBoth ℕ) → Res MDeg
  | [] => .ok []
  | p :: rest =>
    match p with
    | .both 0 0 => (fun r => if r = [] then [] else 0 :: r) <$> addRec bd rest
    | .left 0 => (fun r => if r = [] then [] else 0 :: r) <$> addRec bd rest
    | .right 0 => (fun r => if r = [] then [] else 0 :: r) <$> addRec bd rest
    | .both a b => do
      let c ← U8.norm bd (a + b)
      (fun r => c :: r) <$> addRec bd rest
    | .left a => (fun r => a :: r) <$> addRec bd rest
    | .right b => (fun r => b :: r) <$> addRec bd rest

theorem addLoop_eq_rec (bd : Build) (l : List (EitherOrBoth ℕ)) (z : ℕ) (degs : List ℕ) :
    addLoop bd l z degs =
      (fun r => if r = [] then degs else degs ++ List.replicate z 0 ++ r) <$> addRec bd l := by
  induction l generalizing z degs with
  | nil => rfl
  | cons p rest ih =>
    have h0 : addLoop bd rest (z + 1) degs =
        (fun r => if r = [] then degs else degs ++ List.replicate z 0 ++ r) <$>
          ((fun r => if r = [] then [] else 0 :: r) <$> addRec bd rest) := by
      rw [ih]
      cases addRec bd rest with
      | panic p => rfl
      | diverge => rfl
      | ok r =>
        simp only [map_ok]
        by_cases hr : r = []
        · simp [hr]
        · simp [hr, List.replicate_succ']
    have h1 : ∀ c, addLoop bd rest 0 (degs ++ List.replicate z 0 ++ [c]) =
        (fun r => if r = [] then degs else degs ++ List.replicate z 0 ++ r) <$>
          ((fun r => c :: r) <$> addRec bd rest) := by
      intro c
      rw [ih]
      cases addRec bd rest with
      | panic p => rfl
      | diverge => rfl
      | ok r =>
        simp only [map_ok]
        by_cases hr : r = []
        · simp [hr]
        · simp [hr]
    unfold addLoop addRec
    rcases p with ⟨_ | a, _ | b⟩ | (_ | a) | (_ | b)
    · exact h0
    · change (U8.norm bd (0 + (b + 1)) >>= _) = _ <$> (U8.norm bd (0 + (b + 1)) >>= _)
      cases U8.norm bd (0 + (b + 1)) with
      | panic p => rfl
      | diverge => rfl
      | ok c => exact h1 c
    · change (U8.norm bd (a + 1 + 0) >>= _) = _ <$> (U8.norm bd (a + 1 + 0) >>= _)
      cases U8.norm bd (a + 1 + 0) with
      | panic p => rfl
      | diverge => rfl
      | ok c => exact h1 c
    · change (U8.norm bd (a + 1 + (b + 1)) >>= _) = _ <$> (U8.norm bd (a + 1 + (b + 1)) >>= _)
      cases U8.norm bd (a + 1 + (b + 1)) with
      | panic p => rfl
      | diverge => rfl
      | ok c => exact h1 c
    · exact h0
    · exact h1 _
    · exact h0
    · exact h1 _

theorem addRec_ins (bd : Build) (k : ℕ) (l : List (EitherOrBoth ℕ)) :
    addRec bd (insE k l) = ins k <$> addRec bd l := by
  induction k generalizing l with
  | zero =>
    have e : ins 0 = fun r : MDeg => if r = [] then [] else 0 :: r := by
      funext r
      cases r <;> rfl
    rw [e]
    rcases l with _ | ⟨⟨a, b⟩ | a | b, rest⟩ <;> rfl
  | succ k ih =>
    rcases l with _ | ⟨p, rest⟩
    · rfl
    · rw [insE_succ_cons]
      have h0 : (fun r => if r = [] then [] else 0 :: r) <$> addRec bd (insE k rest) =
          ins (k + 1) <$> ((fun r => if r = [] then [] else 0 :: r) <$> addRec bd rest) := by
        rw [ih]
        cases addRec bd rest with
        | panic p => rfl
        | diverge => rfl
        | ok r =>
          simp only [map_ok, ins_eq_nil]
          split <;> rfl
      have h1 : ∀ c, (fun r => c :: r) <$> addRec bd (insE k rest) =
          ins (k + 1) <$> ((fun r => c :: r) <$> addRec bd rest) := by
        intro c
        rw [ih]
        cases addRec bd rest <;> rfl
      unfold addRec
      rcases p with ⟨_ | a, _ | b⟩ | (_ | a) | (_ | b)
      · exact h0
      · change (U8.norm bd (0 + (b + 1)) >>= _) = _ <$> (U8.norm bd (0 + (b + 1)) >>= _)
        cases U8.norm bd (0 + (b + 1)) with
        | panic p => rfl
        | diverge => rfl
        | ok c => exact h1 c
      · change (U8.norm bd (a + 1 + 0) >>= _) = _ <$> (U8.norm bd (a + 1 + 0) >>= _)
        cases U8.norm bd (a + 1 + 0) with
        | panic p => rfl
        | diverge => rfl
        | ok c => exact h1 c
      · change (U8.norm bd (a + 1 + (b + 1)) >>= _) = _ <$> (U8.norm bd (a + 1 + (b + 1)) >>= _)
        cases U8.norm bd (a + 1 + (b + 1)) with
        | panic p => rfl
        | diverge => rfl
        | ok c => exact h1 c
      · exact h0
      · exact h1 _
      · exact h0
      · exact h1 _

theorem add_ins (bd : Build) (k : ℕ) (m n : MDeg) :
    MDeg.add bd (ins k m) (ins k n) = ins k <$> MDeg.add bd m n := by
  unfold MDeg.add
  rw [zipLongest_ins, addLoop_eq_rec, addLoop_eq_rec, addRec_ins]
  cases addRec bd (zipLongest m n) with
  | panic p => rfl
  | diverge => rfl
  | ok r =>
    simp only [map_ok, ins_eq_nil]
    split
    · simp
    · simp

/-- The difference of multidegrees, from the right. -/
def subRec : List (EitherOrBoth ℕ) → Option MDeg
  | [] => some []
  | .both a b :: rest =>
    match compare a b with
    | .lt => none
    | .eq => (subRec rest).map fun r => if r = [] then [] else 0 :: r
    | .gt => (subRec rest).map fun r => (a - b) :: r
  | .left a :: rest => (subRec rest).map fun r => a :: r
  | .right _ :: _ => none

theorem checkedSubLoop_eq_rec (l : List (EitherOrBoth ℕ)) (z : ℕ) (degs : List ℕ) :
    checkedSubLoop l z degs =
      (subRec l).map fun r => if r = [] then degs else degs ++ List.replicate z 0 ++ r := by
  induction l generalizing z degs with
  | nil => rfl
  | cons p rest ih =>
    have h1 : ∀ c, checkedSubLoop rest 0 (degs ++ List.replicate z 0 ++ [c]) =
        ((subRec rest).map fun r => c :: r).map
          fun r => if r = [] then degs else degs ++ List.replicate z 0 ++ r := by
      intro c
      rw [ih]
      cases subRec rest with
      | none => rfl
      | some r =>
        by_cases hr : r = []
        · simp [hr]
        · simp [hr]
    rcases p with ⟨a, b⟩ | a | b
    · simp only [checkedSubLoop, subRec]
      cases compare a b with
      | lt => rfl
      | eq =>
        simp only
        rw [ih]
        cases subRec rest with
        | none => rfl
        | some r =>
          by_cases hr : r = []
          · simp [hr]
          · simp [hr, List.replicate_succ']
      | gt => exact h1 _
    · exact h1 a
    · rfl

theorem subRec_ins (k : ℕ) (l : List (EitherOrBoth ℕ)) : subRec (insE k l) = (subRec l).map (ins k) := by
  induction k generalizing l with
  | zero =>
    rcases l with _ | ⟨⟨a, b⟩ | a | b, rest⟩
    · rfl
    · change ((subRec (.both a b :: rest)).map fun r => if r = [] then [] else 0 :: r) = _
      congr 1
      funext r
      cases r <;> rfl
    · change (((subRec rest).map fun r => a :: r).map fun r => 0 :: r) = ((subRec rest).map fun r => a :: r).map _
      cases subRec rest <;> rfl
    · rfl
  | succ k ih =>
    rcases l with _ | ⟨p, rest⟩
    · rfl
    · rw [insE_succ_cons]
      rcases p with ⟨a, b⟩ | a | b
      · simp only [subRec, ih]
        cases compare a b with
        | lt => rfl
        | eq =>
          simp only
          cases subRec rest with
          | none => rfl
          | some r =>
            simp only [Option.map_some, ins_eq_nil]
            split <;> rfl
        | gt => cases subRec rest <;> rfl
      · simp only [subRec, ih]
        cases subRec rest <;> rfl
      · rfl

theorem checkedSub_ins (k : ℕ) (m n : MDeg) :
    checkedSub (ins k m) (ins k n) = (checkedSub m n).map (ins k) := by
  unfold checkedSub isZero
  rw [ins_isEmpty, ins_isEmpty, zipLongest_ins, checkedSubLoop_eq_rec, checkedSubLoop_eq_rec, subRec_ins]
  split
  · rfl
  · split
    · rfl
    · cases subRec (zipLongest m n) with
      | none => rfl
      | some r =>
        simp only [Option.map_some, ins_eq_nil]
        split
        · simp
        · simp

/-- The pairs of exponents after the insertion. -/
def insZ : ℕ → List (ℕ × ℕ) → List (ℕ × ℕ)
  | _, [] => []
  | 0, p :: l => (0, 0) :: p :: l
  | k + 1, p :: l => p :: insZ k l

theorem zip_ins (k : ℕ) (m n : MDeg) : (ins k m).zip (ins k n) = insZ k (m.zip n) := by
  induction k generalizing m n with
  | zero => cases m <;> cases n <;> rfl
  | succ k ih =>
    cases m with
    | nil => rfl
    | cons a as =>
      cases n with
      | nil => rfl
      | cons b bs => simp only [ins_succ_cons, List.zip_cons_cons, insZ, ih]

theorem isSucc_ins (k : ℕ) (m n : MDeg) : isSucc (ins k m) (ins k n) = isSucc m n := by
  unfold isSucc len
  have e : (ins k m).length > (ins k n).length ↔ m.length > n.length := by
    rw [ins_length, ins_length]
    split <;> split <;> omega
  rw [if_congr e rfl rfl, zip_ins]
  clear e
  congr 1
  generalize m.zip n = l
  induction k generalizing l with
  | zero => cases l <;> simp [insZ]
  | succ k ih => cases l <;> simp [insZ, ih]

theorem lcm_ins (k : ℕ) (m n : MDeg) : lcmMDeg (ins k m) (ins k n) = ins k (lcmMDeg m n) := by
  unfold lcmMDeg
  rw [zipLongest_ins]
  generalize zipLongest m n = l
  induction k generalizing l with
  | zero => rcases l with _ | ⟨⟨a, b⟩ | a | b, rest⟩ <;> rfl
  | succ k ih =>
    rcases l with _ | ⟨p, rest⟩
    · rfl
    · rw [insE_succ_cons, List.map_cons, List.map_cons, ins_succ_cons, ih]

/-- Inserting a variable commutes with the operations on multidegrees. -/
theorem emb_ins (b : Build) (k : ℕ) : MDegEmb b (ins k) where
  zero := ins_nil k
  inj := ins_inj k
  add := add_ins b k
  sub := checkedSub_ins k
  succ := isSucc_ins k
  lcm := lcm_ins k

theorem totalDeg_ins (b : Build) (k : ℕ) (m : MDeg) : totalDeg b (ins k m) = totalDeg b m := by
  have H : ∀ acc < 256, (ins k m).foldlM (fun acc d => U8.norm b (acc + d)) acc =
      m.foldlM (fun acc d => U8.norm b (acc + d)) acc := by
    induction k generalizing m with
    | zero =>
      intro acc hacc
      cases m with
      | nil => rfl
      | cons a as =>
        rw [ins_zero_cons, List.foldlM_cons]
        have : U8.norm b (acc + 0) = .ok acc := by
          unfold U8.norm
          rw [if_pos (by omega)]
          rfl
        rw [this]
        rfl
    | succ k ih =>
      intro acc hacc
      cases m with
      | nil => rfl
      | cons a as =>
        rw [ins_succ_cons, List.foldlM_cons, List.foldlM_cons]
        have hlt : ∀ c, U8.norm b (acc + a) = .ok c → c < 256 := by
          intro c hc
          unfold U8.norm at hc
          split at hc
          · cases hc; assumption
          · cases b <;> cases hc
            exact Nat.mod_lt _ (by decide)
        cases hc : U8.norm b (acc + a) with
        | panic p => rfl
        | diverge => rfl
        | ok c => exact ih as c (hlt c hc)
  exact H 0 (by decide)

end MDeg

open MDeg MOrder

theorem lexCmp_ins (k : ℕ) (m n : MDeg) : lexCmp (ins k m) (ins k n) = lexCmp m n := by
  induction k generalizing m n with
  | zero => cases m <;> cases n <;> simp [lexCmp]
  | succ k ih =>
    cases m with
    | nil => cases n <;> rfl
    | cons a as =>
      cases n with
      | nil => rfl
      | cons b bs => simp only [ins_succ_cons, lexCmp, ih]

theorem firstDiff_append (l l' : List (ℕ × ℕ)) :
    firstDiff (l ++ l') = match firstDiff l with | .eq => firstDiff l' | o => o := by
  induction l with
  | nil => rfl
  | cons p l ih =>
    obtain ⟨a, b⟩ := p
    rw [List.cons_append]
    simp only [firstDiff]
    cases compare a b with
    | lt => rfl
    | eq => exact ih
    | gt => rfl

theorem revLexCmp_ins (k : ℕ) (m n : MDeg) : revLexCmp (ins k m) (ins k n) = revLexCmp m n := by
  unfold revLexCmp len
  have e : compare (ins k m).length (ins k n).length = compare m.length n.length := by
    rw [ins_length, ins_length]
    rcases lt_trichotomy m.length n.length with h | h | h
    · rw [Nat.compare_eq_lt.mpr h]
      refine Nat.compare_eq_lt.mpr ?_
      split <;> split <;> omega
    · rw [h]
      simp
    · rw [Nat.compare_eq_gt.mpr h]
      refine Nat.compare_eq_gt.mpr ?_
      split <;> split <;> omega
  rw [e]
  clear e
  have e' : firstDiff ((ins k m).zip (ins k n)).reverse = firstDiff (m.zip n).reverse := by
    rw [zip_ins]
    generalize m.zip n = l
    induction k generalizing l with
    | zero =>
      cases l with
      | nil => rfl
      | cons p l =>
        change firstDiff ((0, 0) :: p :: l).reverse = _
        rw [List.reverse_cons (a := (0, 0)), firstDiff_append]
        cases firstDiff (p :: l).reverse <;> rfl
    | succ k ih =>
      cases l with
      | nil => rfl
      | cons p l =>
        change firstDiff (p :: insZ k l).reverse = _
        rw [List.reverse_cons, List.reverse_cons, firstDiff_append, firstDiff_append, ih]
  rw [e']

/-- Inserting a variable does not change comparisons. -/
theorem ordEmb_ins (κ : OrdKind) (b : Build) (k : ℕ) : OrdEmb (κ.order b) (κ.order b) (ins k) := by
  intro m n
  have hg : grad b (ins k m) (ins k n) = grad b m n := by
    unfold grad
    rw [totalDeg_ins, totalDeg_ins]
  cases κ with
  | lex => exact congrArg Res.ok (lexCmp_ins k m n)
  | revLex => exact congrArg Res.ok (revLexCmp_ins k m n)
  | grLex =>
    change (grad b (ins k m) (ins k n) >>= _) = (grad b m n >>= _)
    rw [hg, lexCmp_ins]
  | gRevLex =>
    change (grad b (ins k m) (ins k n) >>= _) = (grad b m n >>= _)
    rw [hg, revLexCmp_ins]

end Verif
