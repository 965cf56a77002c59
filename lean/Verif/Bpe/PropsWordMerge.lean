import Verif.Bpe.WordMerge

/-! # C33: `Word.Merge` -/

namespace Tok

/-! ### Specification -/

/-- Replace every adjacent `c1 c2` by `r`, scanning left to right. -/
def replacePairs (c1 c2 r : Int) : List (Int × Nat) → List (Int × Nat)
  | (a, la) :: (b, lb) :: v =>
    if a = c1 ∧ b = c2 then (r, la + lb) :: replacePairs c1 c2 r v
    else (a, la) :: replacePairs c1 c2 r ((b, lb) :: v)
  | l => l

/-- How often `p` occurs as an adjacent pair. -/
def pairCount (p : Int × Int) (l : List Int) : Int := ((l.zip l.tail).count p : Nat)

/-- The total change reported for `p`. -/
def reported (p : Int × Int) (ch : List WChange) : Int :=
  (ch.map fun w => if (w.c1, w.c2) = p then w.change else 0).sum

/-- 1 if the two pairs are the same, else 0. -/
def same (p q : Int × Int) : Int := if p = q then 1 else 0

/-- What is missing from the report: the pair formed with the third symbol when the word
begins with the merged pair. -/
def missingReport (c1 c2 r : Int) (p : Int × Int) : List Int → Int
  | a :: b :: n :: _ => if a = c1 ∧ b = c2 then same (r, n) p - same (c2, n) p else 0
  | _ => 0

/-! ### Proof -/

/-- The loop as a recursion over the rest of the word. -/
def mergeRest (c1 c2 r : Int) : Option Int → List Symbol → List Symbol × List WChange
  | prev, a :: b :: v =>
    if a.c = c1 ∧ b.c = c2 then
      let t := mergeRest c1 c2 r (some r) v
      let before := match prev with
        | some x => [⟨x, a.c, -1⟩, ⟨x, r, 1⟩]
        | none => []
      let after := match prev, v with
        | some _, n :: _ => [⟨b.c, n.c, -1⟩, ⟨r, n.c, 1⟩]
        | _, _ => []
      (⟨r, a.prev, b.next, a.len + b.len⟩ :: t.1, before ++ after ++ t.2)
    else
      let t := mergeRest c1 c2 r (some a.c) (b :: v)
      (a :: t.1, t.2)
  | _, l => (l, [])

theorem wordMergeLoop_eq (c1 c2 r : Int) : ∀ (fuel : Nat) (done rest : List Symbol)
    (ch : List WChange), rest.length < fuel →
    wordMergeLoop c1 c2 r fuel done.length (done ++ rest) ch =
      .ok (done ++ (mergeRest c1 c2 r (done.getLast?.map (·.c)) rest).1,
        ch ++ (mergeRest c1 c2 r (done.getLast?.map (·.c)) rest).2) := by
  intro fuel
  induction fuel with
  | zero => intro _ _ _ h; omega
  | succ fuel ih =>
    intro done rest ch h
    unfold wordMergeLoop
    match rest, h with
    | [], _ => simp [mergeRest]
    | [a], h =>
      simp only [List.length_cons, List.length_nil] at h
      rw [if_neg (by simp)]
      have h1 : (done ++ [a])[done.length]? = some a := by simp
      have h2 : (done ++ [a])[done.length + 1]? = none := by simp
      rw [h1, h2]
      have := ih (done ++ [a]) [] ch (by simp; omega)
      simp only [List.length_append, List.length_cons, List.length_nil, List.append_nil] at this
      simp [this, mergeRest]
    | a :: b :: v, h =>
      simp only [List.length_cons] at h
      rw [if_neg (by simp)]
      have h1 : (done ++ a :: b :: v)[done.length]? = some a := by simp
      have h2 : (done ++ a :: b :: v)[done.length + 1]? = some b := by
        rw [List.getElem?_append_right (by omega)]; simp
      rw [h1, h2]
      simp only
      by_cases hm : a.c = c1 ∧ b.c = c2
      · rw [if_pos hm]
        have e1 : symInsert (done ++ a :: b :: v) ⟨r, a.prev, b.next, a.len + b.len⟩ done.length =
            .ok (done ++ ⟨r, a.prev, b.next, a.len + b.len⟩ :: a :: b :: v) := by
          unfold symInsert
          rw [if_neg (by simp)]
          simp
        have e2 : ∀ (s x : Symbol) (l : List Symbol), symRemove (done ++ s :: x :: l) (done.length + 1) =
            .ok (done ++ s :: l) := by
          intro s x l
          unfold symRemove
          rw [if_neg (by simp; omega)]
          have a1 : (done ++ s :: x :: l).take (done.length + 1) = done ++ [s] := by
            rw [List.take_append, List.take_of_length_le (by omega)]; simp
          have a2 : (done ++ s :: x :: l).drop (done.length + 1 + 1) = l := by
            rw [List.drop_append]
            rw [List.drop_eq_nil_of_le (by omega)]
            have : done.length + 1 + 1 - done.length = 2 := by omega
            rw [this]; rfl
          rw [a1, a2]; simp
        have e3 : changesBefore done.length (done ++ a :: b :: v) a r =
            .ok (match done.getLast?.map (·.c) with
              | some x => [⟨x, a.c, -1⟩, ⟨x, r, 1⟩]
              | none => []) := by
          unfold changesBefore
          rcases List.eq_nil_or_concat done with rfl | ⟨d, x, rfl⟩
          · simp
          · simp
        have e4 : changesAfter done.length (done ++ ⟨r, a.prev, b.next, a.len + b.len⟩ :: v) b r =
            .ok (match done.getLast?.map (·.c), v with
              | some _, n :: _ => [⟨b.c, n.c, -1⟩, ⟨r, n.c, 1⟩]
              | _, _ => []) := by
          unfold changesAfter
          rcases List.eq_nil_or_concat done with rfl | ⟨d, x, rfl⟩
          · simp
          · cases v with
            | nil => simp; omega
            | cons n v =>
              rw [if_pos (by simp; omega)]
              have : (d ++ [x] ++ ⟨r, a.prev, b.next, a.len + b.len⟩ :: n :: v)[(d ++ [x]).length + 1]? =
                  some n := by
                rw [List.getElem?_append_right (by omega)]; simp
              rw [List.concat_eq_append] at *
              rw [this]
              simp
        rw [e3, e1]
        simp only [Res.bind_ok, e2, e4]
        have := ih (done ++ [⟨r, a.prev, b.next, a.len + b.len⟩]) v
          (ch ++ (match done.getLast?.map (·.c) with
              | some x => [⟨x, a.c, -1⟩, ⟨x, r, 1⟩]
              | none => []) ++ (match done.getLast?.map (·.c), v with
              | some _, n :: _ => [⟨b.c, n.c, -1⟩, ⟨r, n.c, 1⟩]
              | _, _ => [])) (by omega)
        simp only [List.length_append, List.length_cons, List.length_nil, List.append_assoc,
          List.singleton_append, List.getLast?_append, List.getLast?_singleton, Option.some_or,
          Option.map_some] at this
        rw [List.append_assoc, this]
        conv => rhs; unfold mergeRest
        rw [if_pos hm]
        simp
      · rw [if_neg hm]
        have := ih (done ++ [a]) (b :: v) ch (by simp; omega)
        simp only [List.length_append, List.length_cons, List.length_nil, List.append_assoc,
          List.singleton_append, List.getLast?_append, List.getLast?_singleton, Option.some_or,
          Option.map_some] at this
        rw [this]
        conv => rhs; unfold mergeRest
        rw [if_neg hm]

theorem wordMerge_eq (c1 c2 r : Int) (ss : List Symbol) :
    wordMerge c1 c2 r ss = .ok (mergeRest c1 c2 r none ss) := by
  have := wordMergeLoop_eq c1 c2 r (ss.length + 1) [] ss [] (by omega)
  simpa [wordMerge] using this

theorem mergeRest_replace (c1 c2 r : Int) : ∀ (prev : Option Int) (ss : List Symbol),
    (mergeRest c1 c2 r prev ss).1.map (fun s => (s.c, s.len)) =
      replacePairs c1 c2 r (ss.map fun s => (s.c, s.len)) := by
  intro prev ss
  fun_induction mergeRest c1 c2 r prev ss with
  | case1 prev a b v h t before after ih =>
    simp only [List.map_cons]
    rw [replacePairs, if_pos h, ← ih]
  | case2 prev a b v h t ih =>
    simp only [List.map_cons] at ih ⊢
    rw [replacePairs, if_neg h, ← ih]
  | case3 prev l hl =>
    match l with
    | [] => rfl
    | [a] => rfl
    | a :: b :: v => exact absurd rfl (hl a b v)

theorem pairCount_cons (p : Int × Int) (a b : Int) (l : List Int) :
    pairCount p (a :: b :: l) = same (a, b) p + pairCount p (b :: l) := by
  simp only [pairCount, List.tail_cons, List.zip_cons_cons, List.count_cons, same]
  by_cases h : (a, b) = p
  · simp [h]; omega
  · simp [h]

theorem reported_append (p : Int × Int) (x y : List WChange) :
    reported p (x ++ y) = reported p x + reported p y := by
  simp [reported]

theorem reported_two (p : Int × Int) (a b c d : Int) :
    reported p [⟨a, b, -1⟩, ⟨c, d, 1⟩] = same (c, d) p - same (a, b) p := by
  simp only [reported, same, List.map_cons, List.map_nil, List.sum_cons, List.sum_nil]
  split <;> split <;> omega

theorem mergeRest_counts (c1 c2 r : Int) (p : Int × Int) : ∀ (n : Nat) (ss : List Symbol) (x : Int),
    ss.length ≤ n →
    pairCount p (x :: (mergeRest c1 c2 r (some x) ss).1.map (·.c)) =
      pairCount p (x :: ss.map (·.c)) + reported p (mergeRest c1 c2 r (some x) ss).2 -
      ((ss.length : Int) - ((mergeRest c1 c2 r (some x) ss).1.length : Int)) * same (c1, c2) p := by
  intro n
  induction n with
  | zero =>
    intro ss x h
    have : ss = [] := List.eq_nil_of_length_eq_zero (by omega)
    subst this
    simp [mergeRest, reported]
  | succ n ih =>
    intro ss x h
    match ss, h with
    | [], _ => simp [mergeRest, reported]
    | [a], _ => simp [mergeRest, reported]
    | a :: b :: v, h =>
      simp only [List.length_cons] at h
      unfold mergeRest
      by_cases hm : a.c = c1 ∧ b.c = c2
      · rw [if_pos hm]
        have := ih v r (by omega)
        simp only [List.map_cons, pairCount_cons, reported_append, reported_two, List.length_cons]
        rw [this, hm.1, hm.2]
        cases v with
        | nil =>
          simp [reported, pairCount, mergeRest]
          omega
        | cons n v =>
          simp only [List.map_cons, pairCount_cons, reported_two, List.length_cons]
          have : ∀ (x y z : Int), ((x + 1 + 1 + 1 : Int) - (y + 1)) * z = ((x + 1) - y) * z + z := by
            intro x y z
            rw [show (x + 1 + 1 + 1 : Int) - (y + 1) = ((x + 1) - y) + 1 by omega, Int.add_mul]
            omega
          push_cast
          rw [this]
          omega
      · rw [if_neg hm]
        have := ih (b :: v) a.c (by simp; omega)
        simp only [List.map_cons, pairCount_cons, List.length_cons] at this ⊢
        rw [this]
        push_cast
        have : ∀ (x y z : Int), ((x + 1 + 1 : Int) - (y + 1)) * z = ((x + 1) - y) * z := by
          intro x y z
          rw [show (x + 1 + 1 : Int) - (y + 1) = ((x + 1) - y) by omega]
        rw [this]
        omega

/-- **C33.** `Word.Merge` succeeds and replaces, scanning left to right, every adjacent
`c1 c2` by the replacement with the sum of their lengths. -/
theorem C33_replaces (c1 c2 r : Int) (ss : List Symbol) :
    ∃ ss' ch, wordMerge c1 c2 r ss = .ok (ss', ch) ∧
      ss'.map (fun s => (s.c, s.len)) = replacePairs c1 c2 r (ss.map fun s => (s.c, s.len)) :=
  ⟨_, _, wordMerge_eq c1 c2 r ss, mergeRest_replace c1 c2 r none ss⟩

theorem replacePairs_sum (c1 c2 r : Int) (l : List (Int × Nat)) :
    ((replacePairs c1 c2 r l).map (·.2)).sum = (l.map (·.2)).sum := by
  fun_induction replacePairs c1 c2 r l with
  | case1 a la b lb v h ih => simp only [List.map_cons, List.sum_cons, ih]; omega
  | case2 a la b lb v h ih => simp only [List.map_cons, List.sum_cons, ih]
  | case3 l hl => rfl

/-- **C33.** The total length in bytes is preserved. -/
theorem C33_length (c1 c2 r : Int) (ss ss' : List Symbol) (ch : List WChange)
    (h : wordMerge c1 c2 r ss = .ok (ss', ch)) :
    (ss'.map (·.len)).sum = (ss.map (·.len)).sum := by
  obtain ⟨s1, ch1, h1, h2⟩ := C33_replaces c1 c2 r ss
  rw [h] at h1
  cases h1
  have := replacePairs_sum c1 c2 r (ss.map fun s => (s.c, s.len))
  rw [← h2, List.map_map, List.map_map] at this
  exact this

/-- **C33, partial.** What the reported changes add up to, exactly: the new count of a pair is
the old count plus the reported changes, less the number of replacements for the merged
pair itself, plus the pair with the third symbol when the word begins with the merged
pair. Missing: that last correction, which the code does not report. -/
theorem C33_changes_partial (c1 c2 r : Int) (ss ss' : List Symbol) (ch : List WChange)
    (h : wordMerge c1 c2 r ss = .ok (ss', ch)) (p : Int × Int) :
    pairCount p (ss'.map (·.c)) = pairCount p (ss.map (·.c)) + reported p ch +
      missingReport c1 c2 r p (ss.map (·.c)) -
      ((ss.length : Int) - (ss'.length : Int)) * same (c1, c2) p := by
  rw [wordMerge_eq] at h
  have h := (Res.ok.inj h).symm
  match ss, h with
  | [], h => cases h; simp [mergeRest, missingReport, reported]
  | [a], h => cases h; simp [mergeRest, missingReport, reported]
  | a :: b :: v, h =>
    unfold mergeRest at h
    by_cases hm : a.c = c1 ∧ b.c = c2
    · rw [if_pos hm] at h
      have := mergeRest_counts c1 c2 r p v.length v r (Nat.le_refl _)
      cases h
      simp only [List.map_cons, List.length_cons, List.nil_append, pairCount_cons]
      rw [this, hm.1, hm.2]
      cases v with
      | nil =>
        simp [mergeRest, missingReport, reported, pairCount]
      | cons n v =>
        simp only [List.map_cons, pairCount_cons, List.length_cons, missingReport, and_self, if_true]
        have : ∀ (x y z : Int), ((x + 1 + 1 + 1 : Int) - (y + 1)) * z = ((x + 1) - y) * z + z := by
          intro x y z
          rw [show (x + 1 + 1 + 1 : Int) - (y + 1) = ((x + 1) - y) + 1 by omega, Int.add_mul]
          omega
        push_cast
        rw [this]
        omega
    · rw [if_neg hm] at h
      have := mergeRest_counts c1 c2 r p (b :: v).length (b :: v) a.c (Nat.le_refl _)
      cases h
      have hz : missingReport c1 c2 r p ((a :: b :: v).map (·.c)) = 0 := by
        cases v with
        | nil => rfl
        | cons n v => simp only [List.map_cons, missingReport, if_neg hm]
      rw [hz]
      simp only [List.map_cons, List.length_cons] at this ⊢
      rw [this]
      push_cast
      have : ∀ (x y z : Int), ((x + 1 + 1 : Int) - (y + 1)) * z = ((x + 1) - y) * z := by
        intro x y z
        rw [show (x + 1 + 1 : Int) - (y + 1) = ((x + 1) - y) by omega]
      rw [this]
      omega

/-- **C33, violated.** For every word that begins with the merged pair and goes on, and every
new replacement id, the count of the pair formed at the front is reported wrongly. -/
theorem C33_changes_violated (c1 c2 r : Int) (a b n : Symbol) (v : List Symbol) (ha : a.c = c1)
    (hb : b.c = c2) (hr1 : r ≠ c1) (hr2 : r ≠ c2) :
    ∃ ss' ch, wordMerge c1 c2 r (a :: b :: n :: v) = .ok (ss', ch) ∧
      pairCount (r, n.c) (ss'.map (·.c)) ≠
        pairCount (r, n.c) ((a :: b :: n :: v).map (·.c)) + reported (r, n.c) ch := by
  refine ⟨_, _, wordMerge_eq c1 c2 r _, ?_⟩
  have := C33_changes_partial c1 c2 r (a :: b :: n :: v) _ _ (wordMerge_eq c1 c2 r _) (r, n.c)
  rw [this]
  have h1 : same (c1, c2) (r, n.c) = 0 := by
    unfold same; rw [if_neg]; intro h; exact hr1 (by simpa using (congrArg Prod.fst h).symm)
  have h2 : missingReport c1 c2 r (r, n.c) ((a :: b :: n :: v).map (·.c)) = 1 := by
    simp only [List.map_cons, missingReport, ha, hb, and_self, if_true, same]
    rw [if_neg]
    · rfl
    · intro h; exact hr2 (by simpa using (congrArg Prod.fst h).symm)
  rw [h1, h2, Int.mul_zero]
  omega

/-- Overlapping occurrences: `x a a a a` becomes `x R R`. -/
example : wordMerge 1 1 9 [⟨5, -1, 1, 1⟩, ⟨1, 0, 2, 1⟩, ⟨1, 1, 3, 1⟩, ⟨1, 2, 4, 1⟩, ⟨1, 3, -1, 1⟩] =
    .ok ([⟨5, -1, 1, 1⟩, ⟨9, 0, 3, 2⟩, ⟨9, 2, -1, 2⟩],
      [⟨5, 1, -1⟩, ⟨5, 9, 1⟩, ⟨1, 1, -1⟩, ⟨9, 1, 1⟩, ⟨9, 1, -1⟩, ⟨9, 9, 1⟩]) := by decide

end Tok
