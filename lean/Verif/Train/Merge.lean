import Verif.Train.Count
import Verif.Train.Spec
import Verif.Bpe.PropsWordMerge

/-! # Merging a pair in the words: lemmas -/

namespace Tok.Train

/-! ### Occurrences -/

theorem occ_append_le (t u w : Str) : occurrences t w ≤ occurrences t (u ++ w) := by
  induction u with
  | nil => exact Nat.le_refl _
  | cons c u ih => simp only [List.cons_append, occurrences]; omega

theorem occ_append_prefix (t u w : Str) (hu : u ≠ []) (h : ∃ v, u ++ w = t ++ v) :
    1 + occurrences t w ≤ occurrences t (u ++ w) := by
  cases u with
  | nil => exact absurd rfl hu
  | cons c u =>
    obtain ⟨v, hv⟩ := h
    have : t.isPrefixOf (c :: (u ++ w)) = true := by
      rw [List.isPrefixOf_iff_prefix]
      exact ⟨v, by rw [← hv]; rfl⟩
    simp only [List.cons_append, occurrences, this, if_true]
    have := occ_append_le t u w
    omega

/-! ### One word -/

/-- The text of a word. -/
def spell (T : Int → Str) (ss : List Symbol) : Str := ss.flatMap fun s => T s.c

@[simp] theorem spell_nil (T : Int → Str) : spell T [] = [] := rfl
@[simp] theorem spell_cons (T : Int → Str) (a : Symbol) (ss : List Symbol) :
    spell T (a :: ss) = T a.c ++ spell T ss := by simp [spell]

/-- The pairs reported as new. -/
def ups (ch : List WChange) : List Pair :=
  ch.filterMap fun w => if w.change > 0 then some (w.c1, w.c2) else none

@[simp] theorem ups_append (x y : List WChange) : ups (x ++ y) = ups x ++ ups y := by
  simp [ups]

@[simp] theorem ups_nil : ups [] = [] := rfl
@[simp] theorem ups_down (a b : Int) (l : List WChange) : ups (⟨a, b, -1⟩ :: l) = ups l := by
  simp [ups]
@[simp] theorem ups_up (a b : Int) (l : List WChange) : ups (⟨a, b, 1⟩ :: l) = (a, b) :: ups l := by
  simp [ups]

/-- The reports at a replacement. -/
def upsAt (r : Int) (prev : Option Int) (v : List Symbol) : List Pair :=
  match prev with
  | none => []
  | some x => (x, r) :: (match v with | [] => [] | n :: _ => [(r, n.c)])

theorem mergeRest_cons (c1 c2 r : Int) (prev : Option Int) (a b : Symbol) (v : List Symbol) :
    mergeRest c1 c2 r prev (a :: b :: v) =
      if a.c = c1 ∧ b.c = c2 then
        (⟨r, a.prev, b.next, a.len + b.len⟩ :: (mergeRest c1 c2 r (some r) v).1,
          ((match prev with
            | some x => [⟨x, a.c, -1⟩, ⟨x, r, 1⟩]
            | none => []) ++
          (match prev, v with
            | some _, n :: _ => [⟨b.c, n.c, -1⟩, ⟨r, n.c, 1⟩]
            | _, _ => [])) ++ (mergeRest c1 c2 r (some r) v).2)
      else
        (a :: (mergeRest c1 c2 r (some a.c) (b :: v)).1, (mergeRest c1 c2 r (some a.c) (b :: v)).2) := by
  conv => lhs; unfold mergeRest
  cases prev <;> cases v <;> rfl

theorem mergeRest_pos {c1 c2 r : Int} {a b : Symbol} (h : a.c = c1 ∧ b.c = c2) (prev : Option Int)
    (v : List Symbol) :
    (mergeRest c1 c2 r prev (a :: b :: v)).1 =
        ⟨r, a.prev, b.next, a.len + b.len⟩ :: (mergeRest c1 c2 r (some r) v).1 ∧
      ups (mergeRest c1 c2 r prev (a :: b :: v)).2 = upsAt r prev v ++ ups (mergeRest c1 c2 r (some r) v).2 := by
  rw [mergeRest_cons, if_pos h]
  refine ⟨rfl, ?_⟩
  cases prev with
  | none => simp [upsAt]
  | some x => cases v with
    | nil => simp [upsAt]
    | cons n v => simp [upsAt]

theorem mergeRest_neg {c1 c2 r : Int} {a b : Symbol} (h : ¬ (a.c = c1 ∧ b.c = c2)) (prev : Option Int)
    (v : List Symbol) :
    (mergeRest c1 c2 r prev (a :: b :: v)).1 = a :: (mergeRest c1 c2 r (some a.c) (b :: v)).1 ∧
      (mergeRest c1 c2 r prev (a :: b :: v)).2 = (mergeRest c1 c2 r (some a.c) (b :: v)).2 := by
  rw [mergeRest_cons, if_neg h]
  exact ⟨rfl, rfl⟩

/-- Induction over the way `mergeRest` goes through a word. -/
theorem mergeRest_ind (c1 c2 : Int) (P : List Symbol → Prop) (h0 : P []) (h1 : ∀ a, P [a])
    (h2 : ∀ a b v, a.c = c1 ∧ b.c = c2 → P v → P (a :: b :: v))
    (h3 : ∀ a b v, ¬ (a.c = c1 ∧ b.c = c2) → P (b :: v) → P (a :: b :: v)) : ∀ ss, P ss := by
  intro ss
  generalize hn : ss.length = n
  induction n using Nat.strongRecOn generalizing ss with
  | ind n ih =>
    match ss, hn with
    | [], _ => exact h0
    | [a], _ => exact h1 a
    | a :: b :: v, hn =>
      simp only [List.length_cons] at hn
      by_cases h : a.c = c1 ∧ b.c = c2
      · exact h2 a b v h (ih v.length (by omega) v rfl)
      · exact h3 a b v h (ih (b :: v).length (by simp; omega) (b :: v) rfl)

theorem mergeRest_spell (c1 c2 r : Int) (T : Int → Str) (hT : T r = T c1 ++ T c2) (ss : List Symbol) :
    ∀ prev, spell T (mergeRest c1 c2 r prev ss).1 = spell T ss := by
  induction ss using mergeRest_ind c1 c2 with
  | h0 => intro prev; rfl
  | h1 a => intro prev; rfl
  | h2 a b v h ih =>
    intro prev
    rw [(mergeRest_pos h prev v).1, spell_cons, ih]
    simp only [spell_cons, hT, h.1, h.2, List.append_assoc]
  | h3 a b v h ih =>
    intro prev
    rw [(mergeRest_neg h prev v).1, spell_cons, ih]
    simp only [spell_cons]

theorem mergeRest_mem (c1 c2 r : Int) (ss : List Symbol) :
    ∀ prev, ∀ s ∈ (mergeRest c1 c2 r prev ss).1,
      s ∈ ss ∨ s.c = r ∧ ∃ a ∈ ss, ∃ b ∈ ss, a.c = c1 ∧ b.c = c2 ∧ s.len = a.len + b.len := by
  induction ss using mergeRest_ind c1 c2 with
  | h0 => intro prev s hs; exact Or.inl hs
  | h1 a => intro prev s hs; exact Or.inl hs
  | h2 a b v h ih =>
    intro prev s hs
    rw [(mergeRest_pos h prev v).1, List.mem_cons] at hs
    rcases hs with rfl | hs
    · exact Or.inr ⟨rfl, a, by simp, b, by simp, h.1, h.2, rfl⟩
    · rcases ih _ s hs with h' | ⟨h1, x, h2, y, h3, h4⟩
      · exact Or.inl (by simp [h'])
      · exact Or.inr ⟨h1, x, by simp [h2], y, by simp [h3], h4⟩
  | h3 a b v h ih =>
    intro prev s hs
    rw [(mergeRest_neg h prev v).1, List.mem_cons] at hs
    rcases hs with rfl | hs
    · exact Or.inl (by simp)
    · rcases ih _ s hs with h' | ⟨h1, x, h2, y, h3, h4⟩
      · exact Or.inl (List.mem_cons_of_mem _ h')
      · exact Or.inr ⟨h1, x, List.mem_cons_of_mem _ h2, y, List.mem_cons_of_mem _ h3, h4⟩

theorem mergeRest_length (c1 c2 r : Int) (ss : List Symbol) :
    ∀ prev, (mergeRest c1 c2 r prev ss).1.length ≤ ss.length ∧
      (hasPair c1 c2 ss = true → (mergeRest c1 c2 r prev ss).1.length < ss.length) := by
  induction ss using mergeRest_ind c1 c2 with
  | h0 => intro prev; exact ⟨Nat.le_refl _, fun h => by simp [hasPair] at h⟩
  | h1 a => intro prev; exact ⟨Nat.le_refl _, fun h => by simp [hasPair] at h⟩
  | h2 a b v h ih =>
    intro prev
    rw [(mergeRest_pos h prev v).1]
    have := (ih (some r)).1
    simp only [List.length_cons]
    exact ⟨by omega, fun _ => by omega⟩
  | h3 a b v h ih =>
    intro prev
    rw [(mergeRest_neg h prev v).1]
    obtain ⟨i1, i2⟩ := ih (some a.c)
    simp only [List.length_cons] at i1 i2 ⊢
    refine ⟨by omega, fun hp => ?_⟩
    have : hasPair c1 c2 (b :: v) = true := by
      simpa [hasPair, h] using hp
    have := i2 this
    omega

/-- Where the reported pairs come from. -/
theorem mergeRest_ups (c1 c2 r : Int) (ss : List Symbol) :
    ∀ prev, ∀ p ∈ ups (mergeRest c1 c2 r prev ss).2,
      (p.1 = r ∨ p.2 = r) ∧ (p.1 = r ∨ prev = some p.1 ∨ p.1 ∈ ss.map (·.c)) ∧
        (p.2 = r ∨ p.2 ∈ ss.map (·.c)) := by
  induction ss using mergeRest_ind c1 c2 with
  | h0 => intro prev p hp; simp [mergeRest] at hp
  | h1 a => intro prev p hp; simp [mergeRest] at hp
  | h2 a b v h ih =>
    intro prev p hp
    rw [(mergeRest_pos h prev v).2, List.mem_append] at hp
    rcases hp with hp | hp
    · cases prev with
      | none => cases hp
      | some x =>
        cases v with
        | nil =>
          simp only [upsAt, List.mem_singleton] at hp
          subst hp
          exact ⟨Or.inr rfl, Or.inr (Or.inl rfl), Or.inl rfl⟩
        | cons n v =>
          simp only [upsAt, List.mem_cons, List.not_mem_nil, or_false] at hp
          rcases hp with rfl | rfl
          · exact ⟨Or.inr rfl, Or.inr (Or.inl rfl), Or.inl rfl⟩
          · exact ⟨Or.inl rfl, Or.inl rfl, Or.inr (by simp)⟩
    · obtain ⟨h1, h2, h3⟩ := ih _ p hp
      refine ⟨h1, ?_, ?_⟩
      · rcases h2 with h2 | h2 | h2
        · exact Or.inl h2
        · exact Or.inl (Option.some.inj h2).symm
        · exact Or.inr (Or.inr (by simp [h2]))
      · rcases h3 with h3 | h3
        · exact Or.inl h3
        · exact Or.inr (by simp [h3])
  | h3 a b v h ih =>
    intro prev p hp
    rw [(mergeRest_neg h prev v).2] at hp
    obtain ⟨h1, h2, h3⟩ := ih _ p hp
    refine ⟨h1, ?_, ?_⟩
    · rcases h2 with h2 | h2 | h2
      · exact Or.inl h2
      · exact Or.inr (Or.inr (by simp [(Option.some.inj h2).symm]))
      · exact Or.inr (Or.inr (List.mem_cons_of_mem _ h2))
    · rcases h3 with h3 | h3
      · exact Or.inl h3
      · exact Or.inr (List.mem_cons_of_mem _ h3)

theorem upsAt_count (r x : Int) (p : Pair) (v : List Symbol) (hv : ∀ s ∈ v, s.c ≠ r) :
    (p.2 ≠ r → (upsAt r (some x) v).count p = match v with
      | [] => 0
      | n :: _ => if p = (r, n.c) then 1 else 0) ∧
    (p.2 = r → (upsAt r (some x) v).count p = if p = (x, r) then 1 else 0) := by
  have key : ∀ q : Pair, (if (q == p) = true then 1 else 0) = if p = q then 1 else 0 := by
    intro q
    by_cases h : p = q
    · subst h; simp
    · rw [if_neg h, if_neg]; simpa using fun h' => h h'.symm
  refine ⟨?_, ?_⟩
  · intro h
    have hx : ¬ p = (x, r) := by rintro rfl; exact h rfl
    cases v with
    | nil => simp only [upsAt, List.count_cons, List.count_nil, key, if_neg hx]
    | cons n v => simp only [upsAt, List.count_cons, List.count_nil, key, if_neg hx]; omega
  · intro h
    cases v with
    | nil => simp only [upsAt, List.count_cons, List.count_nil, key]; omega
    | cons n v =>
      have : ¬ p = (r, n.c) := by
        rintro rfl
        exact hv n (by simp) h
      simp only [upsAt, List.count_cons, List.count_nil, key, if_neg this]
      omega

/-- The reports of a pair are at places where its text occurs. -/
theorem ups_occ (c1 c2 r : Int) (T : Int → Str) (hT : T r = T c1 ++ T c2) (p : Pair) (ss : List Symbol) :
    (∀ s ∈ ss, s.c ≠ r ∧ T s.c ≠ []) → ∀ x : Int,
      (p.2 ≠ r → (ups (mergeRest c1 c2 r (some x) ss).2).count p ≤
        occurrences (T p.1 ++ T p.2) (spell T ss)) ∧
      (p.2 = r → T x ≠ [] → (ups (mergeRest c1 c2 r (some x) ss).2).count p ≤
        occurrences (T p.1 ++ T p.2) (T x ++ spell T ss)) := by
  induction ss using mergeRest_ind c1 c2 with
  | h0 => intro _ x; simp [mergeRest]
  | h1 a => intro _ x; simp [mergeRest]
  | h2 a b v h ih =>
    intro hs x
    have hv : ∀ s ∈ v, s.c ≠ r ∧ T s.c ≠ [] := fun s hs' => hs s (by simp [hs'])
    obtain ⟨i1, i2⟩ := ih hv r
    obtain ⟨u1, u2⟩ := upsAt_count r x p v (fun s hs' => (hv s hs').1)
    have hr : T r ≠ [] := by
      rw [hT, ← h.1]
      intro hc
      exact (hs a (by simp)).2 (List.append_eq_nil_iff.1 hc).1
    have hsp : spell T (a :: b :: v) = T r ++ spell T v := by
      simp only [spell_cons, hT, h.1, h.2, List.append_assoc]
    rw [(mergeRest_pos h (some x) v).2, List.count_append, hsp]
    refine ⟨?_, ?_⟩
    · intro hp
      rw [u1 hp]
      have i1 := i1 hp
      cases v with
      | nil => have := occ_append_le (T p.1 ++ T p.2) (T r) (spell T []); simp only at this ⊢; omega
      | cons n v =>
        simp only
        by_cases hn : p = (r, n.c)
        · rw [if_pos hn]
          have := occ_append_prefix (T p.1 ++ T p.2) (T r) (spell T (n :: v)) hr
            ⟨spell T v, by rw [hn]; simp⟩
          omega
        · rw [if_neg hn]
          have := occ_append_le (T p.1 ++ T p.2) (T r) (spell T (n :: v))
          omega
    · intro hp hx
      rw [u2 hp]
      have i2 := i2 hp hr
      by_cases hn : p = (x, r)
      · rw [if_pos hn]
        have := occ_append_prefix (T p.1 ++ T p.2) (T x) (T r ++ spell T v) hx
          ⟨spell T v, by rw [hn]; simp⟩
        omega
      · rw [if_neg hn]
        have := occ_append_le (T p.1 ++ T p.2) (T x) (T r ++ spell T v)
        omega
  | h3 a b v h ih =>
    intro hs x
    obtain ⟨i1, i2⟩ := ih (fun s hs' => hs s (List.mem_cons_of_mem _ hs')) a.c
    rw [(mergeRest_neg h (some x) v).2]
    refine ⟨?_, ?_⟩
    · intro hp
      have := i1 hp
      have := occ_append_le (T p.1 ++ T p.2) (T a.c) (spell T (b :: v))
      rw [spell_cons]
      omega
    · intro hp _
      have := i2 hp (hs a (by simp)).2
      have := occ_append_le (T p.1 ++ T p.2) (T x) (spell T (a :: b :: v))
      rw [← spell_cons T a] at *
      omega

theorem ups_occ_none (c1 c2 r : Int) (T : Int → Str) (hT : T r = T c1 ++ T c2) (p : Pair)
    (ss : List Symbol) (hs : ∀ s ∈ ss, s.c ≠ r ∧ T s.c ≠ []) :
    (ups (mergeRest c1 c2 r none ss).2).count p ≤ occurrences (T p.1 ++ T p.2) (spell T ss) := by
  match ss, hs with
  | [], _ => simp [mergeRest]
  | [a], _ => simp [mergeRest]
  | a :: b :: v, hs =>
    by_cases h : a.c = c1 ∧ b.c = c2
    · rw [(mergeRest_pos h none v).2]
      obtain ⟨i1, i2⟩ := ups_occ c1 c2 r T hT p v (fun s hs' => hs s (by simp [hs'])) r
      have hr : T r ≠ [] := by
        rw [hT, ← h.1]
        intro hc
        exact (hs a (by simp)).2 (List.append_eq_nil_iff.1 hc).1
      have hsp : spell T (a :: b :: v) = T r ++ spell T v := by
        simp only [spell_cons, hT, h.1, h.2, List.append_assoc]
      rw [hsp]
      simp only [upsAt, List.nil_append]
      by_cases hp : p.2 = r
      · exact i2 hp hr
      · have := i1 hp
        have := occ_append_le (T p.1 ++ T p.2) (T r) (spell T v)
        omega
    · rw [(mergeRest_neg h none v).2]
      obtain ⟨i1, i2⟩ := ups_occ c1 c2 r T hT p (b :: v)
        (fun s hs' => hs s (List.mem_cons_of_mem _ hs')) a.c
      rw [spell_cons T a]
      by_cases hp : p.2 = r
      · exact i2 hp (hs a (by simp)).2
      · have := i1 hp
        have := occ_append_le (T p.1 ++ T p.2) (T a.c) (spell T (b :: v))
        omega

/-- The pairs a worker sees in a word are at places where their text occurs. -/
theorem windows_occ (T : Int → Str) (p : Pair) (i n : Nat) (ss : List Symbol)
    (hs : ∀ s ∈ ss, T s.c ≠ []) :
    (windows i n ss).count p ≤ occurrences (T p.1 ++ T p.2) (spell T ss) := by
  induction ss with
  | nil => simp [windows]
  | cons a ss ih =>
    cases ss with
    | nil => simp [windows]
    | cons b v =>
      have ih := ih (fun s h => hs s (List.mem_cons_of_mem _ h))
      simp only [windows]
      split
      · rw [List.count_cons, spell_cons]
        by_cases h : (a.c, b.c) = p
        · have := occ_append_prefix (T p.1 ++ T p.2) (T a.c) (spell T (b :: v)) (hs a (by simp))
            ⟨spell T v, by rw [← h]; simp⟩
          rw [if_pos (by simpa using h)]
          omega
        · have := occ_append_le (T p.1 ++ T p.2) (T a.c) (spell T (b :: v))
          rw [if_neg (by simpa using h)]
          omega
      · simp

/-! ### The changes -/

theorem changes_small (c1 c2 r : Int) (ss : List Symbol) : ∀ prev,
    ∀ w ∈ (mergeRest c1 c2 r prev ss).2, w.change = 1 ∨ w.change = -1 := by
  induction ss using mergeRest_ind c1 c2 with
  | h0 => intro prev w hw; simp [mergeRest] at hw
  | h1 a => intro prev w hw; simp [mergeRest] at hw
  | h2 a b v h ih =>
    intro prev w hw
    rw [mergeRest_cons, if_pos h] at hw
    simp only [List.mem_append] at hw
    rcases hw with (hw | hw) | hw
    · cases prev with
      | none => cases hw
      | some x =>
        simp only [List.mem_cons, List.not_mem_nil, or_false] at hw
        rcases hw with rfl | rfl <;> simp
    · cases prev with
      | none => simp at hw
      | some x =>
        cases v with
        | nil => simp at hw
        | cons n v =>
          simp only [List.mem_cons, List.not_mem_nil, or_false] at hw
          rcases hw with rfl | rfl <;> simp
    · exact ih _ w hw
  | h3 a b v h ih =>
    intro prev w hw
    rw [(mergeRest_neg h prev v).2] at hw
    exact ih _ w hw

theorem enterChange_eq (counts : List Int) (r : Counts) (w : WChange) (k : Nat) (hk : k < counts.length)
    (hw : w.change = 1 ∨ w.change = -1) :
    enterChange counts r (w, k) =
      .ok (if w.change > 0 then countPair (countAt counts k) k r (w.c1, w.c2) else r) := by
  unfold enterChange
  rcases hw with hw | hw
  · simp only [hw, List.getElem?_eq_getElem hk, countPair, countAt]
    simp [Int.add_comm]
  · simp [hw]

theorem enterWord (counts : List Int) (k : Nat) (hk : k < counts.length) (ch : List WChange)
    (rest : List (WChange × Nat)) : ∀ (r : Counts), (∀ w ∈ ch, w.change = 1 ∨ w.change = -1) →
    enterChanges counts (ch.map (fun x => (x, k)) ++ rest) r =
      enterChanges counts rest ((ups ch).foldl (countPair (countAt counts k) k) r) := by
  induction ch with
  | nil => intro r _; rfl
  | cons w ch ih =>
    intro r h
    simp only [List.map_cons, List.cons_append, enterChanges]
    rw [enterChange_eq counts r w k hk (h w (by simp)), Res.bind_ok, ih _ (fun x hx => h x (by simp [hx]))]
    rcases h w (by simp) with hw | hw
    · simp [ups, hw]
    · simp [ups, hw]

/-- How often a pair is reported as new in word `k`. -/
def newIn (c1 c2 r : Int) (words : List (List Symbol)) (k : Nat) (p : Pair) : Nat :=
  (ups (mergeRest c1 c2 r none (wordAt words k)).2).count p

/-- The changes of the words in the given order. -/
def changesOf (c1 c2 r : Int) (words : List (List Symbol)) (order : List Nat) : List (WChange × Nat) :=
  order.flatMap fun k => (mergeRest c1 c2 r none (wordAt words k)).2.map fun x => (x, k)

theorem enterChanges_spec (c1 c2 r : Int) (words : List (List Symbol)) (counts : List Int)
    (pc0 : List (Pair × Int)) (order : List Nat) : ∀ {rc : Counts} {f : Pair → Int} {S : Pair → Nat → Prop},
    (∀ k ∈ order, k < counts.length) → CountsFrom pc0 rc f S →
    ∃ r', enterChanges counts (changesOf c1 c2 r words order) rc = .ok r' ∧
      CountsFrom pc0 r'
        (fun p => f p + (order.map fun k => countAt counts k * (newIn c1 c2 r words k p : Nat)).sum)
        (fun p k => S p k ∨ (k ∈ order ∧ 0 < newIn c1 c2 r words k p)) := by
  induction order with
  | nil =>
    intro rc f S _ h
    exact ⟨rc, rfl, h.congr (by simp) (by simp)⟩
  | cons k order ih =>
    intro rc f S hb h
    have e : changesOf c1 c2 r words (k :: order) =
      (mergeRest c1 c2 r none (wordAt words k)).2.map (fun x => (x, k)) ++ changesOf c1 c2 r words order := by
      simp [changesOf]
    rw [e, enterWord counts k (hb k (by simp)) _ _ _ (changes_small c1 c2 r _ none)]
    obtain ⟨r', h1, h2⟩ := ih (fun x hx => hb x (by simp [hx]))
      (CountsFrom.countPairs pc0 (countAt counts k) k (ups (mergeRest c1 c2 r none (wordAt words k)).2) h)
    refine ⟨r', h1, h2.congr ?_ ?_⟩
    · intro p
      rw [List.map_cons, List.sum_cons]
      unfold newIn
      omega
    · intro p j
      constructor
      · rintro ((h | ⟨h, rfl⟩) | ⟨h, h'⟩)
        · exact Or.inl h
        · exact Or.inr ⟨by simp, List.count_pos_iff.2 h⟩
        · exact Or.inr ⟨by simp [h], h'⟩
      · rintro (h | ⟨h, h'⟩)
        · exact Or.inl (Or.inl h)
        · rcases List.mem_cons.1 h with rfl | h
          · exact Or.inl (Or.inr ⟨List.count_pos_iff.1 h', rfl⟩)
          · exact Or.inr ⟨h, h'⟩

/-! ### The words -/

theorem mergeWords_spec (c1 c2 r : Int) (order : List Nat) : ∀ (words : List (List Symbol))
    (ch : List (WChange × Nat)), order.Nodup → (∀ k ∈ order, k < words.length) →
    ∃ words', mergeWords c1 c2 r order words ch = .ok (words', ch ++ changesOf c1 c2 r words order) ∧
      words'.length = words.length ∧
      ∀ k, wordAt words' k = if k ∈ order then (mergeRest c1 c2 r none (wordAt words k)).1 else wordAt words k := by
  induction order with
  | nil => intro words ch _ _; exact ⟨words, by simp [mergeWords, changesOf], rfl, by simp⟩
  | cons i order ih =>
    intro words ch hn hb
    have hi : i < words.length := hb i (by simp)
    have hw : wordAt words i = words[i] := by simp [wordAt, hi]
    simp only [List.nodup_cons] at hn
    have hset : ∀ k, wordAt (words.set i (mergeRest c1 c2 r none words[i]).1) k =
        if k = i then (mergeRest c1 c2 r none words[i]).1 else wordAt words k := by
      intro k
      unfold wordAt
      by_cases hk : k = i
      · subst hk; simp [hi]
      · rw [List.getElem?_set_ne (fun h => hk h.symm), if_neg hk]
    obtain ⟨words', h1, h2, h3⟩ := ih (words.set i (mergeRest c1 c2 r none words[i]).1)
      (ch ++ (mergeRest c1 c2 r none words[i]).2.map fun x => (x, i)) hn.2
      (fun k hk => by rw [List.length_set]; exact hb k (by simp [hk]))
    refine ⟨words', ?_, by rw [h2, List.length_set], ?_⟩
    · simp only [mergeWords, List.getElem?_eq_getElem hi, wordMerge_eq, Res.bind_ok]
      rw [h1]
      have : changesOf c1 c2 r (words.set i (mergeRest c1 c2 r none words[i]).1) order =
          changesOf c1 c2 r words order := by
        unfold changesOf
        rw [List.flatMap_def, List.flatMap_def]
        congr 1
        apply List.map_congr_left
        intro k hk
        rw [hset, if_neg]
        rintro rfl; exact hn.1 hk
      rw [this]
      simp [changesOf, hw]
    · intro k
      rw [h3, hset]
      by_cases hk : k = i
      · subst hk
        simp [hn.1, hw]
      · simp [hk]

end Tok.Train
