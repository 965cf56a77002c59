import Verif.Vocab.Split

/-!
# C17, C18: splitting on added tokens
-/

namespace Tok

/-! ### Specification -/

/-- The pieces cover `[a, b]` in order without holes or overlaps. -/
def TilesFrom (a b : Nat) : List SplitPiece → Prop
  | [] => a = b
  | p :: ps => p.start = a ∧ p.start ≤ p.stop ∧ TilesFrom p.stop b ps

/-- What a regular expression engine may report for a text of `len` bytes:
spans inside the text, for existing patterns. -/
def MatchesFit (ids : List Int) (len : Nat) (ms : List PatMatch) : Prop :=
  ∀ m ∈ ms, m.start ≤ m.stop ∧ m.stop ≤ len ∧ m.pat < ids.length

/-- `sel` is the leftmost selection from `ms`: matches of `ms`, one after the
other without overlap, and every match left out overlaps a selected one that
starts no later, and is of a pattern registered no later when both start at
the same place. -/
def LeftmostSelection (ms sel : List PatMatch) : Prop :=
  (∀ m ∈ sel, m ∈ ms) ∧ sel.Pairwise (fun a b => a.stop ≤ b.start) ∧
  ∀ m ∈ ms, m ∉ sel → ∃ s ∈ sel, s.start ≤ m.start ∧ m.start < s.stop ∧
    (s.start = m.start → s.pat ≤ m.pat)

/-! ### Lemmas -/

theorem idx_lt {l : List α} {i : Nat} (h : i < l.length) : idx l (i : Int) = .ok l[i] := by
  unfold idx
  rw [if_neg (by omega)]
  simp [h]

theorem selectMatches_sub (ms : List PatMatch) : ∀ cur, ∀ m ∈ selectMatches cur ms, m ∈ ms := by
  induction ms with
  | nil => intro cur m h; cases h
  | cons a ms ih =>
    intro cur m h
    unfold selectMatches at h
    split at h
    · simp [ih _ _ h]
    · rcases List.mem_cons.1 h with rfl | h
      · simp
      · simp [ih _ _ h]

theorem selectMatches_chain (ms : List PatMatch) (hms : ∀ m ∈ ms, m.start ≤ m.stop) : ∀ cur,
    (∀ m ∈ selectMatches cur ms, cur ≤ m.start) ∧
    (selectMatches cur ms).Pairwise (fun a b => a.stop ≤ b.start) := by
  induction ms with
  | nil => intro cur; simp [selectMatches]
  | cons a ms ih =>
    have ha := hms a (by simp)
    have ih := ih (fun m hm => hms m (by simp [hm]))
    intro cur
    unfold selectMatches
    split
    · exact ih cur
    · next hc =>
      refine ⟨?_, ?_⟩
      · intro m hm
        rcases List.mem_cons.1 hm with rfl | hm
        · omega
        · have := (ih a.stop).1 m hm; omega
      · rw [List.pairwise_cons]
        exact ⟨(ih a.stop).1, (ih a.stop).2⟩

theorem fillGaps_ok (ids : List Int) (len : Nat) (ms : List PatMatch) : ∀ start,
    MatchesFit ids len ms → start ≤ len → (∀ m ∈ ms, start ≤ m.start) →
    ms.Pairwise (fun a b => a.stop ≤ b.start) →
    ∃ ps, fillGaps ids len start ms = .ok ps ∧ TilesFrom start len ps ∧
      (∀ p ∈ ps, (p.id = -1 ∧ p.start < p.stop) ∨
        ∃ m ∈ ms, ∃ h : m.pat < ids.length, p = ⟨ids[m.pat], m.start, m.stop⟩) ∧
      (∀ m ∈ ms, ∀ h : m.pat < ids.length, (⟨ids[m.pat], m.start, m.stop⟩ : SplitPiece) ∈ ps) ∧
      ps ≠ [] ∨ (start = len ∧ ms = []) ∧ fillGaps ids len start ms = .ok [] := by
  induction ms with
  | nil =>
    intro start _ hs _ _
    by_cases e : start = len
    · exact ⟨[], Or.inr ⟨⟨e, rfl⟩, by simp [fillGaps, e]⟩⟩
    · refine ⟨[⟨-1, start, len⟩], Or.inl ⟨by simp [fillGaps, e], ⟨rfl, hs, rfl⟩, ?_, by simp, by simp⟩⟩
      intro p hp
      simp only [List.mem_singleton] at hp
      subst hp
      left
      exact ⟨rfl, by show start < len; omega⟩
  | cons m ms ih =>
    intro start hf hs hlo hp
    obtain ⟨h1, h2, h3⟩ := hf m (by simp)
    rw [List.pairwise_cons] at hp
    have hlo' := hlo m (by simp)
    obtain ⟨ps, hps⟩ := ih m.stop (fun x hx => hf x (by simp [hx])) h2 hp.1 hp.2
    have key : ∀ ps, fillGaps ids len m.stop ms = .ok ps → TilesFrom m.stop len ps →
      (∀ p ∈ ps, (p.id = -1 ∧ p.start < p.stop) ∨
        ∃ m ∈ ms, ∃ h : m.pat < ids.length, p = ⟨ids[m.pat], m.start, m.stop⟩) →
      (∀ m ∈ ms, ∀ h : m.pat < ids.length, (⟨ids[m.pat], m.start, m.stop⟩ : SplitPiece) ∈ ps) →
      ∃ qs, fillGaps ids len start (m :: ms) = .ok qs ∧ TilesFrom start len qs ∧
      (∀ p ∈ qs, (p.id = -1 ∧ p.start < p.stop) ∨
        ∃ m' ∈ m :: ms, ∃ h : m'.pat < ids.length, p = ⟨ids[m'.pat], m'.start, m'.stop⟩) ∧
      (∀ m' ∈ m :: ms, ∀ h : m'.pat < ids.length,
        (⟨ids[m'.pat], m'.start, m'.stop⟩ : SplitPiece) ∈ qs) ∧ qs ≠ [] := by
      intro ps e ht ha hb
      refine ⟨_, by unfold fillGaps; rw [idx_lt h3, e]; rfl, ?_, ?_, ?_, ?_⟩
      · split
        · exact ⟨rfl, by show start ≤ m.start; omega, rfl, h1, ht⟩
        · next hc => exact ⟨by show m.start = start; omega, h1, ht⟩
      · intro p hp
        rw [List.append_assoc, List.mem_append, List.mem_append] at hp
        rcases hp with hp | hp | hp
        · split at hp
          · next hc =>
            simp only [List.mem_singleton] at hp; subst hp; left; exact ⟨rfl, hc⟩
          · cases hp
        · simp only [List.mem_singleton] at hp; subst hp
          right; exact ⟨m, by simp, h3, rfl⟩
        · rcases ha p hp with h | ⟨m', hm', h⟩
          · exact Or.inl h
          · exact Or.inr ⟨m', by simp [hm'], h⟩
      · intro m' hm' hlt
        rw [List.mem_append, List.mem_append]
        rcases List.mem_cons.1 hm' with rfl | hm'
        · left; right; simp
        · right; exact hb m' hm' hlt
      · simp
    rcases hps with ⟨e, ht, ha, hb, _⟩ | ⟨⟨e1, e2⟩, e3⟩
    · obtain ⟨qs, h⟩ := key ps e ht ha hb
      exact ⟨qs, Or.inl h⟩
    · subst e2
      obtain ⟨qs, h⟩ := key [] e3 e1 (by simp) (by simp)
      exact ⟨qs, Or.inl h⟩

/-! ### C17 -/

/-- C17: for every text length and every list of matches, in whatever order the
sorts leave them, splitting succeeds; the pieces tile the text from 0 to its
end; every piece is a non-empty stretch without an id or a reported match
carrying its token's id; only the empty text has an empty piece without id. -/
theorem C17_split_covers (ids : List Int) (len : Nat) (ms : List PatMatch)
    (h : MatchesFit ids len ms) :
    ∃ ps, findMatches ids len ms = .ok ps ∧ TilesFrom 0 len ps ∧ ps ≠ [] ∧
      ∀ p ∈ ps, (p.id = -1 ∧ (p.start < p.stop ∨ len = 0)) ∨
        ∃ m ∈ ms, ids[m.pat]? = some p.id ∧ p.start = m.start ∧ p.stop = m.stop := by
  unfold findMatches
  split
  · next h0 =>
    subst h0
    exact ⟨_, rfl, ⟨rfl, Nat.le_refl _, rfl⟩, by simp, by simp⟩
  · next h0 =>
    have hsub := selectMatches_sub ms 0
    have hch := selectMatches_chain ms (fun m hm => (h m hm).1) 0
    obtain ⟨ps, hps⟩ := fillGaps_ok ids len (selectMatches 0 ms) 0 (fun m hm => h m (hsub m hm))
      (by omega) hch.1 hch.2
    rcases hps with ⟨e, ht, ha, hb, hne⟩ | ⟨⟨e1, _⟩, _⟩
    · refine ⟨ps, e, ht, hne, ?_⟩
      intro p hp
      rcases ha p hp with h1 | ⟨m, hm, hlt, rfl⟩
      · exact Or.inl ⟨h1.1, Or.inl h1.2⟩
      · exact Or.inr ⟨m, hsub m hm, by simp [hlt], rfl, rfl⟩
    · omega

/-- Non-vacuity: three overlapping matches of two tokens. -/
example : MatchesFit [7, 8] 10 [⟨0, 2, 4⟩, ⟨0, 6, 8⟩, ⟨1, 3, 7⟩] ∧
    findMatches [7, 8] 10 [⟨0, 2, 4⟩, ⟨0, 6, 8⟩, ⟨1, 3, 7⟩] =
      .ok [⟨-1, 0, 2⟩, ⟨7, 2, 4⟩, ⟨-1, 4, 6⟩, ⟨7, 6, 8⟩, ⟨-1, 8, 10⟩] := by
  constructor
  · unfold MatchesFit; decide
  · rfl

/-! ### C18 -/

/-- C18 is violated whenever a token registered first occurs after a token
registered later: everything to the left of the first-listed match `m` is left
unsplit, so no other token to its left is found. -/
theorem C18_leftmost_violated (ids : List Int) (len : Nat) (m : PatMatch) (ms : List PatMatch)
    (h : MatchesFit ids len (m :: ms)) (h0 : 0 < m.start) :
    ∃ ps, findMatches ids len (m :: ms) = .ok (⟨-1, 0, m.start⟩ :: ps) ∧
      ∀ p ∈ ps, m.start ≤ p.start := by
  have hm := h m (by simp)
  obtain ⟨ps, e, ht, _, _⟩ := C17_split_covers ids len (m :: ms) h
  unfold findMatches at e ⊢
  have hlen : len ≠ 0 := by omega
  rw [if_neg hlen] at e ⊢
  unfold selectMatches at e ⊢
  rw [if_neg (by omega)] at e ⊢
  unfold fillGaps at e ⊢
  rw [idx_lt hm.2.2] at e ⊢
  simp only [Res.bind_ok] at e ⊢
  cases hr : fillGaps ids len m.stop (selectMatches m.stop ms) with
  | err => rw [hr] at e; cases e
  | panic => rw [hr] at e; cases e
  | ok rest =>
    rw [hr] at e
    simp only [Res.bind_ok, Res.pure_eq, if_pos h0] at e ⊢
    refine ⟨_, rfl, ?_⟩
    cases e
    have ht' : TilesFrom m.stop len rest := ht.2.2.2.2
    have mono : ∀ (l : List SplitPiece) (a b : Nat), TilesFrom a b l → ∀ p ∈ l, a ≤ p.start := by
      intro l
      induction l with
      | nil => intro a b _ p hp; cases hp
      | cons q l ih =>
        intro a b hq p hp
        rcases List.mem_cons.1 hp with rfl | hp
        · exact Nat.le_of_eq hq.1.symm
        · have := ih _ _ hq.2.2 p hp
          have h1 := hq.1
          have h2 := hq.2.1
          omega
    intro p hp
    rcases List.mem_cons.1 hp with rfl | hp
    · exact Nat.le_refl _
    · have := mono rest _ _ ht' p hp
      omega

/-- The violation in the terms of the property: with the token of pattern 0 at
[4,6] and the token of pattern 1 at [0,2], which do not overlap, the second one
is not found, and the result is not the leftmost selection. -/
theorem C18_example_violated :
    SortedById [⟨0, 4, 6⟩, ⟨1, 0, 2⟩] ∧
    findMatches [7, 8] 6 [⟨0, 4, 6⟩, ⟨1, 0, 2⟩] = .ok [⟨-1, 0, 4⟩, ⟨7, 4, 6⟩] ∧
    ¬ LeftmostSelection [⟨0, 4, 6⟩, ⟨1, 0, 2⟩] (selectMatches 0 [⟨0, 4, 6⟩, ⟨1, 0, 2⟩]) := by
  refine ⟨by unfold SortedById; decide, rfl, ?_⟩
  rintro ⟨_, _, h⟩
  obtain ⟨s, hs, h1, _⟩ := h ⟨1, 0, 2⟩ (by decide) (by decide)
  have : s = ⟨0, 4, 6⟩ := by
    simp only [selectMatches] at hs
    simpa using hs
  subst this
  exact absurd h1 (by decide)

theorem selectMatches_leftmost (ms : List PatMatch) (hms : ∀ m ∈ ms, m.start ≤ m.stop)
    (hb : SortedById ms) (hs : ms.Pairwise (fun a b => a.start ≤ b.start)) : ∀ cur,
    ∀ m ∈ ms, m ∉ selectMatches cur ms →
      m.start < cur ∨ ∃ s ∈ selectMatches cur ms, s.start ≤ m.start ∧ m.start < s.stop ∧
        (s.start = m.start → s.pat ≤ m.pat) := by
  induction ms with
  | nil => intro cur m hm; cases hm
  | cons a ms ih =>
    intro cur m hm hn
    rw [List.pairwise_cons] at hs
    unfold SortedById at hb
    rw [List.pairwise_cons] at hb
    have ih := ih (fun m hm => hms m (by simp [hm])) hb.2 hs.2
    unfold selectMatches at hn ⊢
    split at hn
    · next hc =>
      rw [if_pos hc]
      rcases List.mem_cons.1 hm with rfl | hm
      · exact Or.inl hc
      · exact ih cur m hm hn
    · next hc =>
      rw [if_neg hc]
      simp only [List.mem_cons, not_or] at hn
      rcases List.mem_cons.1 hm with rfl | hm
      · exact absurd rfl hn.1
      · rcases ih a.stop m hm hn.2 with h | ⟨s, hs', h⟩
        · exact Or.inr ⟨a, by simp, hs.1 m hm, h, fun _ => hb.1 m hm⟩
        · exact Or.inr ⟨s, by simp [hs'], h⟩

/-- C18, the part that holds: when the order by registration is also the order
by position (in particular with one token), the pieces carrying ids are exactly
the leftmost selection of the matches, taken in order.
Missing from the full property: any other order of the matches. -/
theorem C18_leftmost_partial (ids : List Int) (len : Nat) (ms : List PatMatch)
    (h : MatchesFit ids len ms) (hlen : 0 < len) (hb : SortedById ms)
    (hs : ms.Pairwise (fun a b => a.start ≤ b.start)) :
    ∃ ps sel, findMatches ids len ms = .ok ps ∧ LeftmostSelection ms sel ∧
      (∀ p : SplitPiece, p.id ≠ -1 → (p ∈ ps ↔
        ∃ m ∈ sel, ids[m.pat]? = some p.id ∧ p.start = m.start ∧ p.stop = m.stop)) := by
  have hsub := selectMatches_sub ms 0
  have hch := selectMatches_chain ms (fun m hm => (h m hm).1) 0
  unfold findMatches
  rw [if_neg (by omega)]
  obtain ⟨ps, hps⟩ := fillGaps_ok ids len (selectMatches 0 ms) 0 (fun m hm => h m (hsub m hm))
      (by omega) hch.1 hch.2
  rcases hps with ⟨e, ht, ha, hin, hne⟩ | ⟨⟨e1, _⟩, _⟩
  · refine ⟨ps, selectMatches 0 ms, e, ⟨hsub, hch.2, ?_⟩, ?_⟩
    · intro m hm hn
      rcases selectMatches_leftmost ms (fun m hm => (h m hm).1) hb hs 0 m hm hn with h | h
      · omega
      · exact h
    · intro p hp
      constructor
      · intro hmem
        rcases ha p hmem with h1 | ⟨m, hm, hlt, rfl⟩
        · exact absurd h1.1 hp
        · exact ⟨m, hm, by simp [hlt], rfl, rfl⟩
      · rintro ⟨m, hm, h1, h2, h3⟩
        obtain ⟨hlt, h4⟩ := List.getElem?_eq_some_iff.1 h1
        have := hin m hm hlt
        rw [h4, ← h2, ← h3] at this
        exact this
  · omega

/-- Non-vacuity: overlapping matches of two tokens in position order. -/
example : MatchesFit [7, 8] 9 [⟨0, 0, 3⟩, ⟨0, 4, 6⟩, ⟨1, 5, 9⟩] ∧
    SortedById [⟨0, 0, 3⟩, ⟨0, 4, 6⟩, ⟨1, 5, 9⟩] ∧
    ([⟨0, 0, 3⟩, ⟨0, 4, 6⟩, ⟨1, 5, 9⟩] : List PatMatch).Pairwise (fun a b => a.start ≤ b.start) := by
  constructor
  · unfold MatchesFit; decide
  · unfold SortedById; decide

end Tok
