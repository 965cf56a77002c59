import Verif.Train.Exec

/-! # The first counts, the first merge and words of two characters: lemmas -/

namespace Tok.Train

variable {cfg : Cfg} {addr : Nat → Nat → Str} {wc : List (Str × Int)}

theorem occurrences_short {t w : Str} (h : w.length < t.length) : occurrences t w = 0 := by
  induction w with
  | nil => rfl
  | cons c w ih =>
    simp only [occurrences]
    rw [ih (by simp only [List.length_cons] at h; omega)]
    have : ¬ t.isPrefixOf (c :: w) = true := by
      rw [List.isPrefixOf_iff_prefix]
      intro hx
      have := hx.length_le
      omega
    simp [this]

theorem windows_chars (id : Char → Int) (c d : Char) (n : Nat) (hn : 2 ≤ n) : ∀ (v : Str) (ss : List Symbol),
    ss.map (·.c) = v.map id → (∀ x ∈ v, (id x = id c ↔ x = c) ∧ (id x = id d ↔ x = d)) →
    (windows 0 n ss).count (id c, id d) = occurrences [c, d] v := by
  intro v
  induction v with
  | nil =>
    intro ss h _
    have : ss = [] := by simpa using h
    subst this
    rfl
  | cons x v ih =>
    intro ss h hinj
    cases ss with
    | nil => simp at h
    | cons a ss =>
      simp only [List.map_cons, List.cons.injEq] at h
      have ih' := ih ss h.2 (fun y hy => hinj y (by simp [hy]))
      cases ss with
      | nil =>
        have : v = [] := by simpa using h.2.symm
        subst this
        simp [windows, occurrences, List.isPrefixOf]
      | cons b ss =>
        cases v with
        | nil => simp at h
        | cons y v =>
          simp only [List.map_cons, List.cons.injEq] at h
          simp only [windows]
          rw [if_pos (by omega), List.count_cons, ih']
          show _ = (if [c, d].isPrefixOf (x :: y :: v) then 1 else 0) + occurrences [c, d] (y :: v)
          have hx := (hinj x (by simp)).1
          have hy := (hinj y (by simp)).2
          have e1 : ((a.c, b.c) == (id c, id d)) = ([c, d].isPrefixOf (x :: y :: v)) := by
            rw [Bool.eq_iff_iff]
            simp only [beq_iff_eq, Prod.mk.injEq, h.1, h.2.1, hx, hy, List.isPrefixOf, Bool.and_true,
              Bool.and_eq_true]
            constructor
            · rintro ⟨rfl, rfl⟩; exact ⟨rfl, rfl⟩
            · rintro ⟨rfl, rfl⟩; exact ⟨rfl, rfl⟩
          rw [e1]
          omega

/-- The ids of the characters of a word. -/
theorem charIds_ids {m : List (Str × Int)} {kept : List Str} (he : Exact m kept) (w : Str) :
    (charIds m w).map (·.1) = (knownPart kept w).map fun c => (mget m [c]).getD 0 := by
  induction w with
  | nil => rfl
  | cons c w ih =>
    unfold charIds knownPart at *
    rw [List.filterMap_cons, List.filter_cons]
    by_cases hk : [c] ∈ kept
    · obtain ⟨n, hn⟩ := List.getElem?_of_mem hk
      have := (he.get [c] n).2 ⟨n, rfl, hn⟩
      simp only [this, hk, decide_true, if_true, Option.map_some, List.map_cons, ih, Option.getD_some]
    · have : mget m [c] = none := by rw [mget_eq_none, he.keys]; exact hk
      simp only [this, hk, decide_false, Option.map_none, ih]
      rfl

theorem exact_inj {m : List (Str × Int)} {kept : List Str} (he : Exact m kept) {c d : Char}
    (hc : [c] ∈ kept) (hd : [d] ∈ kept) : (mget m [c]).getD 0 = (mget m [d]).getD 0 ↔ c = d := by
  obtain ⟨n, hn⟩ := List.getElem?_of_mem hc
  obtain ⟨k, hk⟩ := List.getElem?_of_mem hd
  rw [(he.get [c] n).2 ⟨n, rfl, hn⟩, (he.get [d] k).2 ⟨k, rfl, hk⟩]
  simp only [Option.getD_some]
  constructor
  · intro h
    have : n = k := by omega
    subst this
    rw [hn] at hk
    cases hk; rfl
  · rintro rfl
    have h1 := (he.get [c] n).2 ⟨n, rfl, hn⟩
    have h2 := (he.get [c] k).2 ⟨k, rfl, hk⟩
    rw [h1] at h2
    exact Option.some.inj h2

/-- What is known about the first state. -/
structure First (cfg : Cfg) (wc : List (Str × Int)) (s : State) (r : Counts) (arrival : List (Nat × Nat)) : Prop where
  perm : arrival.Perm (chunks wc.length)
  inv : Inv (keptChars cfg wc) (startTexts cfg wc) s
  len : s.words.length = wc.length
  merges : s.merges = []
  id2w : s.id2w = keptChars cfg wc
  exact : Exact s.w2id (keptChars cfg wc)
  pc : s.pc = r.pc
  queue : s.queue = firstQueue r
  counted : Counted s.words (wordCounts wc) arrival r
  words : s.words.map (·.map view) = (sortedKeys wc).map (charIds s.w2id)

theorem first_of_start (hp : Plain cfg) {arrival : List (Nat × Nat)} (ha : arrival.Perm (chunks wc.length))
    {s : State} (hs : start cfg addr wc arrival = .ok s) : ∃ r, First cfg wc s r arrival := by
  obtain ⟨s1, r, a1, a2, a3, a4, a5, a6, a7, a8, a9, a10⟩ := start_spec hp addr wc arrival ha
  rw [hs] at a1
  cases a1
  exact ⟨r, ha, a2, a3, a4, a5, a6, a7, a8, a9, a10⟩

theorem First.wordAt_eq {s : State} {r : Counts} {arrival : List (Nat × Nat)} (h : First cfg wc s r arrival)
    {k : Nat} {w : Str} (hk : (sortedKeys wc)[k]? = some w) :
    (wordAt s.words k).map view = charIds s.w2id w := by
  have := congrArg (fun z => z[k]?) h.words
  simp only [List.getElem?_map, hk, Option.map_some] at this
  unfold wordAt
  cases hw : s.words[k]? with
  | none => rw [hw] at this; cases this
  | some v => rw [hw] at this; exact Option.some.inj this

theorem First.ids {s : State} {r : Counts} {arrival : List (Nat × Nat)} (h : First cfg wc s r arrival)
    {k : Nat} {w : Str} (hk : (sortedKeys wc)[k]? = some w) :
    (wordAt s.words k).map (·.c) = (knownPart (keptChars cfg wc) w).map fun c => (mget s.w2id [c]).getD 0 := by
  rw [← charIds_ids h.exact, ← h.wordAt_eq hk, List.map_map]
  rfl

/-- The worker whose range begins at 0 counts every pair. -/
theorem First.seen0 {s : State} {r : Counts} {arrival : List (Nat × Nat)} (h : First cfg wc s r arrival)
    {c d : Char} (hc : [c] ∈ keptChars cfg wc) (hd : [d] ∈ keptChars cfg wc) (k : Nat) :
    seen s.words 0 k ((mget s.w2id [c]).getD 0, (mget s.w2id [d]).getD 0) =
      occurrences [c, d] (((startTexts cfg wc)[k]?).getD []) := by
  unfold seen startTexts
  rw [List.getElem?_map]
  cases hk : (sortedKeys wc)[k]? with
  | none =>
    have hlen : s.words.length ≤ k := by
      rw [List.getElem?_eq_none_iff, sortedKeys_length] at hk
      rw [h.len]; exact hk
    have : wordAt s.words k = [] := by
      unfold wordAt
      rw [List.getElem?_eq_none hlen]; rfl
    rw [this]; rfl
  | some w =>
    have hids := h.ids hk
    simp only [Option.map_some, Option.getD_some]
    by_cases hn : 2 ≤ (wordAt s.words k).length
    · exact windows_chars (fun c => (mget s.w2id [c]).getD 0) c d _ hn _ _ hids (by
        intro x hx
        have hx' : [x] ∈ keptChars cfg wc := by
          unfold knownPart at hx
          simpa using (List.mem_filter.1 hx).2
        exact ⟨exact_inj h.exact hx' hc, exact_inj h.exact hx' hd⟩)
    · rw [occurrences_short]
      · match hw : wordAt s.words k with
        | [] => rfl
        | [a] => rfl
        | a :: b :: v => rw [hw] at hn; simp at hn
      · have := congrArg List.length hids
        simp only [List.length_map] at this
        show _ < 2
        omega

theorem First.count {s : State} {r : Counts} {arrival : List (Nat × Nat)} (h : First cfg wc s r arrival)
    (hn : (wc.map (·.1)).Nodup) (hsmall : wc.length < 10000)
    {c d : Char} (hc : [c] ∈ keptChars cfg wc) (hd : [d] ∈ keptChars cfg wc) :
    pcOf s.pc ((mget s.w2id [c]).getD 0, (mget s.w2id [d]).getD 0) =
      frequency [c, d] (wc.map fun e => (knownPart (keptChars cfg wc) e.1, e.2)) := by
  rw [← freqIn_eq hn, h.pc, h.counted.pc]
  rw [sum_perm _ h.perm]
  have hWl : (startTexts cfg wc).length = wc.length := by
    unfold startTexts; rw [List.length_map, sortedKeys_length]
  by_cases h0 : wc.length = 0
  · have : chunks wc.length = [] := by rw [h0]; rfl
    rw [this]
    unfold freqIn
    show _ = ((List.range (startTexts cfg wc).length).map _).sum
    rw [hWl, h0]
    rfl
  · rw [chunks_small _ (by omega) hsmall]
    unfold freqIn chunkSum
    show _ = ((List.range (startTexts cfg wc).length).map _).sum
    rw [hWl]
    simp only [List.map_cons, List.map_nil, List.sum_cons, List.sum_nil, Int.add_zero, Nat.sub_zero]
    rw [← List.range_eq_range']
    congr 1
    apply List.map_congr_left
    intro k _
    rw [h.seen0 hc hd]
    rfl

/-- A pair counted at the start consists of characters. -/
theorem First.pair_chars {s : State} {r : Counts} {arrival : List (Nat × Nat)} (h : First cfg wc s r arrival)
    {p : Pair} (hpc : (mget s.pc p).isSome) : ∃ c d, [c] ∈ keptChars cfg wc ∧ [d] ∈ keptChars cfg wc ∧
      p = ((mget s.w2id [c]).getD 0, (mget s.w2id [d]).getD 0) := by
  rw [h.pc, h.counted.some_pc] at hpc
  obtain ⟨ij, hij, k, s1, s2, s3⟩ := hpc
  have hb := ((chunks_spec wc.length).1 ij (h.perm.mem_iff.1 hij)).2
  have hkl : k < (sortedKeys wc).length := by rw [sortedKeys_length]; omega
  have hids := h.ids (List.getElem?_eq_getElem hkl)
  obtain ⟨⟨a, a1, a2⟩, b, b1, b2⟩ := mem_windows (List.count_pos_iff.1 s3)
  have key : ∀ x ∈ wordAt s.words k, ∃ c, [c] ∈ keptChars cfg wc ∧ x.c = (mget s.w2id [c]).getD 0 := by
    intro x hx
    have : x.c ∈ (wordAt s.words k).map (·.c) := List.mem_map.2 ⟨x, hx, rfl⟩
    rw [hids] at this
    obtain ⟨c, c1, c2⟩ := List.mem_map.1 this
    refine ⟨c, ?_, c2.symm⟩
    unfold knownPart at c1
    simpa using (List.mem_filter.1 c1).2
  obtain ⟨c, c1, c2⟩ := key a a1
  obtain ⟨d, d1, d2⟩ := key b b1
  exact ⟨c, d, c1, d1, Prod.ext (a2.trans c2) (b2.trans d2)⟩

/-- Every pair counted has an entry in the first queue. -/
theorem First.entry {s : State} {r : Counts} {arrival : List (Nat × Nat)} (h : First cfg wc s r arrival)
    {p : Pair} {n : Int} (hpc : mget s.pc p = some n) :
    ∃ e ∈ s.queue, e.pair = p ∧ e.count = n ∧ ∃ ij ∈ arrival, ∀ k, k ∈ e.pos ↔ Sees s.words ij p k := by
  rw [h.pc] at hpc
  have h1 : (mget r.wt p).isSome := by
    rw [h.counted.some_wt, ← h.counted.some_pc, hpc]; rfl
  obtain ⟨l, hl⟩ := Option.isSome_iff_exists.1 h1
  obtain ⟨ij, hij, _, hm⟩ := h.counted.wt p l hl
  refine ⟨⟨p, n, l⟩, ?_, rfl, rfl, ij, hij, hm⟩
  rw [h.queue]
  unfold firstQueue
  rw [List.mem_filterMap]
  exact ⟨(p, l), mem_of_mget hl, by simp [hpc]⟩

theorem hasPair_of_windows {i n : Nat} {p : Pair} {ss : List Symbol} (h : p ∈ windows i n ss) :
    hasPair p.1 p.2 ss = true := by
  induction ss with
  | nil => cases h
  | cons a ss ih =>
    cases ss with
    | nil => cases h
    | cons b v =>
      simp only [windows] at h
      split at h
      · rcases List.mem_cons.1 h with rfl | h
        · simp [hasPair]
        · simp only [hasPair, Bool.or_eq_true]
          exact Or.inr (ih h)
      · cases h

theorem chunks_one {n : Nat} (h : n < 10000) {arrival : List (Nat × Nat)} (ha : arrival.Perm (chunks n))
    {x : Nat × Nat} (hx : x ∈ arrival) : x = (0, n) := by
  by_cases h0 : n = 0
  · subst h0
    exact absurd (ha.mem_iff.1 hx) (by simp [chunks, chunksFrom])
  · have := ha.mem_iff.1 hx
    rw [chunks_small n (by omega) h] at this
    simpa using this

/-- The first merge is that of a pair of highest count. -/
theorem first_merge (hp : Plain cfg) (hsmall : wc.length < 10000) {s0 : State} {r : Counts} {arrival : List (Nat × Nat)}
    (h0 : First cfg wc s0 r arrival) {s : State} (hs : Star (Step cfg (wordCounts wc)) s0 s) :
    s = s0 ∨ ∃ p i l, s.merges = (p, i) :: l ∧ (mget s0.pc p).isSome ∧
      ∀ q n, mget s0.pc q = some n → n ≤ pcOf s0.pc p := by
  have hinv0 : (wordCounts wc).length = s0.words.length := by rw [wordCounts_length, h0.len]
  have key := Star.invariant (P := fun s => (Inv (keptChars cfg wc) (startTexts cfg wc) s ∧
    (wordCounts wc).length = s.words.length) ∧ (s = s0 ∨ ∃ p i l, s.merges = (p, i) :: l ∧ (mget s0.pc p).isSome ∧
      ∀ q n, mget s0.pc q = some n → n ≤ pcOf s0.pc p)) ?_ hs ⟨⟨h0.inv, hinv0⟩, Or.inl rfl⟩
  · exact key.2
  · rintro s t ⟨⟨i1, i2⟩, i3⟩ hst
    refine ⟨i1.step hp i2 hst, Or.inr ?_⟩
    obtain ⟨hf, top, rest, h1, _, _, ⟨hno, rfl⟩ | ⟨hyes, words', rc, rfl, m2, m3, m4⟩⟩ := step_cases hp i1 i2 hst
    · rcases i3 with rfl | i3
      · exfalso
        have hmem := h1.mem
        rw [h0.queue] at hmem
        obtain ⟨e1, e2⟩ := mem_firstQueue hmem
        obtain ⟨ij, hij, _, hm⟩ := h0.counted.wt top.pair top.pos (mget_of_mem h0.counted.keys_wt e1)
        have : (mget r.wt top.pair).isSome := by rw [mget_of_mem h0.counted.keys_wt e1]; rfl
        -- the entry has a place
        have hpc : (mget r.pc top.pair).isSome := by rw [e2]; rfl
        have hne : ∃ k, k ∈ top.pos := by
          obtain ⟨ij', hij', k, hk⟩ := (h0.counted.some_pc _).1 hpc
          have e3 := chunks_one hsmall h0.perm hij
          have e4 := chunks_one hsmall h0.perm hij'
          exact ⟨k, (hm k).2 (by rw [e3, ← e4]; exact hk)⟩
        obtain ⟨k, hk⟩ := hne
        have hs := ((hm k).1 hk).2.2
        exact hno ⟨k, hk, hasPair_of_windows (List.count_pos_iff.1 hs)⟩
      · exact i3
    · rcases i3 with rfl | ⟨p, i, l, j1, j2, j3⟩
      · refine ⟨top.pair, _, [], by rw [h0.merges]; rfl, ?_, ?_⟩
        · rw [(i1.queue top h1.mem).1]; rfl
        · intro q n hq
          obtain ⟨e, he, _, e2, _⟩ := h0.entry hq
          have := h1.2 e he
          unfold pcOf
          rw [(i1.queue top h1.mem).1]
          simp only [Option.getD_some]
          omega
      · exact ⟨p, i, l ++ [_], by rw [j1]; rfl, j2, j3⟩

end Tok.Train
