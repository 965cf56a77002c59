import Verif.Train.Merge

/-! # What holds throughout training: lemmas -/

namespace Tok.Train

/-- The text of an id. -/
def textOf (id2w : List Str) (c : Int) : Str := (id2w[c.toNat]?).getD []

/-- The id is one of the table. -/
def IdOk (id2w : List Str) (c : Int) : Prop := 0 ≤ c ∧ c < (id2w.length : Int)

theorem textOf_append {a : List Str} {c : Int} (h : IdOk a c) (b : List Str) :
    textOf (a ++ b) c = textOf a c := by
  unfold textOf
  have := h.2
  have := h.1
  rw [List.getElem?_append_left (by omega)]

theorem IdOk.append {a : List Str} {c : Int} (h : IdOk a c) (b : List Str) : IdOk (a ++ b) c := by
  refine ⟨h.1, ?_⟩
  have := h.2
  rw [List.length_append]
  omega

theorem textOf_new (a : List Str) (t : Str) : textOf (a ++ [t]) (a.length : Int) = t := by
  simp [textOf]

theorem idx_textOf {a : List Str} {c : Int} (h : IdOk a c) : idx a c = .ok (textOf a c) := by
  have h1 := h.1
  have h2 := h.2
  unfold idx textOf
  rw [if_neg (by omega), List.getElem?_eq_getElem (by omega)]
  rfl

/-- Both ids of the pair are in the table and have a text. -/
structure PairOk (id2w : List Str) (p : Pair) : Prop where
  ok1 : IdOk id2w p.1
  ok2 : IdOk id2w p.2
  ne1 : textOf id2w p.1 ≠ []
  ne2 : textOf id2w p.2 ≠ []

/-- The text of a pair. -/
def pairText (id2w : List Str) (p : Pair) : Str := textOf id2w p.1 ++ textOf id2w p.2

theorem PairOk.append {a : List Str} {p : Pair} (h : PairOk a p) (b : List Str) : PairOk (a ++ b) p :=
  ⟨h.ok1.append b, h.ok2.append b, by rw [textOf_append h.ok1]; exact h.ne1,
    by rw [textOf_append h.ok2]; exact h.ne2⟩

theorem PairOk.text {a : List Str} {p : Pair} (h : PairOk a p) (b : List Str) :
    pairText (a ++ b) p = pairText a p := by
  unfold pairText
  rw [textOf_append h.ok1, textOf_append h.ok2]

/-- A symbol of the table, with the length of its text. -/
structure SymOk (id2w : List Str) (x : Symbol) : Prop where
  ok : IdOk id2w x.c
  ne : textOf id2w x.c ≠ []
  len : x.len = blen (textOf id2w x.c)

/-- What holds throughout training; `kept` is the alphabet, `W` are the texts of the words. -/
structure Inv (kept : List Str) (W : List Str) (s : State) : Prop where
  base : ∃ L, s.id2w = kept ++ L ∧ L.length = s.merges.length
  mergeIds : ∀ (i : Nat) e, s.merges[i]? = some e → e.2 = ((kept.length + i : Nat) : Int)
  mergeOk : ∀ e ∈ s.merges, PairOk s.id2w e.1 ∧ e.1.1 < e.2 ∧ e.1.2 < e.2 ∧
    textOf s.id2w e.2 = pairText s.id2w e.1
  tab : ∀ t i, mget s.w2id t = some i → ∃ n : Nat, i = (n : Int) ∧ s.id2w[n]? = some t
  all : ∀ t ∈ s.id2w, (mget s.w2id t).isSome
  keys : (s.w2id.map (·.1)).Nodup
  chars : ∀ (n : Nat) c, kept[n]? = some [c] → mget s.w2id [c] = some (n : Int)
  syms : ∀ k, ∀ x ∈ wordAt s.words k, SymOk s.id2w x
  spells : s.words.map (spell (textOf s.id2w)) = W
  pcKeys : (s.pc.map (·.1)).Nodup
  pcOk : ∀ p, (mget s.pc p).isSome → PairOk s.id2w p
  queue : ∀ e ∈ s.queue, mget s.pc e.pair = some e.count ∧ e.pos.Nodup ∧ ∀ k ∈ e.pos, k < s.words.length
  distinct : (s.queue.map (·.pair) ++ s.merges.map (·.1)).Nodup

/-! ### The first state -/

theorem mem_firstQueue {r : Counts} {e : TMerge} (h : e ∈ firstQueue r) :
    (e.pair, e.pos) ∈ r.wt ∧ mget r.pc e.pair = some e.count := by
  unfold firstQueue at h
  rw [List.mem_filterMap] at h
  obtain ⟨x, h1, h2⟩ := h
  cases hg : mget r.pc x.1 with
  | none => rw [hg] at h2; cases h2
  | some c =>
    rw [hg] at h2
    cases h2
    exact ⟨h1, hg⟩

theorem firstQueue_pairs (r : Counts) : ((firstQueue r).map (·.pair)).Sublist (r.wt.map (·.1)) := by
  unfold firstQueue
  induction r.wt with
  | nil => exact List.Sublist.refl _
  | cons e l ih =>
    simp only [List.filterMap_cons, List.map_cons]
    cases mget r.pc e.1 with
    | none => exact ih.cons _
    | some c => exact ih.cons_cons _

/-- The characters of a word that the alphabet knows. -/
def knownPart (kept : List Str) (w : Str) : Str := w.filter fun c => decide ([c] ∈ kept)

theorem charIds_eq {m : List (Str × Int)} {kept : List Str} (he : Exact m kept) (w : Str) :
    ((charIds m w).flatMap fun x => textOf kept x.1) = knownPart kept w ∧
      ∀ x ∈ charIds m w, IdOk kept x.1 ∧ textOf kept x.1 ≠ [] ∧ x.2 = blen (textOf kept x.1) := by
  induction w with
  | nil => exact ⟨rfl, fun x hx => by cases hx⟩
  | cons c w ih =>
    cases hg : mget m [c] with
    | none =>
      have hn : [c] ∉ kept := by
        rw [mget_eq_none, he.keys] at hg; exact hg
      have e : charIds m (c :: w) = charIds m w := by simp [charIds, hg]
      rw [e]
      refine ⟨?_, ih.2⟩
      rw [ih.1]
      simp [knownPart, hn]
    | some i =>
      obtain ⟨n, rfl, hn⟩ := (he.get [c] i).1 hg
      have hm : [c] ∈ kept := List.mem_of_getElem? hn
      have hlt := (List.getElem?_eq_some_iff.1 hn).1
      have ht : textOf kept (n : Int) = [c] := by simp [textOf, hn]
      have e : charIds m (c :: w) = ((n : Int), c.utf8Size) :: charIds m w := by simp [charIds, hg]
      rw [e]
      refine ⟨?_, ?_⟩
      · rw [List.flatMap_cons, ih.1, ht]
        simp [knownPart, hm]
      · intro x hx
        rcases List.mem_cons.1 hx with rfl | hx
        · exact ⟨⟨by simp, by simpa using hlt⟩, by rw [ht]; simp, by rw [ht]; simp⟩
        · exact ih.2 x hx

theorem words_ok {m : List (Str × Int)} {kept : List Str} (he : Exact m kept) {ws : List (List Symbol)}
    {l : List Str} (h : ws.map (·.map view) = l.map (charIds m)) :
    ws.map (spell (textOf kept)) = l.map (knownPart kept) ∧
      ∀ w ∈ ws, ∀ x ∈ w, SymOk kept x := by
  have hlen : ws.length = l.length := by
    have := congrArg List.length h
    simpa using this
  have key : ∀ (i : Nat) (w : List Symbol), ws[i]? = some w → ∃ t, l[i]? = some t ∧ w.map view = charIds m t := by
    intro i w hw
    have := congrArg (fun z => z[i]?) h
    simp only [List.getElem?_map, hw, Option.map_some] at this
    cases ht : l[i]? with
    | none => rw [ht] at this; cases this
    | some t => rw [ht] at this; exact ⟨t, rfl, Option.some.inj this⟩
  have sp : ∀ (w : List Symbol) t, w.map view = charIds m t → spell (textOf kept) w = knownPart kept t := by
    intro w t hw
    rw [← (charIds_eq he t).1, ← hw]
    unfold spell
    rw [List.flatMap_map]
    rfl
  refine ⟨?_, ?_⟩
  · apply List.ext_getElem?
    intro i
    rw [List.getElem?_map, List.getElem?_map]
    cases hw : ws[i]? with
    | none =>
      have : l[i]? = none := by
        rw [List.getElem?_eq_none_iff] at hw ⊢; omega
      rw [this]; rfl
    | some w =>
      obtain ⟨t, h1, h2⟩ := key i w hw
      rw [h1]
      simp only [Option.map_some, sp w t h2]
  · intro w hw x hx
    obtain ⟨i, hi⟩ := List.getElem?_of_mem hw
    obtain ⟨t, h1, h2⟩ := key i w hi
    have : view x ∈ charIds m t := by rw [← h2]; exact List.mem_map.2 ⟨x, hx, rfl⟩
    obtain ⟨a, b, c⟩ := (charIds_eq he t).2 _ this
    exact ⟨a, b, c⟩

theorem wordAt_mem {words : List (List Symbol)} {k : Nat} {x : Symbol} (h : x ∈ wordAt words k) :
    wordAt words k ∈ words := by
  unfold wordAt at *
  cases hg : words[k]? with
  | none => rw [hg] at h; cases h
  | some w => exact List.mem_of_getElem? hg

theorem mem_windows {i n : Nat} {ss : List Symbol} {p : Pair} (h : p ∈ windows i n ss) :
    (∃ a ∈ ss, p.1 = a.c) ∧ ∃ b ∈ ss, p.2 = b.c := by
  induction ss with
  | nil => cases h
  | cons a ss ih =>
    cases ss with
    | nil => cases h
    | cons b v =>
      simp only [windows] at h
      split at h
      · rcases List.mem_cons.1 h with rfl | h
        · exact ⟨⟨a, by simp, rfl⟩, b, by simp, rfl⟩
        · obtain ⟨⟨x, h1, h2⟩, y, h3, h4⟩ := ih h
          exact ⟨⟨x, List.mem_cons_of_mem _ h1, h2⟩, y, List.mem_cons_of_mem _ h3, h4⟩
      · cases h

/-- The texts of the words the loop starts with. -/
def startTexts (cfg : Cfg) (wc : List (Str × Int)) : List Str :=
  (sortedKeys wc).map (knownPart (keptChars cfg wc))

/-- The first state, when there is neither prefix nor suffix. -/
theorem start_spec {cfg : Cfg} (hp : Plain cfg) (addr : Nat → Nat → Str) (wc : List (Str × Int))
    (arrival : List (Nat × Nat)) (ha : arrival.Perm (chunks wc.length)) :
    ∃ s r, start cfg addr wc arrival = .ok s ∧ Inv (keptChars cfg wc) (startTexts cfg wc) s ∧
      s.words.length = wc.length ∧ s.merges = [] ∧ s.id2w = keptChars cfg wc ∧
      Exact s.w2id (keptChars cfg wc) ∧ s.pc = r.pc ∧ s.queue = firstQueue r ∧
      Counted s.words (wordCounts wc) arrival r ∧
      s.words.map (·.map view) = (sortedKeys wc).map (charIds s.w2id) := by
  obtain ⟨m, h1, h2⟩ := computeAlphabet_spec cfg wc
  obtain ⟨ws, h3, h4⟩ := tokenizeWords_plain hp addr wc ⟨m, keptChars cfg wc⟩
  have hl : ws.length = wc.length := by
    have := congrArg List.length h4
    simpa [sortedKeys_length] using this
  have hcl : (wordCounts wc).length = ws.length := by rw [wordCounts_length, hl]
  obtain ⟨r, h5, h6⟩ := countPairs_spec ws (wordCounts wc) hcl arrival (by
    intro ij hij
    obtain ⟨a, b⟩ := (chunks_spec wc.length).1 ij (ha.mem_iff.1 hij)
    exact ⟨by omega, by omega⟩)
  obtain ⟨w1, w2⟩ := words_ok h2 h4
  refine ⟨⟨m, keptChars cfg wc, ws, r.pc, firstQueue r, []⟩, r, ?_, ?_, hl, rfl, rfl, h2, rfl, rfl, h6, h4⟩
  · unfold start
    simp only [h1, h3, h5]
  · refine ⟨⟨[], by simp⟩, ?_, ?_, ?_, ?_, ?_, ?_, ?_, w1, h6.keys_pc, ?_, ?_, ?_⟩
    · intro i e h; simp at h
    · intro e h; cases h
    · intro t i h; exact (h2.get t i).1 h
    · intro t ht
      obtain ⟨n, hn⟩ := List.getElem?_of_mem ht
      have := (h2.get t n).2 ⟨n, rfl, hn⟩
      simp only
      rw [this]; rfl
    · simp only; rw [h2.keys]; exact h2.nodup
    · intro n c hn; exact (h2.get _ _).2 ⟨n, rfl, hn⟩
    · intro k x hx
      exact w2 _ (wordAt_mem hx) x hx
    · intro p hp
      obtain ⟨ij, _, k, hs⟩ := (h6.some_pc p).1 hp
      have := List.count_pos_iff.1 hs.2.2
      obtain ⟨⟨a, a1, a2⟩, b, b1, b2⟩ := mem_windows this
      have ha := w2 _ (wordAt_mem a1) a a1
      have hb := w2 _ (wordAt_mem b1) b b1
      exact ⟨a2 ▸ ha.ok, b2 ▸ hb.ok, a2 ▸ ha.ne, b2 ▸ hb.ne⟩
    · intro e he
      obtain ⟨e1, e2⟩ := mem_firstQueue he
      obtain ⟨ij, hij, hn, hm⟩ := h6.wt e.pair e.pos (mget_of_mem h6.keys_wt e1)
      refine ⟨e2, hn, ?_⟩
      intro k hk
      have := (hm k).1 hk
      have := ((chunks_spec wc.length).1 ij (ha.mem_iff.1 hij)).2
      simp only
      unfold Sees at *
      omega
    · simp only [List.map_nil, List.append_nil]
      exact (firstQueue_pairs r).nodup h6.keys_wt

/-! ### One round -/

theorem occursIn_spec (words : List (List Symbol)) (c1 c2 : Int) (l : List Nat)
    (hb : ∀ k ∈ l, k < words.length) :
    ∃ b, occursIn words c1 c2 l = .ok b ∧ (b = true ↔ ∃ k ∈ l, hasPair c1 c2 (wordAt words k) = true) := by
  induction l with
  | nil => exact ⟨false, rfl, by simp⟩
  | cons k l ih =>
    obtain ⟨b, h1, h2⟩ := ih (fun x hx => hb x (by simp [hx]))
    have hk := hb k (by simp)
    refine ⟨hasPair c1 c2 words[k] || b, ?_, ?_⟩
    · simp only [occursIn, List.getElem?_eq_getElem hk, h1, Res.bind_ok]
      rfl
    · have : wordAt words k = words[k] := by simp [wordAt, hk]
      simp [h2, this]

theorem Pops.mem {q : List TMerge} {top : TMerge} {rest : List TMerge} (h : Pops q top rest) : top ∈ q :=
  h.1.mem_iff.2 (by simp)

theorem Pops.sub {q : List TMerge} {top : TMerge} {rest : List TMerge} (h : Pops q top rest) {e : TMerge}
    (he : e ∈ rest) : e ∈ q := h.1.mem_iff.2 (by simp [he])

theorem newToken_plain {cfg : Cfg} (hp : Plain cfg) (a b : Str) : newToken cfg a b = a ++ b := by
  unfold newToken
  rw [hp.pre]

/-- A merge of the pair of `top`. -/
theorem mergeTop_spec {cfg : Cfg} (hp : Plain cfg) {counts : List Int} {kept W : List Str} {s : State}
    (h : Inv kept W s) (hl : counts.length = s.words.length) {top : TMerge} {rest : List TMerge}
    {order : List Nat} (ht : Pops s.queue top rest) (ho : order.Perm top.pos) :
    ∃ words' rc, mergeTop cfg counts s top rest order =
        .ok ⟨mset s.w2id (pairText s.id2w top.pair) (s.id2w.length : Int),
          s.id2w ++ [pairText s.id2w top.pair], words', rc.pc, rest ++ newEntries rc,
          s.merges ++ [(top.pair, (s.id2w.length : Int))]⟩ ∧
      words'.length = s.words.length ∧
      (∀ k, wordAt words' k = if k ∈ top.pos then
        (mergeRest top.pair.1 top.pair.2 (s.id2w.length : Int) none (wordAt s.words k)).1
        else wordAt s.words k) ∧
      CountsFrom s.pc rc (fun p => (top.pos.map fun k => countAt counts k *
          (newIn top.pair.1 top.pair.2 (s.id2w.length : Int) s.words k p : Nat)).sum)
        (fun p k => k ∈ top.pos ∧
          0 < newIn top.pair.1 top.pair.2 (s.id2w.length : Int) s.words k p) := by
  obtain ⟨q1, q2, q3⟩ := h.queue top ht.mem
  have hpk := h.pcOk top.pair (by rw [q1]; rfl)
  obtain ⟨words', m1, m2, m3⟩ := mergeWords_spec top.pair.1 top.pair.2 (s.id2w.length : Int) order
    s.words [] (ho.nodup_iff.2 q2) (fun k hk => q3 k (ho.mem_iff.1 hk))
  obtain ⟨rc, e1, e2⟩ := enterChanges_spec top.pair.1 top.pair.2 (s.id2w.length : Int) s.words counts s.pc
    order (fun k hk => by have := q3 k (ho.mem_iff.1 hk); omega) (CountsFrom.init h.pcKeys)
  refine ⟨words', rc, ?_, m2, ?_, e2.congr ?_ ?_⟩
  · unfold mergeTop
    rw [idx_textOf hpk.ok1, idx_textOf hpk.ok2]
    simp only [Res.bind_ok, newToken_plain hp, m1, List.nil_append, e1]
    rfl
  · intro k
    rw [m3]
    simp only [ho.mem_iff]
  · intro p
    rw [Int.zero_add]
    exact sum_perm _ ho
  · intro p k
    rw [ho.mem_iff]
    simp

/-- What a round does. -/
theorem round_cases {cfg : Cfg} {counts : List Int} {kept W : List Str} {s : State}
    (h : Inv kept W s) {top : TMerge} {rest : List TMerge} {order : List Nat} (ht : Pops s.queue top rest) :
    (top.count < 1 ∨ top.count < cfg.minFrequency) ∧
        iteration cfg counts s top rest order = .ok none ∨
      (1 ≤ top.count ∧ cfg.minFrequency ≤ top.count) ∧
        ((¬ (∃ k ∈ top.pos, hasPair top.pair.1 top.pair.2 (wordAt s.words k) = true) ∧
            iteration cfg counts s top rest order = .ok (some { s with queue := rest })) ∨
          ((∃ k ∈ top.pos, hasPair top.pair.1 top.pair.2 (wordAt s.words k) = true) ∧
            iteration cfg counts s top rest order =
              (mergeTop cfg counts s top rest order >>= fun s' => .ok (some s')))) := by
  obtain ⟨q1, q2, q3⟩ := h.queue top ht.mem
  unfold iteration
  rw [q1]
  simp only [Option.getD_some, ne_eq, not_true_eq_false, if_false]
  by_cases hc : top.count < 1 ∨ top.count < cfg.minFrequency
  · rw [if_pos hc]
    exact Or.inl ⟨hc, rfl⟩
  · rw [if_neg hc]
    right
    refine ⟨by omega, ?_⟩
    obtain ⟨b, b1, b2⟩ := occursIn_spec s.words top.pair.1 top.pair.2 top.pos q3
    rw [b1]
    cases b with
    | false =>
      left
      refine ⟨fun hx => by simpa using b2.2 hx, ?_⟩
      simp
    | true =>
      right
      refine ⟨b2.1 rfl, ?_⟩
      simp

theorem mem_newEntries {r : Counts} {e : TMerge} (h : e ∈ newEntries r) :
    (e.pair, e.pos) ∈ r.wt ∧ e.count = pcOf r.pc e.pair ∧ 0 < e.count := by
  unfold newEntries at h
  rw [List.mem_filterMap] at h
  obtain ⟨x, h1, h2⟩ := h
  simp only at h2
  split at h2
  · next h3 =>
    cases h2
    exact ⟨h1, rfl, h3⟩
  · cases h2

theorem newEntries_pairs (r : Counts) : ((newEntries r).map (·.pair)).Sublist (r.wt.map (·.1)) := by
  unfold newEntries
  induction r.wt with
  | nil => exact List.Sublist.refl _
  | cons e l ih =>
    simp only [List.filterMap_cons, List.map_cons]
    split
    · next h => 
      split at h
      · cases h
      · exact ih.cons _
    · next x h =>
      split at h
      · cases h
        exact ih.cons_cons _
      · cases h

/-- The pairs reported as new have the new id in them, and the other one from the table. -/
theorem newIn_pairs {kept W : List Str} {s : State} (h : Inv kept W s) {c1 c2 : Int} {k : Nat} {p : Pair}
    (hp : 0 < newIn c1 c2 (s.id2w.length : Int) s.words k p) :
    (p.1 = (s.id2w.length : Int) ∨ p.2 = (s.id2w.length : Int)) ∧
      (p.1 = (s.id2w.length : Int) ∨ IdOk s.id2w p.1 ∧ textOf s.id2w p.1 ≠ []) ∧
      (p.2 = (s.id2w.length : Int) ∨ IdOk s.id2w p.2 ∧ textOf s.id2w p.2 ≠ []) := by
  obtain ⟨h1, h2, h3⟩ := mergeRest_ups c1 c2 _ _ none p (List.count_pos_iff.1 hp)
  refine ⟨h1, ?_, ?_⟩
  · rcases h2 with h2 | h2 | h2
    · exact Or.inl h2
    · cases h2
    · obtain ⟨x, x1, x2⟩ := List.mem_map.1 h2
      have := h.syms k x x1
      exact Or.inr (x2 ▸ ⟨this.ok, this.ne⟩)
  · rcases h3 with h3 | h3
    · exact Or.inl h3
    · obtain ⟨x, x1, x2⟩ := List.mem_map.1 h3
      have := h.syms k x x1
      exact Or.inr (x2 ▸ ⟨this.ok, this.ne⟩)

theorem map_spell_wordAt (T : Int → Str) (words words' : List (List Symbol)) (hl : words'.length = words.length)
    (h : ∀ k, spell T (wordAt words' k) = spell T (wordAt words k)) :
    words'.map (spell T) = words.map (spell T) := by
  apply List.ext_getElem?
  intro i
  have := h i
  rw [List.getElem?_map, List.getElem?_map]
  unfold wordAt at this
  cases h1 : words'[i]? with
  | none =>
    have : words[i]? = none := by rw [List.getElem?_eq_none_iff] at h1 ⊢; omega
    rw [this]
  | some w =>
    cases h2 : words[i]? with
    | none =>
      exfalso
      rw [List.getElem?_eq_none_iff] at h2
      have := (List.getElem?_eq_some_iff.1 h1).1
      omega
    | some v =>
      rw [h1, h2] at this
      simp only [Option.getD_some] at this
      simp [this]

theorem spell_congr {T T' : Int → Str} {ss : List Symbol} (h : ∀ x ∈ ss, T x.c = T' x.c) :
    spell T ss = spell T' ss := by
  induction ss with
  | nil => rfl
  | cons a ss ih =>
    rw [spell_cons, spell_cons, h a (by simp), ih (fun x hx => h x (by simp [hx]))]

theorem Inv.merge {counts : List Int} {kept W : List Str} {s : State}
    (h : Inv kept W s) {top : TMerge} {rest : List TMerge} (ht : Pops s.queue top rest)
    {words' : List (List Symbol)} {rc : Counts} (hl : words'.length = s.words.length)
    (hw : ∀ k, wordAt words' k = if k ∈ top.pos then
        (mergeRest top.pair.1 top.pair.2 (s.id2w.length : Int) none (wordAt s.words k)).1
        else wordAt s.words k)
    (hc : CountsFrom s.pc rc (fun p => (top.pos.map fun k => countAt counts k *
          (newIn top.pair.1 top.pair.2 (s.id2w.length : Int) s.words k p : Nat)).sum)
        (fun p k => k ∈ top.pos ∧
          0 < newIn top.pair.1 top.pair.2 (s.id2w.length : Int) s.words k p)) :
    Inv kept W ⟨mset s.w2id (pairText s.id2w top.pair) (s.id2w.length : Int),
          s.id2w ++ [pairText s.id2w top.pair], words', rc.pc, rest ++ newEntries rc,
          s.merges ++ [(top.pair, (s.id2w.length : Int))]⟩ := by
  obtain ⟨q1, q2, q3⟩ := h.queue top ht.mem
  have hpk := h.pcOk top.pair (by rw [q1]; rfl)
  obtain ⟨L, b1, b2⟩ := h.base
  have hnew : textOf (s.id2w ++ [pairText s.id2w top.pair]) (s.id2w.length : Int) = pairText s.id2w top.pair :=
    textOf_new _ _
  have hne : pairText s.id2w top.pair ≠ [] := by
    unfold pairText
    intro hx
    exact hpk.ne1 (List.append_eq_nil_iff.1 hx).1
  have hnewOk : IdOk (s.id2w ++ [pairText s.id2w top.pair]) (s.id2w.length : Int) := by
    refine ⟨by omega, ?_⟩
    rw [List.length_append]; simp only [List.length_singleton]; omega
  have hlen2 : 2 ≤ (pairText s.id2w top.pair).length := by
    unfold pairText
    rw [List.length_append]
    have := List.length_pos_iff.2 hpk.ne1
    have := List.length_pos_iff.2 hpk.ne2
    omega
  have old : ∀ {x : Symbol}, SymOk s.id2w x → SymOk (s.id2w ++ [pairText s.id2w top.pair]) x := by
    intro x hx
    exact ⟨hx.ok.append _, by rw [textOf_append hx.ok]; exact hx.ne, by rw [textOf_append hx.ok]; exact hx.len⟩
  -- the pairs entered
  have ent : ∀ p, (∃ k, k ∈ top.pos ∧ 0 < newIn top.pair.1 top.pair.2 (s.id2w.length : Int) s.words k p) →
      PairOk (s.id2w ++ [pairText s.id2w top.pair]) p ∧
        (p.1 = (s.id2w.length : Int) ∨ p.2 = (s.id2w.length : Int)) := by
    rintro p ⟨k, _, hk⟩
    obtain ⟨n1, n2, n3⟩ := newIn_pairs h hk
    have one : ∀ c : Int, (c = (s.id2w.length : Int) ∨ IdOk s.id2w c ∧ textOf s.id2w c ≠ []) →
        IdOk (s.id2w ++ [pairText s.id2w top.pair]) c ∧ textOf (s.id2w ++ [pairText s.id2w top.pair]) c ≠ [] := by
      rintro c (rfl | ⟨c1, c2⟩)
      · exact ⟨hnewOk, by rw [hnew]; exact hne⟩
      · exact ⟨c1.append _, by rw [textOf_append c1]; exact c2⟩
    exact ⟨⟨(one _ n2).1, (one _ n3).1, (one _ n2).2, (one _ n3).2⟩, n1⟩
  have fresh : ∀ p, PairOk s.id2w p → ¬ (p.1 = (s.id2w.length : Int) ∨ p.2 = (s.id2w.length : Int)) := by
    intro p hp hx
    have := hp.ok1.2
    have := hp.ok2.2
    omega
  refine ⟨?_, ?_, ?_, ?_, ?_, ?_, ?_, ?_, ?_, hc.keys_pc, ?_, ?_, ?_⟩
  · exact ⟨L ++ [pairText s.id2w top.pair], by simp [b1], by simp [b2]⟩
  · intro i e he
    simp only at he
    rw [List.getElem?_append] at he
    split at he
    · exact h.mergeIds i e he
    · next hi =>
      rw [List.getElem?_singleton] at he
      split at he
      · next hi2 =>
        cases he
        have : i = s.merges.length := by omega
        rw [this, b1, ← b2, List.length_append]
      · cases he
  · intro e he
    simp only [List.mem_append, List.mem_singleton] at he
    rcases he with he | rfl
    · obtain ⟨m1, m2, m3, m4⟩ := h.mergeOk e he
      refine ⟨m1.append _, m2, m3, ?_⟩
      obtain ⟨i, hi⟩ := List.getElem?_of_mem he
      have hid := h.mergeIds i e hi
      have hi' := (List.getElem?_eq_some_iff.1 hi).1
      have : IdOk s.id2w e.2 := by
        refine ⟨by omega, ?_⟩
        rw [hid, b1, List.length_append, b2]
        omega
      simp only
      rw [textOf_append this, m4, m1.text]
    · refine ⟨hpk.append _, hpk.ok1.2, hpk.ok2.2, ?_⟩
      simp only
      rw [hnew, hpk.text]
  · intro t i hi
    simp only at hi ⊢
    rw [mget_mset] at hi
    split at hi
    · next he =>
      cases hi
      exact ⟨s.id2w.length, rfl, by simp [he]⟩
    · obtain ⟨n, n1, n2⟩ := h.tab t i hi
      exact ⟨n, n1, by rw [List.getElem?_append_left (List.getElem?_eq_some_iff.1 n2).1, n2]⟩
  · intro t ht
    simp only [List.mem_append, List.mem_singleton] at ht ⊢
    rw [mget_mset]
    split
    · rfl
    · next hn =>
      rcases ht with ht | ht
      · exact h.all t ht
      · exact absurd ht hn
  · exact mset_nodup _ _ _ h.keys
  · intro n c hn
    simp only
    rw [mget_mset, if_neg]
    · exact h.chars n c hn
    · intro hx
      rw [← hx] at hlen2
      simp at hlen2
  · intro k x hx
    simp only at hx ⊢
    rw [hw] at hx
    split at hx
    · rcases mergeRest_mem _ _ _ _ _ x hx with hx | ⟨x1, a, a1, b, b1, a2, b2, x2⟩
      · exact old (h.syms k x hx)
      · have ha := h.syms k a a1
        have hb := h.syms k b b1
        refine ⟨by rw [x1]; exact hnewOk, by rw [x1, hnew]; exact hne, ?_⟩
        rw [x1, hnew, x2, ha.len, hb.len, a2, b2]
        unfold pairText
        rw [blen_append]
    · exact old (h.syms k x hx)
  · rw [← h.spells]
    have e1 : ∀ k, spell (textOf (s.id2w ++ [pairText s.id2w top.pair])) (wordAt words' k) =
        spell (textOf (s.id2w ++ [pairText s.id2w top.pair])) (wordAt s.words k) := by
      intro k
      rw [hw]
      split
      · apply mergeRest_spell
        rw [hnew, textOf_append hpk.ok1, textOf_append hpk.ok2]
        rfl
      · rfl
    simp only
    rw [map_spell_wordAt _ s.words words' hl e1]
    apply List.map_congr_left
    intro w hw
    apply spell_congr
    intro x hx
    obtain ⟨i, hi⟩ := List.getElem?_of_mem hw
    have : wordAt s.words i = w := by simp [wordAt, hi]
    exact textOf_append (h.syms i x (by rw [this]; exact hx)).ok _
  · intro p hp
    rcases (hc.some_pc p).1 hp with hp | hp
    · exact (h.pcOk p hp).append _
    · exact (ent p hp).1
  · intro e he
    simp only [List.mem_append] at he
    rcases he with he | he
    · obtain ⟨r1, r2, r3⟩ := h.queue e (ht.sub he)
      refine ⟨?_, r2, by simp only; rw [hl]; exact r3⟩
      have hok := h.pcOk e.pair (by rw [r1]; rfl)
      have hsum : (top.pos.map fun k => countAt counts k *
          (newIn top.pair.1 top.pair.2 (s.id2w.length : Int) s.words k e.pair : Nat)).sum = 0 := by
        have : ∀ k ∈ top.pos, countAt counts k *
          (newIn top.pair.1 top.pair.2 (s.id2w.length : Int) s.words k e.pair : Nat) = 0 := by
          intro k _
          cases hz : newIn top.pair.1 top.pair.2 (s.id2w.length : Int) s.words k e.pair with
          | zero => simp
          | succ z => exact absurd (newIn_pairs h (k := k) (p := e.pair) (by rw [hz]; omega)).1 (fresh _ hok)
        have h0 := List.map_congr_left (f := fun k => countAt counts k *
          (newIn top.pair.1 top.pair.2 (s.id2w.length : Int) s.words k e.pair : Nat)) (g := fun _ => (0 : Int)) this
        rw [h0]
        induction top.pos with
        | nil => rfl
        | cons a l ih => simpa using ih
      have hpc := hc.pc e.pair
      rw [hsum, Int.add_zero] at hpc
      have hs : (mget rc.pc e.pair).isSome := (hc.some_pc e.pair).2 (Or.inl (by rw [r1]; rfl))
      unfold pcOf at hpc
      rw [r1] at hpc
      obtain ⟨v, hv⟩ := Option.isSome_iff_exists.1 hs
      rw [hv] at hpc
      simp only [Option.getD_some] at hpc
      simp only
      rw [hv, hpc]
    · obtain ⟨n1, n2, n3⟩ := mem_newEntries he
      have hg := mget_of_mem hc.keys_wt n1
      obtain ⟨w1, w2⟩ := hc.wt _ _ hg
      have hs : (mget rc.pc e.pair).isSome := by
        have := (hc.some_wt e.pair).1 (by rw [hg]; rfl)
        exact (hc.some_pc e.pair).2 (Or.inr this)
      refine ⟨?_, w1, ?_⟩
      · obtain ⟨v, hv⟩ := Option.isSome_iff_exists.1 hs
        simp only
        rw [hv, n2]
        unfold pcOf
        rw [hv]; rfl
      · intro k hk
        simp only
        rw [hl]
        exact q3 k ((w2 k).1 hk).1
  · have hd := h.distinct
    have hperm : (s.queue.map (·.pair) ++ s.merges.map (·.1)).Perm
        ((top.pair :: rest.map (·.pair)) ++ s.merges.map (·.1)) :=
      List.Perm.append_right _ (by simpa using ht.1.map (·.pair))
    have hd2 := hperm.nodup_iff.1 hd
    have hnewp : ∀ p ∈ (newEntries rc).map (·.pair), p.1 = (s.id2w.length : Int) ∨ p.2 = (s.id2w.length : Int) := by
      intro p hp
      obtain ⟨e, he, rfl⟩ := List.mem_map.1 hp
      obtain ⟨n1, n2, n3⟩ := mem_newEntries he
      exact (ent _ ((hc.some_wt e.pair).1 (by rw [mget_of_mem hc.keys_wt n1]; rfl))).2
    simp only [List.map_append, List.map_cons, List.map_nil]
    rw [List.cons_append, List.nodup_cons] at hd2
    obtain ⟨d1, d2⟩ := hd2
    rw [List.nodup_append] at d2
    obtain ⟨d3, d4, d5⟩ := d2
    simp only [List.mem_append, not_or] at d1
    have oldq : ∀ p ∈ rest.map (·.pair), PairOk s.id2w p := by
      intro p hp
      obtain ⟨e, he, rfl⟩ := List.mem_map.1 hp
      obtain ⟨r1, _⟩ := h.queue e (ht.sub he)
      exact h.pcOk e.pair (by rw [r1]; rfl)
    have oldm : ∀ p ∈ s.merges.map (·.1), PairOk s.id2w p := by
      intro p hp
      obtain ⟨e, he, rfl⟩ := List.mem_map.1 hp
      exact (h.mergeOk e he).1
    rw [List.nodup_append, List.nodup_append, List.nodup_append]
    refine ⟨⟨d3, (newEntries_pairs rc).nodup hc.keys_wt, ?_⟩, ⟨d4, by simp, ?_⟩, ?_⟩
    · intro a ha b hb hab
      subst hab
      exact fresh _ (oldq a ha) (hnewp a hb)
    · intro a ha b hb hab
      simp only [List.mem_singleton] at hb
      subst hb
      subst hab
      exact d1.2 ha
    · intro a ha b hb hab
      subst hab
      simp only [List.mem_append, List.mem_singleton] at ha hb
      rcases ha with ha | ha
      · rcases hb with hb | rfl
        · exact d5 a ha a hb rfl
        · exact d1.1 ha
      · rcases hb with hb | rfl
        · exact fresh _ (oldm a hb) (hnewp a ha)
        · exact fresh _ hpk (hnewp _ ha)

end Tok.Train
