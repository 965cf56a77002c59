import Verif.Train.PropsCount

/-! # C81, C82: lost tokens, prefixes and the WordPiece trainer -/

namespace Tok.Train

variable {cfg : Cfg} {addr : Nat → Nat → Str} {wc : List (Str × Int)} {r : Trained}

/-! ### C81 -/

/-- The vocabulary holds the last id of a text. -/
theorem reach_latest (hp : Plain cfg) {s : State} (h : Reaches cfg addr wc s) :
    ∀ t i (m : Nat), mget s.w2id t = some i → s.id2w[m]? = some t → (m : Int) ≤ i := by
  refine (reach_ind hp (fun s => ∀ t i (m : Nat), mget s.w2id t = some i → s.id2w[m]? = some t →
    (m : Int) ≤ i) ?_ ?_ s h).2
  · intro s r arrival _ _ _ hid he _ _ _ _ t i m h1 h2
    rw [hid] at h2
    rw [(he.get t m).2 ⟨m, rfl, h2⟩] at h1
    cases h1
    omega
  · intro s s' hi hl hP hs
    obtain ⟨hf, top, rest, h1, _, _, ⟨_, rfl⟩ | ⟨_, words', rc, rfl, m2, m3, m4⟩⟩ := step_cases hp hi hl hs
    · exact hP
    · intro t i m h1 h2
      simp only at h1 h2
      have hm := (List.getElem?_eq_some_iff.1 h2).1
      simp only [List.length_append, List.length_singleton] at hm
      rw [mget_mset] at h1
      split at h1
      · cases h1; omega
      · next hne =>
        rw [List.getElem?_append] at h2
        split at h2
        · exact hP t i m h1 h2
        · rw [List.getElem?_singleton] at h2
          split at h2
          · cases h2; exact absurd rfl hne
          · cases h2

/-- **C81, partial.** The result of a merge has a text unless a later merge made the same text: the
joined text has an id, not smaller than that of the merge, and equal to it exactly if the id of the
merge has a text. -/
theorem C81_result_known_partial (hp : Plain cfg) (h : Trains cfg addr wc r) {a b : Int} {v : PairVal}
    (hm : r.model.merges a b = some v) {ta tb : Str} (ha : r.model.vocabR a = some ta)
    (hb : r.model.vocabR b = some tb) :
    ∃ i, r.model.vocab (ta ++ tb) = some i ∧ v.newId ≤ i ∧
      (i = v.newId ↔ r.model.vocabR v.newId = some (ta ++ tb)) := by
  obtain ⟨h1, h2⟩ := C75_merge_text hp h hm ha hb
  obtain ⟨i, hi⟩ := Option.isSome_iff_exists.1 h1
  have hrt := C74_ids_round_trip hp h
  refine ⟨i, hi, ?_, ?_⟩
  · obtain ⟨s, hr, _, rfl⟩ := h
    have hinv := (reach_inv hp hr).1
    obtain ⟨k, g1, g2⟩ := (merges_get hinv).1 hm
    obtain ⟨m1, m2, m3, m4⟩ := hinv.mergeOk _ (List.mem_of_getElem? g1)
    have hid := hinv.mergeIds k _ g1
    have hk := (List.getElem?_eq_some_iff.1 g1).1
    obtain ⟨L, b1, b2⟩ := hinv.base
    simp only at m4 hid
    have hlt : (keptChars cfg wc).length + k < s.id2w.length := by
      rw [b1, List.length_append, b2]; omega
    have : s.id2w[(keptChars cfg wc).length + k]? = some (ta ++ tb) := by
      have e1 : textOf s.id2w v.newId = ta ++ tb := by
        rw [m4]
        show textOf s.id2w a ++ textOf s.id2w b = _
        rw [text_of_vocabR hinv ha, text_of_vocabR hinv hb]
      unfold textOf at e1
      rw [hid, Int.toNat_natCast, List.getElem?_eq_getElem hlt] at e1
      rw [List.getElem?_eq_getElem hlt]
      exact congrArg some e1
    have := reach_latest hp hr _ _ _ hi this
    omega
  · constructor
    · rintro rfl
      exact (hrt _ _).1 hi
    · intro hx
      have := (hrt _ _).2 hx
      rw [hi] at this
      exact Option.some.inj this

/-- Training data in which `abcd` is made in two ways. -/
def dupWords : List (Str × Int) :=
  [(['a', 'b', 'c', 'd'], 2), (['y', 'a', 'b', 'c', 'd'], 3), (['z', 'a', 'b', 'c', 'd'], 3),
    (['x', 'a', 'b', 'c'], 3)]

/-- The vocabulary trained on it. -/
def dupVocab : List (Str × Int) :=
  [(['a'], 0), (['b'], 1), (['c'], 2), (['d'], 3), (['x'], 4), (['y'], 5), (['z'], 6), (['a', 'b'], 7),
    (['a', 'b', 'c'], 8), (['c', 'd'], 9), (['a', 'b', 'c', 'd'], 14), (['x', 'a', 'b', 'c'], 11),
    (['y', 'a', 'b', 'c', 'd'], 12), (['z', 'a', 'b', 'c', 'd'], 13)]

/-- The merges trained on it. -/
def dupMerges : List (Pair × PairVal) :=
  [((0, 1), ⟨0, 7⟩), ((7, 2), ⟨1, 8⟩), ((2, 3), ⟨2, 9⟩), ((8, 3), ⟨3, 10⟩), ((4, 8), ⟨4, 11⟩),
    ((5, 10), ⟨5, 12⟩), ((6, 10), ⟨6, 13⟩), ((7, 9), ⟨7, 14⟩)]

theorem dupWords_train : (train (newBpeTrainer 2 100) addr dupWords 20).map
    (fun r => (r.vocab, r.merges)) = some (dupVocab, dupMerges) := by
  rw [train_plain ⟨rfl, rfl⟩ addr (fun _ _ => [])]
  decide +kernel

/-- The symbol lists that merging `abcd` goes through. -/
def dupWay (l : List (Int × Nat)) : Prop :=
  l = [(0, 1), (1, 1), (2, 1), (3, 1)] ∨ l = [(7, 2), (2, 1), (3, 1)] ∨ l = [(8, 3), (3, 1)] ∨ l = [(10, 4)]

theorem dupWay_step (l l' : List (Int × Nat)) (h : dupWay l)
    (hs : PriorityMerge (fun a b => mget dupMerges (a, b)) l l') : dupWay l' := by
  generalize hl : l = l0 at hs
  cases hs with
  | mk u v a b la lb m hm hmin =>
    rw [hl] at h
    rcases h with h | h | h | h
    · have hr := hmin [] [(2, 1), (3, 1)] 0 1 1 1 ⟨0, 7⟩ h rfl
      match u with
      | [] =>
        simp at h; obtain ⟨⟨rfl, rfl⟩, ⟨rfl, rfl⟩, rfl⟩ := h; cases hm
        right; left; rfl
      | [_] => simp at h; obtain ⟨_, ⟨rfl, _⟩, ⟨rfl, _⟩, _⟩ := h; cases hm
      | [_, _] => simp at h; obtain ⟨_, _, ⟨rfl, _⟩, ⟨rfl, _⟩, _⟩ := h; cases hm; simp at hr
      | [_, _, _] => simp at h
      | _ :: _ :: _ :: _ :: _ => simp at h
    · have hr := hmin [] [(3, 1)] 7 2 2 1 ⟨1, 8⟩ h rfl
      match u with
      | [] =>
        simp at h; obtain ⟨⟨rfl, rfl⟩, ⟨rfl, rfl⟩, rfl⟩ := h; cases hm
        right; right; left; rfl
      | [_] => simp at h; obtain ⟨_, ⟨rfl, _⟩, ⟨rfl, _⟩, _⟩ := h; cases hm; simp at hr
      | [_, _] => simp at h
      | _ :: _ :: _ :: _ => simp at h
    · match u with
      | [] =>
        simp at h; obtain ⟨⟨rfl, rfl⟩, ⟨rfl, rfl⟩, rfl⟩ := h; cases hm
        right; right; right; rfl
      | [_] => simp at h
      | _ :: _ :: _ => simp at h
    · match u with
      | [] => simp at h
      | _ :: _ => simp at h

theorem dupWords_lost (addr : Nat → Nat → Str) : ∃ r, Trains (newBpeTrainer 2 100) addr dupWords r ∧
    (r.model.vocab ['a', 'b', 'c', 'd']).isSome ∧ ∀ H : Heap, ∃ ss id,
      mergeWord H r.model (fun _ => false) (3 * ['a', 'b', 'c', 'd'].length + 1) ['a', 'b', 'c', 'd'] = .ok (some ss) ∧
      wordToTokens r.model ss = [⟨id, [], (0, blen ['a', 'b', 'c', 'd'])⟩] ∧ r.model.vocabR id = none := by
  have h := dupWords_train (addr := addr)
  rw [Option.map_eq_some_iff] at h
  obtain ⟨r, h1, h2⟩ := h
  simp only [Prod.mk.injEq] at h2
  have htr := train_trains h1
  have hmodel : r.model = buildModel dupVocab dupMerges none none := by
    rw [← h2.1, ← h2.2]
    obtain ⟨s, _, _, rfl⟩ := htr
    rfl
  refine ⟨r, htr, ?_, ?_⟩
  · rw [hmodel]; decide +kernel
  intro H
  have hw : ∀ c ∈ ['a', 'b', 'c', 'd'], (r.model.vocab [c]).isSome := by
    rw [hmodel]; decide +kernel
  obtain ⟨ps, ss, i1, i2, i3, i4⟩ := C75_tokenizes_by_priority ⟨rfl, rfl⟩ htr H _ hw 13 (by decide)
  have hps : ps = [(0, 1), (1, 1), (2, 1), (3, 1)] := by
    have : initialSymbols r.model ['a', 'b', 'c', 'd'] = some [(0, 1), (1, 1), (2, 1), (3, 1)] := by
      rw [hmodel]; decide +kernel
    rw [this] at i1
    exact (Option.some.inj i1).symm
  have hmer : r.model.merges = fun a b => mget dupMerges (a, b) := by rw [hmodel]; rfl
  rw [hmer] at i3 i4
  have hway := i3.invariant dupWay_step (Or.inl hps)
  have hlast : ss.map (fun s => (s.c, s.len)) = [(10, 4)] := by
    rcases hway with h | h | h | h
    · have := i4 [] [(2, 1), (3, 1)] 0 1 1 1 h; cases this
    · have := i4 [] [(3, 1)] 7 2 2 1 h; cases this
    · have := i4 [] [] 8 3 3 1 h; cases this
    · exact h
  refine ⟨ss, 10, i2, ?_, ?_⟩
  · have h3 : r.model.vocabR 10 = none := by rw [hmodel]; decide +kernel
    have h4 : blen ['a', 'b', 'c', 'd'] = 4 := by decide +kernel
    simp only [List.map_eq_cons_iff, List.map_eq_nil_iff, Prod.mk.injEq] at hlast
    obtain ⟨a, t, rfl, ⟨e1, e2⟩, rfl⟩ := hlast
    simp [wordToTokens, getOffsets, e1, e2, h3, h4]
  · rw [hmodel]; decide +kernel

/-- **C81, violated.** A trained model can give tokens that are not in its vocabulary: if the same
text is learned from two different pairs, the vocabulary keeps one id and merging gives the other.
Here `abcd`, which is a training word and in the vocabulary, becomes one token of an unknown id, with
empty text. -/
theorem C81_result_known_violated : ∃ cfg wc, Plain cfg ∧ ∀ addr, ∃ r, Trains cfg addr wc r ∧
    ∃ w, (r.model.vocab w).isSome ∧ ∀ H : Heap, ∃ ss id,
      mergeWord H r.model (fun _ => false) (3 * w.length + 1) w = .ok (some ss) ∧
      wordToTokens r.model ss = [⟨id, [], (0, blen w)⟩] ∧ r.model.vocabR id = none := by
  refine ⟨newBpeTrainer 2 100, dupWords, ⟨rfl, rfl⟩, fun addr => ?_⟩
  obtain ⟨r, h1, h2, h3⟩ := dupWords_lost addr
  exact ⟨r, h1, _, h2, h3⟩

/-! ### C82 -/

/-- `NewWordPieceTrainerBuilder` with the settings of the builder methods
(model/wordpiece/trainer.go:15-78): a BPE trainer with the prefix `##`. -/
def wordPieceTrainer (minFreq vocabSize : Int) (specialTokens : List Str) : Cfg :=
  ⟨minFreq, vocabSize, specialTokens, none, [], some "##".toList, none⟩

/-- `NewWordPieceFromBPE` (model/wordpiece/wordpiece.go:224-241, 31-42, 80-110). -/
def wordPieceFromBPE (b : BpeModel) : WordPiece :=
  ⟨b.vocab, b.unk.getD "[UNK]".toList, b.pre.getD "##".toList, 100⟩

/-- `WordPieceTrainer.Train` (model/wordpiece/trainer.go:101-106) can return `m`. -/
def TrainsWordPiece (cfg : Cfg) (addr : Nat → Nat → Str) (wc : List (Str × Int)) (m : WordPiece) : Prop :=
  ∃ r, Trains cfg addr wc r ∧ m = wordPieceFromBPE r.model

theorem fillChars_keeps (cfg : Cfg) (addr : Nat → Str) (n : Nat) (w : Str) : ∀ (i : Nat) (t : Tab)
    (ss : List Symbol) (x : Str), (mget t.w2id x).isSome →
      (mget (fillChars cfg addr n i w t ss).1.w2id x).isSome := by
  induction w with
  | nil => intro i t ss x h; exact h
  | cons c w ih =>
    intro i t ss x h
    simp only [fillChars]
    split
    · exact ih _ _ _ _ h
    · split
      · exact ih _ _ _ _ h
      · refine ih _ _ _ _ ?_
        simp only
        rw [mget_mset]
        split
        · rfl
        · exact h

theorem fillChars_first {p : Str} (hp : cfg.pre = some p) (addr : Nat → Str) (c d : Char) (w : Str) (t : Tab)
    (hc : (mget t.w2id [c]).isSome) :
    (mget (fillChars cfg addr (c :: d :: w).length 0 (c :: d :: w) t []).1.w2id (addr 0 ++ [c])).isSome := by
  have hs : charText cfg (addr 0) (c :: d :: w).length 0 c = addr 0 ++ [c] := by
    simp [charText, hp]
  obtain ⟨i, hi⟩ := Option.isSome_iff_exists.1 hc
  rw [fillChars]
  simp only [hi, hs]
  split
  · next id h => exact fillChars_keeps _ _ _ _ _ _ _ _ (by rw [h]; rfl)
  · refine fillChars_keeps _ _ _ _ _ _ _ _ ?_
    simp only
    rw [mget_mset, if_pos rfl]; rfl

theorem fillWords_keeps (cfg : Cfg) (addr : Nat → Nat → Str) (l : List Str) : ∀ (k : Nat) (t : Tab)
    (ws : List (List Symbol)) (x : Str), (mget t.w2id x).isSome →
      (mget (fillWords cfg addr k l t ws).1.w2id x).isSome := by
  induction l with
  | nil => intro k t ws x h; exact h
  | cons w l ih =>
    intro k t ws x h
    simp only [fillWords]
    exact ih _ _ _ _ (fillChars_keeps _ _ _ _ _ _ _ _ h)

theorem fillWords_first {p : Str} (hp : cfg.pre = some p) (addr : Nat → Nat → Str) (c d : Char) (w : Str)
    (l : List Str) : ∀ (k : Nat) (t : Tab) (ws : List (List Symbol)), (mget t.w2id [c]).isSome →
      c :: d :: w ∈ l →
      ∃ j, (mget (fillWords cfg addr k l t ws).1.w2id (addr j 0 ++ [c])).isSome := by
  induction l with
  | nil => intro k t ws _ h; cases h
  | cons v l ih =>
    intro k t ws hc h
    simp only [fillWords]
    rcases List.mem_cons.1 h with rfl | h
    · exact ⟨k, fillWords_keeps _ _ _ _ _ _ _ (fillChars_first hp (addr k) c d w t hc)⟩
    · exact ih _ _ _ (fillChars_keeps _ _ _ _ _ _ _ _ hc) h

/-- What a step does to the table of texts, whatever the settings. -/
theorem step_table {counts : List Int} {s s' : State} (h : Step cfg counts s s') :
    (s'.w2id = s.w2id ∧ s'.id2w = s.id2w) ∨ ∃ a b, a ∈ s.id2w ∧ b ∈ s.id2w ∧
      s'.w2id = mset s.w2id (newToken cfg a b) (s.id2w.length : Int) ∧
      s'.id2w = s.id2w ++ [newToken cfg a b] := by
  obtain ⟨_, top, rest, order, _, _, h⟩ := h
  unfold iteration at h
  split at h
  · cases h; exact Or.inl ⟨rfl, rfl⟩
  · split at h
    · cases h
    · rw [Res.bind_eq_ok] at h
      obtain ⟨found, _, h⟩ := h
      split at h
      · rw [Res.bind_eq_ok] at h
        obtain ⟨s1, h1, h⟩ := h
        cases h
        unfold mergeTop at h1
        rw [Res.bind_eq_ok] at h1
        obtain ⟨a, ha, h1⟩ := h1
        rw [Res.bind_eq_ok] at h1
        obtain ⟨b, hb, h1⟩ := h1
        rw [Res.bind_eq_ok] at h1
        obtain ⟨m, _, h1⟩ := h1
        rw [Res.bind_eq_ok] at h1
        obtain ⟨rc, _, h1⟩ := h1
        cases h1
        have hmem : ∀ {c : Int} {t : Str}, idx s.id2w c = .ok t → t ∈ s.id2w := by
          intro c t hx
          unfold idx at hx
          split at hx
          · cases hx
          · split at hx
            · next hg => cases hx; exact List.mem_of_getElem? hg
            · cases hx
        exact Or.inr ⟨a, b, hmem ha, hmem hb, rfl, rfl⟩
      · cases h; exact Or.inl ⟨rfl, rfl⟩

theorem start_table {arrival : List (Nat × Nat)} {s : State} (h : start cfg addr wc arrival = .ok s) :
    ∃ m, Exact m (keptChars cfg wc) ∧
      s.w2id = (fillWords cfg addr 0 (sortedKeys wc) ⟨m, keptChars cfg wc⟩ []).1.w2id ∧
      s.id2w = (fillWords cfg addr 0 (sortedKeys wc) ⟨m, keptChars cfg wc⟩ []).1.id2w := by
  obtain ⟨m, h1, h2⟩ := computeAlphabet_spec cfg wc
  refine ⟨m, h2, ?_⟩
  unfold start at h
  simp only [h1, tokenizeWords] at h
  split at h
  · cases h; exact ⟨rfl, rfl⟩
  · cases h
  · cases h

/-- **C82, violated.** With a continuing-subword prefix the vocabulary does not hold the prefix but
addresses of memory: for the first character of every word of several characters, the printed
address followed by the character is a token. -/
theorem C82_prefix_violated {p : Str} (hp : cfg.pre = some p) (hl : cfg.limitAlphabet = none)
    (h : Trains cfg addr wc r) {e : Str × Int} (he : e ∈ wc) {c d : Char} {w : Str} (hw : e.1 = c :: d :: w) :
    ∃ k, (r.model.vocab (addr k 0 ++ [c])).isSome := by
  obtain ⟨s, ⟨arrival, s0, a1, a2, a3⟩, _, rfl⟩ := h
  obtain ⟨m, hm, e1, _⟩ := start_table a2
  have hk : [c] ∈ keptChars cfg wc := (nolimit_mem hl).2 (Or.inr ⟨e, he, c, by rw [hw]; simp, rfl⟩)
  obtain ⟨n, hn⟩ := List.getElem?_of_mem hk
  have hmem : c :: d :: w ∈ sortedKeys wc := by
    unfold sortedKeys
    rw [(sortStrs_perm _).mem_iff, ← hw]
    exact List.mem_map.2 ⟨e, he, rfl⟩
  obtain ⟨j, hj⟩ := fillWords_first hp addr c d w (sortedKeys wc) 0 ⟨m, keptChars cfg wc⟩ []
    (by simp only; rw [(hm.get [c] n).2 ⟨n, rfl, hn⟩]; rfl) hmem
  rw [← e1] at hj
  refine ⟨j, ?_⟩
  show (mget s.w2id (addr j 0 ++ [c])).isSome
  refine Star.invariant (P := fun s => (mget s.w2id (addr j 0 ++ [c])).isSome) ?_ a3 hj
  intro s t hs hst
  rcases step_table hst with ⟨h1, _⟩ | ⟨a, b, _, _, h1, _⟩
  · rw [h1]; exact hs
  · rw [h1, mget_mset]
    split
    · rfl
    · exact hs

/-- The texts of the table do not contain the character `x`. -/
def Without (x : Char) (m : List (Str × Int)) (a : List Str) : Prop :=
  (∀ e ∈ m, x ∉ e.1) ∧ ∀ t ∈ a, x ∉ t

theorem mem_mset {m : List (Str × Int)} {t : Str} {i : Int} {e : Str × Int} (h : e ∈ mset m t i) :
    e ∈ m ∨ e.1 = t := by
  induction m with
  | nil => simp [mset] at h; exact Or.inr (by rw [h])
  | cons x m ih =>
    obtain ⟨k, v⟩ := x
    simp only [mset] at h
    split at h
    · rcases List.mem_cons.1 h with rfl | h
      · next hk => right; simp
      · exact Or.inl (by simp [h])
    · rcases List.mem_cons.1 h with rfl | h
      · exact Or.inl (by simp)
      · rcases ih h with h | h
        · exact Or.inl (by simp [h])
        · exact Or.inr h

theorem Without.add {x : Char} {m : List (Str × Int)} {a : List Str} (h : Without x m a) {t : Str}
    (ht : x ∉ t) (i : Int) : Without x (mset m t i) (a ++ [t]) := by
  refine ⟨?_, ?_⟩
  · intro e he
    rcases mem_mset he with h' | h'
    · exact h.1 e h'
    · rw [h']; exact ht
  · intro u hu
    rcases List.mem_append.1 hu with h' | h'
    · exact h.2 u h'
    · rw [List.mem_singleton] at h'; rw [h']; exact ht

theorem fillChars_without {x : Char} (ha : ∀ i, x ∉ addr k i) (n : Nat) (w : Str) (hw : x ∉ w) : ∀ (i : Nat)
    (t : Tab) (ss : List Symbol), Without x t.w2id t.id2w →
      Without x (fillChars cfg (addr k) n i w t ss).1.w2id (fillChars cfg (addr k) n i w t ss).1.id2w := by
  induction w with
  | nil => intro i t ss h; exact h
  | cons c w ih =>
    intro i t ss h
    simp only [List.mem_cons, not_or] at hw
    simp only [fillChars]
    split
    · exact ih hw.2 _ _ _ h
    · split
      · exact ih hw.2 _ _ _ h
      · refine ih hw.2 _ _ _ ?_
        apply Without.add h
        unfold charText
        have h1 : x ∉ [c] := by simpa using hw.1
        have h2 : x ∉ addr k i ++ [c] := by
          rw [List.mem_append]; rintro (h | h)
          · exact ha i h
          · exact h1 h
        split
        · split
          · exact h2
          · exact h1
        · split
          · split
            · exact h2
            · exact h1
          · exact h1

theorem fillWords_without {x : Char} (ha : ∀ k i, x ∉ addr k i) (l : List Str) (hw : ∀ w ∈ l, x ∉ w) :
    ∀ (k : Nat) (t : Tab) (ws : List (List Symbol)), Without x t.w2id t.id2w →
      Without x (fillWords cfg addr k l t ws).1.w2id (fillWords cfg addr k l t ws).1.id2w := by
  induction l with
  | nil => intro k t ws h; exact h
  | cons w l ih =>
    intro k t ws h
    simp only [fillWords]
    exact ih (fun v hv => hw v (by simp [hv])) _ _ _ (fillChars_without (ha k) _ w (hw w (by simp)) _ _ _ h)

/-- A character that occurs neither in the training data and the initial alphabet nor in the printed
addresses occurs in no token. -/
theorem trained_without {x : Char} (ha : ∀ k i, x ∉ addr k i) (hw : ∀ e ∈ wc, x ∉ e.1)
    (hi : ∀ t ∈ cfg.initialAlphabet, x ∉ t) (h : Trains cfg addr wc r) {t : Str} (ht : x ∈ t) :
    r.model.vocab t = none := by
  obtain ⟨s, ⟨arrival, s0, a1, a2, a3⟩, _, rfl⟩ := h
  obtain ⟨m, hm, e1, e2⟩ := start_table a2
  have hk : ∀ t ∈ keptChars cfg wc, x ∉ t := by
    intro t ht
    rcases mem_of_keptChars ht with h | ⟨e, he, c, hc, rfl⟩
    · exact hi t h
    · intro hx
      rw [List.mem_singleton] at hx
      subst hx
      exact hw e he hc
  have h0 : Without x s0.w2id s0.id2w := by
    rw [e1, e2]
    apply fillWords_without ha
    · intro w hw'
      unfold sortedKeys at hw'
      obtain ⟨e, he, rfl⟩ := List.mem_map.1 ((sortStrs_perm _).mem_iff.1 hw')
      exact hw e he
    · refine ⟨?_, hk⟩
      intro e he
      simp only at he
      refine hk e.1 ?_
      rw [← hm.keys]
      exact List.mem_map.2 ⟨e, he, rfl⟩
  have hs : Without x s.w2id s.id2w := by
    refine Star.invariant (P := fun s => Without x s.w2id s.id2w) ?_ a3 h0
    intro s t hs hst
    rcases step_table hst with ⟨h1, h2⟩ | ⟨a, b, ha, hb, h1, h2⟩
    · rw [h1, h2]; exact hs
    · rw [h1, h2]
      apply Without.add hs
      unfold newToken
      split
      · rw [List.mem_append]; rintro (h | h)
        · exact hs.2 a ha h
        · exact hs.2 b hb h
      · rw [List.mem_append]; rintro (h | h)
        · exact hs.2 a ha h
        · split at h
          · exact hs.2 b hb (List.mem_of_mem_drop h)
          · exact hs.2 b hb h
  show mget s.w2id t = none
  rw [mget_eq_none]
  intro hx
  obtain ⟨e, he, rfl⟩ := List.mem_map.1 hx
  exact hs.1 e he ht

/-- **C82, violated.** A WordPiece model trained on words without `#` has no continuation tokens, so
it cannot split a word: every word that is not a token as a whole gives an error, because
the unknown token is not in the vocabulary either, even if it was among the special tokens. (An
address is printed as `0x` and digits.) -/
theorem C82_wordpiece_violated (minFreq vocabSize : Int) (specials : List Str)
    (ha : ∀ k i, '#' ∉ addr k i ∧ '[' ∉ addr k i) (hw : ∀ e ∈ wc, '#' ∉ e.1 ∧ '[' ∉ e.1) {m : WordPiece}
    (h : TrainsWordPiece (wordPieceTrainer minFreq vocabSize specials) addr wc m) {w : Str} (hne : w ≠ [])
    (hu : m.vocab w = none) : m.tokenize w = .err := by
  obtain ⟨r, hr, rfl⟩ := h
  have hno : ∀ t, '#' ∈ t → r.model.vocab t = none := fun t ht =>
    trained_without (fun k i => (ha k i).1) (fun e he => (hw e he).1) (by intro t ht; cases ht) hr ht
  have hunk : r.model.vocab "[UNK]".toList = none :=
    trained_without (x := '[') (fun k i => (ha k i).2) (fun e he => (hw e he).2) (by intro t ht; cases ht) hr
      (by decide)
  have hpre : r.model.pre = some "##".toList ∧ r.model.unk = none := by
    obtain ⟨s, _, _, rfl⟩ := hr
    exact ⟨rfl, rfl⟩
  rw [C34_unknown]
  · simp only [wordPieceFromBPE, hpre.2, Option.getD_none, hunk]
  · right
    intro ps hg
    cases hg with
    | nil => exact hne rfl
    | cons first p rest id ps hp hid hlong ht =>
      cases ht with
      | nil =>
        rw [List.append_nil] at hu
        simp only [WordPiece.entry, if_true] at hid
        rw [hu] at hid
        cases hid
      | cons first p' rest' id' ps' hp' hid' hlong' ht' =>
        have : (wordPieceFromBPE r.model).vocab ((wordPieceFromBPE r.model).entry false p') = none := by
          apply hno
          simp [WordPiece.entry, wordPieceFromBPE, hpre.1]
        rw [this] at hid'
        cases hid'

/-- Data and addresses for the example. -/
example : ∃ addr : Nat → Nat → Str, (∀ k i, '#' ∉ addr k i ∧ '[' ∉ addr k i) ∧
    ∀ e ∈ frontWords, '#' ∉ e.1 ∧ '[' ∉ e.1 :=
  ⟨fun _ _ => "0xc000012345".toList, fun _ _ => (by decide +kernel :
    '#' ∉ "0xc000012345".toList ∧ '[' ∉ "0xc000012345".toList), by decide +kernel⟩

theorem frontWords_wordPiece : ((train (wordPieceTrainer 2 100 []) (fun _ _ => ['0', 'x']) frontWords 10).map
    (fun r => r.vocab)) = some [(['a'], 0), (['b'], 1), (['c'], 2), (['0', 'x', 'a'], 3), (['0', 'x', 'a', 'b'], 4)] := by
  decide +kernel

/-- The words of the training data themselves give errors. -/
example : ∃ m, TrainsWordPiece (wordPieceTrainer 2 100 []) (fun _ _ => ['0', 'x']) frontWords m ∧
    m.vocab ['a', 'b'] = none ∧ m.vocab ['a', 'b', 'c'] = none := by
  have h := frontWords_wordPiece
  rw [Option.map_eq_some_iff] at h
  obtain ⟨r, h1, h2⟩ := h
  have htr := train_trains h1
  refine ⟨_, ⟨r, htr, rfl⟩, ?_⟩
  have : r.model.vocab = mget r.vocab := by
    obtain ⟨s, _, _, rfl⟩ := htr
    rfl
  simp only [wordPieceFromBPE, this, h2]
  decide +kernel

end Tok.Train
