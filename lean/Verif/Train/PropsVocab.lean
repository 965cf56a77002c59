import Verif.Train.Near
import Verif.Bpe.Props

/-! # C74, C75: the vocabulary and the merges of a trained BPE model -/

namespace Tok.Train

variable {cfg : Cfg} {addr : Nat → Nat → Str} {wc : List (Str × Int)} {r : Trained}

/-- Training data for the examples. -/
def sampleWords : List (Str × Int) := [("ab".toList, 5), ("abc".toList, 1), ("b".toList, 2)]

/-- A trainer for the examples. -/
def sampleCfg : Cfg := ⟨2, 10, ["[UNK]".toList], none, ["z".toList], none, none⟩

example : Plain sampleCfg := ⟨rfl, rfl⟩
example : (∀ e ∈ sampleWords, 0 ≤ e.2) ∧ (sampleWords.map (·.1)).Nodup := by decide +kernel

/-! ### Helpers -/

theorem near_all (hp : Plain cfg) {s : State} (h : Reaches cfg addr wc s) :
    Near (fun _ => True) (keptChars cfg wc) (startTexts cfg wc) s :=
  reach_near hp _ (fun _ _ _ _ _ _ _ _ => trivial) h

theorem char_known_iff (hp : Plain cfg) {s : State} (h : Reaches cfg addr wc s) (c : Char) :
    (mget s.w2id [c]).isSome ↔ [c] ∈ keptChars cfg wc := by
  have hi := (reach_inv hp h).1
  constructor
  · intro hs
    obtain ⟨i, hi'⟩ := Option.isSome_iff_exists.1 hs
    rcases vocab_cases hi hi' with hk | ⟨n, n1, n2⟩
    · exact hk
    · have := ((near_all hp h).2 n _ n1 n2).1
      simp at this
  · intro hk
    obtain ⟨n, hn⟩ := List.getElem?_of_mem hk
    rw [hi.chars n c hn]; rfl

/-! ### C74 -/

/-- **C74.** Ids and tokens of a trained model translate into each other. -/
theorem C74_ids_round_trip (hp : Plain cfg) (h : Trains cfg addr wc r) (t : Str) (i : Int) :
    r.model.vocab t = some i ↔ r.model.vocabR i = some t := by
  obtain ⟨s, hr, _, rfl⟩ := h
  exact (vocabR_get (reach_inv hp hr).1 t i).symm

/-- **C74.** Training makes no more tokens than asked for, or than the alphabet has characters if
these are more. -/
theorem C74_size (hp : Plain cfg) (h : Trains cfg addr wc r) (alphabet : List Str)
    (h1 : ∀ t ∈ cfg.initialAlphabet, t ∈ alphabet) (h2 : ∀ e ∈ wc, ∀ c ∈ e.1, [c] ∈ alphabet) :
    (r.vocab.map (·.1)).Nodup ∧ (r.vocab.length : Int) ≤ max cfg.vocabSize (alphabet.length : Int) := by
  obtain ⟨s, hr, _, rfl⟩ := h
  refine ⟨(reach_inv hp hr).1.keys, ?_⟩
  have := reach_size hp hr
  have hle : (keptChars cfg wc).length ≤ alphabet.length := by
    apply (keptChars_nodup cfg wc).length_le_of_subset
    intro t ht
    rcases mem_of_keptChars ht with h | ⟨e, he, c, hc, rfl⟩
    · exact h1 t h
    · exact h2 e he c hc
  show (s.w2id.length : Int) ≤ _
  omega

/-- The training data with the characters left out that the model does not know. -/
def restricted (m : BpeModel) (wc : List (Str × Int)) : List (Str × Int) :=
  wc.map fun e => (e.1.filter fun c => (m.vocab [c]).isSome, e.2)

/-- **C74.** Every token is of the initial alphabet, or a character of the training data, or has
several characters and occurs in the training data at least `MinFrequency` times, and at least once.
(Characters dropped by the alphabet limit are not seen.) -/
theorem C74_tokens_frequent (hp : Plain cfg) (h : Trains cfg addr wc r)
    (hc : ∀ e ∈ wc, 0 ≤ e.2) (hn : (wc.map (·.1)).Nodup) {t : Str} {i : Int}
    (hv : r.model.vocab t = some i) :
    t ∈ cfg.initialAlphabet ∨ (∃ e ∈ wc, ∃ c ∈ e.1, t = [c]) ∨
      (2 ≤ t.length ∧ 1 ≤ frequency t (restricted r.model wc) ∧
        cfg.minFrequency ≤ frequency t (restricted r.model wc)) := by
  obtain ⟨s, hr, _, rfl⟩ := h
  rcases vocab_cases (reach_inv hp hr).1 hv with hk | ⟨n, n1, n2⟩
  · rcases mem_of_keptChars hk with h | h
    · exact Or.inl h
    · exact Or.inr (Or.inl h)
  · right; right
    have hl := (reach_learned hp (wordCounts_nonneg hc) hr).2 n t n1 n2
    have he : restricted (finish cfg s).model wc =
        wc.map fun e => (knownPart (keptChars cfg wc) e.1, e.2) := by
      unfold restricted knownPart
      apply List.map_congr_left
      intro e _
      congr 1
      apply List.filter_congr
      intro c _
      have := char_known_iff hp hr c
      show (mget s.w2id [c]).isSome = _
      rw [Bool.eq_iff_iff, this, decide_eq_true_eq]
    rw [he, ← freqIn_eq hn]
    exact ⟨((near_all hp hr).2 n t n1 n2).1, hl⟩

/-- **C74.** Without a limit the initial alphabet and all characters of the training data are
tokens. -/
theorem C74_alphabet_known (hp : Plain cfg) (hl : cfg.limitAlphabet = none) (h : Trains cfg addr wc r)
    (t : Str) (ht : t ∈ cfg.initialAlphabet ∨ ∃ e ∈ wc, ∃ c ∈ e.1, t = [c]) :
    (r.model.vocab t).isSome := by
  obtain ⟨s, hr, _, rfl⟩ := h
  have hi := (reach_inv hp hr).1
  apply hi.all
  obtain ⟨L, b1, _⟩ := hi.base
  rw [b1, keptChars_nolimit hl]
  exact List.mem_append_left _
    ((sortStrs_perm _).mem_iff.2 (((alphabetCounts_keys cfg wc).2 t).2 ht))

/-- **C74.** Without a limit: every token is of the alphabet or occurs often enough. -/
theorem C74_tokens_frequent_unlimited (hp : Plain cfg) (hl : cfg.limitAlphabet = none)
    (h : Trains cfg addr wc r) (hc : ∀ e ∈ wc, 0 ≤ e.2) (hn : (wc.map (·.1)).Nodup) {t : Str} {i : Int}
    (hv : r.model.vocab t = some i) :
    t ∈ cfg.initialAlphabet ∨ (∃ e ∈ wc, ∃ c ∈ e.1, t = [c]) ∨
      (2 ≤ t.length ∧ 1 ≤ frequency t wc ∧ cfg.minFrequency ≤ frequency t wc) := by
  have he : restricted r.model wc = wc := by
    unfold restricted
    conv => rhs; rw [← List.map_id wc]
    apply List.map_congr_left
    intro e he
    have : e.1.filter (fun c => (r.model.vocab [c]).isSome) = e.1 := by
      rw [List.filter_eq_self]
      intro c hc
      exact C74_alphabet_known hp hl h [c] (Or.inr ⟨e, he, c, hc, rfl⟩)
    simp [this]
  have := C74_tokens_frequent hp h hc hn hv
  rwa [he] at this

/-- **C74.** The ids of single characters are in the order of the code points. -/
theorem C74_char_ids_sorted (hp : Plain cfg) (h : Trains cfg addr wc r) {c d : Char} {i j : Int}
    (hi : r.model.vocab [c] = some i) (hj : r.model.vocab [d] = some j) :
    i < j ↔ c.toNat < d.toNat := by
  obtain ⟨s, hr, _, rfl⟩ := h
  have hinv := (reach_inv hp hr).1
  have hk : ∀ {c : Char} {i : Int}, mget s.w2id [c] = some i →
      ∃ n : Nat, i = (n : Int) ∧ (keptChars cfg wc)[n]? = some [c] := by
    intro c i h
    have := (char_known_iff hp hr c).1 (by rw [h]; rfl)
    obtain ⟨n, hn⟩ := List.getElem?_of_mem this
    have := hinv.chars n c hn
    rw [h] at this
    cases this
    exact ⟨n, rfl, hn⟩
  obtain ⟨n, rfl, hn⟩ := hk hi
  obtain ⟨m, rfl, hm⟩ := hk hj
  have hs : (keptChars cfg wc).Pairwise (strLe · ·) :=
    (sortStrs_sorted _).sublist (keptChars_sublist cfg wc)
  have key : ∀ {a b : Nat} {x y : Char}, (keptChars cfg wc)[a]? = some [x] →
      (keptChars cfg wc)[b]? = some [y] → a < b → x.toNat < y.toNat := by
    intro a b x y ha hb hab
    rw [List.getElem?_eq_some_iff] at ha hb
    obtain ⟨a1, a2⟩ := ha
    obtain ⟨b1, b2⟩ := hb
    have h1 := List.pairwise_iff_getElem.1 hs a b a1 b1 hab
    have h2 := List.pairwise_iff_getElem.1 (keptChars_nodup cfg wc) a b a1 b1 hab
    rw [a2, b2] at h1 h2
    simp only [strLe, Bool.and_true, Bool.or_eq_true, decide_eq_true_eq, beq_iff_eq] at h1
    rcases h1 with h1 | h1
    · exact h1
    · exact absurd (by rw [Char.toNat_inj.1 h1]) h2
  constructor
  · intro hlt; exact key hn hm (by omega)
  · intro hlt
    rcases Nat.lt_trichotomy n m with h | h | h
    · omega
    · subst h
      rw [hn] at hm
      cases hm
      omega
    · have := key hm hn h
      omega

/-- **C74.** The ids of single characters are smaller than those of the tokens learned. -/
theorem C74_char_ids_first (hp : Plain cfg) (h : Trains cfg addr wc r) {c : Char} {t : Str} {i j : Int}
    (hi : r.model.vocab [c] = some i) (hj : r.model.vocab t = some j) (ht : t ∉ cfg.initialAlphabet)
    (hl : 2 ≤ t.length) : i < j := by
  obtain ⟨s, hr, _, rfl⟩ := h
  have hinv := (reach_inv hp hr).1
  obtain ⟨n, hn⟩ := List.getElem?_of_mem ((char_known_iff hp hr c).1 (by
    show (mget s.w2id [c]).isSome
    rw [show mget s.w2id [c] = some i from hi]; rfl))
  have h1 := hinv.chars n c hn
  rw [show mget s.w2id [c] = some i from hi] at h1
  cases h1
  have hn' := (List.getElem?_eq_some_iff.1 hn).1
  obtain ⟨m, rfl, hm⟩ := hinv.tab t j hj
  by_cases hk : m < (keptChars cfg wc).length
  · exfalso
    obtain ⟨L, b1, _⟩ := hinv.base
    rw [b1, List.getElem?_append_left hk] at hm
    rcases mem_of_keptChars (List.mem_of_getElem? hm) with h | ⟨e, he, c, hc, rfl⟩
    · exact ht h
    · simp at hl
  · omega

/-! ### C75 -/

theorem text_of_vocabR {kept W : List Str} {s : State} (h : Inv kept W s) {t : Str} {i : Int}
    (hv : (finish cfg s).model.vocabR i = some t) : textOf s.id2w i = t := by
  have := (vocabR_get (cfg := cfg) h t i).1 hv
  obtain ⟨n, rfl, hn⟩ := h.tab t i this
  simp [textOf, hn]

/-- **C75.** A merge of a trained model joins two tokens into the token of the joined text: the
joined text is in the vocabulary, and if the resulting id has a text it is the joined text. -/
theorem C75_merge_text (hp : Plain cfg) (h : Trains cfg addr wc r) {a b : Int} {v : PairVal}
    (hm : r.model.merges a b = some v) {ta tb : Str} (ha : r.model.vocabR a = some ta)
    (hb : r.model.vocabR b = some tb) :
    (r.model.vocab (ta ++ tb)).isSome ∧ ∀ t, r.model.vocabR v.newId = some t → t = ta ++ tb := by
  obtain ⟨s, hr, _, rfl⟩ := h
  have hi := (reach_inv hp hr).1
  obtain ⟨i, h1, h2⟩ := (merges_get hi).1 hm
  obtain ⟨m1, m2, m3, m4⟩ := hi.mergeOk _ (List.mem_of_getElem? h1)
  simp only at m1 m2 m3 m4
  have e : textOf s.id2w v.newId = ta ++ tb := by
    rw [m4]
    show textOf s.id2w a ++ textOf s.id2w b = _
    rw [text_of_vocabR hi ha, text_of_vocabR hi hb]
  constructor
  · apply hi.all
    have hid := hi.mergeIds i _ h1
    simp only at hid
    obtain ⟨L, b1, b2⟩ := hi.base
    have hlt : v.newId.toNat < s.id2w.length := by
      have := (List.getElem?_eq_some_iff.1 h1).1
      rw [b1, List.length_append, b2]
      omega
    unfold textOf at e
    rw [List.getElem?_eq_getElem hlt] at e
    simp only [Option.getD_some] at e
    rw [← e]
    exact List.getElem_mem hlt
  · intro t ht
    rw [← text_of_vocabR hi ht, e]

/-- **C75.** The ranks of the merges are 0, 1, 2, …, without repetition; the resulting ids follow
the ids of the alphabet in the same order, and the ids joined are smaller than the result. -/
theorem C75_ranks (hp : Plain cfg) (h : Trains cfg addr wc r) :
    ∃ n m : Nat, (∀ a b v, r.model.merges a b = some v →
        0 ≤ v.rank ∧ v.rank < (m : Int) ∧ v.newId = (n : Int) + v.rank ∧
          0 ≤ a ∧ 0 ≤ b ∧ a < v.newId ∧ b < v.newId) ∧
      (∀ k : Nat, k < m → ∃ a b v, r.model.merges a b = some v ∧ v.rank = (k : Int)) ∧
      (∀ a b a' b' v v', r.model.merges a b = some v → r.model.merges a' b' = some v' →
        v.rank = v'.rank → a = a' ∧ b = b') := by
  obtain ⟨s, hr, _, rfl⟩ := h
  have hi := (reach_inv hp hr).1
  refine ⟨(keptChars cfg wc).length, s.merges.length, ?_, ?_, ?_⟩
  · intro a b v hv
    obtain ⟨i, h1, h2⟩ := (merges_get hi).1 hv
    obtain ⟨m1, m2, m3, m4⟩ := hi.mergeOk _ (List.mem_of_getElem? h1)
    have hid := hi.mergeIds i _ h1
    have hlt := (List.getElem?_eq_some_iff.1 h1).1
    simp only at m1 m2 m3 m4 hid
    have := m1.ok1.1
    have := m1.ok2.1
    simp only at *
    refine ⟨by omega, by omega, by omega, by omega, by omega, m2, m3⟩
  · intro k hk
    refine ⟨(s.merges[k]).1.1, (s.merges[k]).1.2, ⟨(k : Int), (s.merges[k]).2⟩, ?_, rfl⟩
    rw [merges_get hi]
    exact ⟨k, by rw [List.getElem?_eq_getElem hk], rfl⟩
  · intro a b a' b' v v' h1 h2 he
    obtain ⟨i, g1, g2⟩ := (merges_get hi).1 h1
    obtain ⟨j, g3, g4⟩ := (merges_get hi).1 h2
    have : i = j := by omega
    subst this
    rw [g1] at g3
    simp only [Option.some.injEq, Prod.mk.injEq] at g3
    exact g3.1

/-- **C75.** The merges of a trained model make longer tokens out of shorter ones. -/
theorem trained_additive (hp : Plain cfg) (h : Trains cfg addr wc r) :
    ∃ size : Int → Nat, Additive r.model.merges size := by
  obtain ⟨s, hr, _, rfl⟩ := h
  have hi := (reach_inv hp hr).1
  refine ⟨fun a => max 1 (textOf s.id2w a).length, fun a => Nat.lt_of_lt_of_le Nat.zero_lt_one (Nat.le_max_left _ _), ?_⟩
  intro a b v hv
  obtain ⟨i, h1, h2⟩ := (merges_get hi).1 hv
  obtain ⟨m1, m2, m3, m4⟩ := hi.mergeOk _ (List.mem_of_getElem? h1)
  have l1 := List.length_pos_iff.2 m1.ne1
  have l2 := List.length_pos_iff.2 m1.ne2
  simp only at m4 l1 l2 ⊢
  rw [m4]
  unfold pairText
  rw [List.length_append]
  simp only
  omega

/-- **C75.** A trained model merges the characters of a word in the order in which the merges were
learned: always a pair of lowest rank (what is violated for arbitrary tables, `C31`), until no pair
can be merged. It does so for every word of known characters. -/
theorem C75_tokenizes_by_priority (hp : Plain cfg) (h : Trains cfg addr wc r) (H : Heap) (w : Str)
    (hw : ∀ c ∈ w, (r.model.vocab [c]).isSome) (fuel : Nat) (hf : 3 * w.length < fuel) :
    ∃ ps ss, initialSymbols r.model w = some ps ∧
      mergeWord H r.model (fun _ => false) fuel w = .ok (some ss) ∧
      Star (PriorityMerge r.model.merges) ps (ss.map (fun s => (s.c, s.len))) ∧
      Irreducible r.model.merges (ss.map (fun s => (s.c, s.len))) := by
  obtain ⟨size, ha⟩ := trained_additive hp h
  have hpre : r.model.pre = none := by
    obtain ⟨s, _, _, rfl⟩ := h
    exact hp.pre
  have hmap : ∀ (l : Str), (∀ c ∈ l, (r.model.vocab [c]).isSome) → l.mapM (runeSymbol r.model false) ≠ none := by
    intro l
    induction l with
    | nil => intro _ hx; cases hx
    | cons c l ih =>
      intro hl hx
      obtain ⟨i, hi⟩ := Option.isSome_iff_exists.1 (hl c (by simp))
      rw [List.mapM_cons] at hx
      have : runeSymbol r.model false c = some (i, c.utf8Size) := by
        simp [runeSymbol, symbolId, hi]
      rw [this] at hx
      cases hm : l.mapM (runeSymbol r.model false) with
      | none => exact ih (fun c hc => hl c (by simp [hc])) hm
      | some ps => rw [hm] at hx; cases hx
  have hne : initialSymbols r.model w ≠ none := by
    cases w with
    | nil => intro hx; cases hx
    | cons c l =>
      intro hx
      obtain ⟨i, hi⟩ := Option.isSome_iff_exists.1 (hw c (by simp))
      have : runeSymbol r.model true c = some (i, c.utf8Size) := by
        simp [runeSymbol, symbolId, hi, hpre]
      simp only [initialSymbols, this] at hx
      cases hm : l.mapM (runeSymbol r.model false) with
      | none => exact hmap l (fun c hc => hw c (by simp [hc])) hm
      | some ps => rw [hm] at hx; cases hx
  obtain ⟨ss, h1, h2⟩ := C30_fixpoint H r.model w hne fuel hf
  obtain ⟨ps, h3, h4⟩ := C31_priority_partial H r.model size ha fuel w ss h1
  exact ⟨ps, ss, h3, h1, h4, h2⟩

/-- **C75.** A trained model has no unknown token: tokenizing a word with a character that is not
in the vocabulary ends the program. -/
theorem C75_unknown_char_fatal (hp : Plain cfg) (h : Trains cfg addr wc r) (H : Heap) (w : Str)
    {c : Char} (hc : c ∈ w) (hu : r.model.vocab [c] = none) (drop : Nat → Bool) (fuel : Nat) :
    mergeWord H r.model drop fuel w = .panic := by
  rw [(C29_panic_iff H r.model drop fuel w).2]
  have hunk : r.model.unk = none ∧ r.model.pre = none := by
    obtain ⟨s, _, _, rfl⟩ := h
    exact ⟨rfl, hp.pre⟩
  have hsym : ∀ b, runeSymbol r.model b c = none := by
    intro b
    cases b <;> simp [runeSymbol, symbolId, hu, hunk.1, hunk.2]
  have hmap : ∀ l : Str, c ∈ l → l.mapM (runeSymbol r.model false) = none := by
    intro l
    induction l with
    | nil => intro h; cases h
    | cons d l ih =>
      intro hx
      rw [List.mapM_cons]
      rcases List.mem_cons.1 hx with rfl | hx
      · rw [hsym]; rfl
      · rw [ih hx]
        cases runeSymbol r.model false d <;> rfl
  cases w with
  | nil => cases hc
  | cons d l =>
    simp only [initialSymbols]
    rcases List.mem_cons.1 hc with rfl | hx
    · rw [hsym]; rfl
    · rw [hmap l hx]
      cases runeSymbol r.model true d <;> rfl

end Tok.Train
