import Verif.Whole.FromReaderLemmas

/-!
# C128: a byte-level BPE tokenizer from a file gives every text back
-/

namespace Tok.Whole

open Tok.PreTok Tok.Added Tok.Config

/-! ### Specification -/

/-- The section "model" of a BPE tokenizer: a vocabulary in order, merges of tokens into tokens of the vocabulary, no
dropout and no prefix of subwords. -/
structure BpeFile (m d : List (Str × Val)) (v : List (Str × Int)) (es : List (Str × Str)) : Prop where
  type : Asks m d "BPE"
  vocab : get m "vocab" = vocabVal v
  merges : ∃ ms, get m "merges" = .arr ms ∧ MergeVals ms es
  dropout : get m "dropout" = .null
  unk : ∃ unk, IsOpt m "unk_token" .str unk
  subword : get m "continuing_subword_prefix" = .null ∨ get m "continuing_subword_prefix" = .str []
  suffix : ∃ suf, IsOpt m "end_of_word_suffix" .str suf
  good : GoodVocab v
  closed : ∀ e ∈ es, ' ' ∉ e.1 ∧ ' ' ∉ e.2 ∧ ∃ id, (e.1 ++ e.2, id) ∈ v

/-- The same of a byte-level BPE tokenizer: the vocabulary has the 256 characters of the byte-level alphabet. -/
structure BpeSection (m d : List (Str × Val)) (v : List (Str × Int)) (es : List (Str × Str)) : Prop extends BpeFile m d v es where
  alphabet : ∀ x : UInt8, ∃ id, ([alphabetChar x], id) ∈ v

/-- A post-processor that puts no tokens in: none, or the one of ByteLevel. -/
def NoTemplate (o : Option (List (Str × Val))) : Prop :=
  o = none ∨ ∃ q a t, o = some q ∧ ProcDesc q (.byteLevel a t)

/-! ### Lemmas -/

theorem count_space (a b : Str) (ha : ' ' ∉ a) (hb : ' ' ∉ b) : (a ++ ' ' :: b).count ' ' = 1 := by
  rw [List.count_append, List.count_eq_zero_of_not_mem ha, List.count_cons, List.count_eq_zero_of_not_mem hb]
  simp

theorem split_unique {a b p q : Str} (h : p ++ ' ' :: q = a ++ ' ' :: b) (hp : ' ' ∉ p) (ha : ' ' ∉ a) : p = a ∧ q = b := by
  induction p generalizing a with
  | nil =>
    cases a with
    | nil => cases h; exact ⟨rfl, rfl⟩
    | cons x a =>
      cases h
      simp at ha
  | cons y p ih =>
    cases a with
    | nil =>
      cases h
      simp at hp
    | cons x a =>
      simp only [List.cons_append, List.cons.injEq] at h
      simp only [List.mem_cons, not_or] at hp ha
      obtain ⟨h1, h2⟩ := ih h.2 hp.2 ha.2
      exact ⟨by rw [h.1, h1], h2⟩

theorem images_joined (tb : List (List UInt8)) :
    ((tb.map byteLevelImage).map encStr).flatten = encStr (byteLevelImage tb.flatten) := by
  induction tb with
  | nil => rfl
  | cons x tb ih =>
    simp only [List.map_cons, List.flatten_cons, byteLevelImage_append, encStr_append]
    rw [ih]

theorem bpe_file {m d : List (Str × Val)} {v : List (Str × Int)} {es : List (Str × Str)} (h : BpeFile m d v es) :
    ∃ b, createModel m d = .ok (.bpe b none) ∧ b.pre.getD [] = [] ∧
      (∀ x y m p q, b.merges x y = some m → b.vocabR x = some p → b.vocabR y = some q → b.vocabR m.newId = some (p ++ q)) ∧
      (∀ t, b.vocab t = mget v t) ∧
      (∀ i t, b.vocabR i = some t ↔ mget v t = some i) ∧
      (∀ x y m, b.merges x y = some m → ∃ e ∈ es, mget v e.1 = some x ∧ mget v e.2 = some y) ∧
      ∀ unk, IsOpt m "unk_token" .str unk → b.unk = unk := by
  obtain ⟨ms, hm, he⟩ := h.merges
  obtain ⟨unk, hu⟩ := h.unk
  obtain ⟨suf, hs⟩ := h.suffix
  have hpre : ∃ pre : Option Str, IsOpt m "continuing_subword_prefix" .str pre ∧ pre.getD [] = [] := by
    rcases h.subword with h | h
    · exact ⟨none, h, rfl⟩
    · exact ⟨some [], h, rfl⟩
  obtain ⟨pre, hp, hp0⟩ := hpre
  have hv : ∀ t i, mget v t = some i ↔ (t, i) ∈ v := mget_mem h.good.names
  rcases C69_bpe_partial m d v ms es none unk pre suf h.type h.vocab hm he h.dropout hu hp hs (by simp) with ⟨h1, _⟩ | h1
  · exfalso
    obtain ⟨l, hl, h2⟩ := (Files.C49_fails (mget v) (es.map Files.mergeLine)).1.1 h1
    obtain ⟨e, he, rfl⟩ := List.mem_map.mp hl
    obtain ⟨c1, c2, id, c3⟩ := h.closed e he
    rcases h2 with h2 | ⟨p, q, e1, e2, e3, _, _, e6⟩
    · exact h2 (count_space _ _ c1 c2)
    · have hpq : p = e.1 ∧ q = e.2 := by
        unfold Files.mergeLine at e1
        exact split_unique e1.symm e2 c1
      obtain ⟨rfl, rfl⟩ := hpq
      rw [(hv _ _).2 c3] at e6
      cases e6
  · obtain ⟨t, b, h1, h2, h3, h4, h5, h6, h7, h8⟩ := h1
    have hR : ∀ i t, b.vocabR i = some t ↔ mget v t = some i := by
      intro i t
      rw [hv]
      constructor
      · exact (h8 i).1 t
      · intro hm
        obtain ⟨t', ht⟩ := Option.isSome_iff_exists.mp ((h8 i).2 t hm)
        rw [ht, nodup_fst h.good.ids hm ((h8 i).1 t' ht)]
    refine ⟨b, h2, by rw [h6, hp0], ?_, h3, hR, ?_, ?_⟩
    · intro x y mm p q e1 e2 e3
      rw [h4] at e1
      obtain ⟨⟨rk, id⟩, e4, rfl⟩ := Option.map_eq_some_iff.mp e1
      obtain ⟨i, e, _, f2, ⟨f3, f5⟩, f4, _⟩ := (Files.C49_ranks_partial (mget v) es t
        (fun e he => ⟨(h.closed e he).1, (h.closed e he).2.1⟩) h1 (x, y) rk id).1 e4
      rw [hR] at e2 e3 ⊢
      dsimp only at f3 f5 ⊢
      have g1 := (hR x e.1).2 f3
      have g2 := (hR y e.2).2 f5
      rw [(hR x p).2 e2] at g1
      rw [(hR y q).2 e3] at g2
      cases g1; cases g2
      exact f4
    · intro x y mm e1
      rw [h4] at e1
      obtain ⟨⟨rk, id⟩, e4, rfl⟩ := Option.map_eq_some_iff.mp e1
      obtain ⟨i, e, f1, f2, ⟨f3, f5⟩, f4, _⟩ := (Files.C49_ranks_partial (mget v) es t
        (fun e he => ⟨(h.closed e he).1, (h.closed e he).2.1⟩) h1 (x, y) rk id).1 e4
      exact ⟨e, (List.mem_filter.mp (List.mem_of_getElem? f2)).1, f3, f5⟩
    · intro unk' hu'
      rw [h5]
      have := (opt_str hu).symm.trans (opt_str hu')
      exact Res.ok.inj this

theorem bpe_section {m d : List (Str × Val)} {v : List (Str × Int)} {es : List (Str × Str)} (h : BpeSection m d v es) :
    ∃ b, createModel m d = .ok (.bpe b none) ∧ ByteTables b ∧ (∀ t, b.vocab t = mget v t) ∧
      ∀ i t, b.vocabR i = some t ↔ mget v t = some i := by
  obtain ⟨b, h1, h2, h3, h4, h5, _⟩ := bpe_file h.toBpeFile
  refine ⟨b, h1, ⟨h2, ?_, h3⟩, h4, h5⟩
  intro x
  obtain ⟨id, hid⟩ := h.alphabet x
  have := (mget_mem h.good.names _ _).2 hid
  exact ⟨id, by rw [h4, this], (h5 _ _).2 this⟩

theorem absent_none {s : Str} {x : TokenConfig} (h : x.content ≠ [] ∧ ¬ x.content <:+: s) : Absent none s x.token :=
  ⟨h.1, x.content, h.1, h.2, fun _ => rfl, fun _ => .inl ⟨rfl, rfl⟩⟩

/-! ### C128 -/

/-- C128: a file with a byte-level BPE model, the pre-tokenizer and the decoder ByteLevel and any added tokens makes a
tokenizer that encodes every text in which no added token occurs; `Decode` of the ids gives the bytes of the text back
(with the space in front, if the pre-tokenizer puts one there), also without special tokens, unless one of the tokens is
written like a special token. -/
theorem C128_bytes_partial (E : FileEnv) (hL : E.isL ' ' = false) (hN : E.isN ' ' = false) (ho : ∀ l, (E.order l).Perm l)
    (hc : E.charOrder.Perm bytesCharMap) (c : FileConfig) (m p d : List (Str × Val)) (v : List (Str × Int))
    (es : List (Str × Str)) (hm : c.model = some m) (hs : BpeSection m d v es) (hd : c.decoder = some d) (a₁ t₁ : Bool)
    (hdec : DecDesc d (.byteLevel a₁ t₁)) (hp : c.preTokenizer = some p) (a t : Bool) (hpre : PreDesc E.cfg p (.byteLevel a t))
    (hproc : NoTemplate c.postProcessor) (hn : c.normalizer = none) (htr : c.truncation = none) (hpad : c.padding = none)
    (s : Str) (hadd : ∀ x ∈ c.addedTokens, x.content ≠ [] ∧ ¬ x.content <:+: s)
    (hnul : a = true → s.head? ≠ some '\x00') (opts : List Bool) :
    ∃ b r, fromReader E (some c) = .ok b ∧ b.tok.encodeSingle (encStr s) opts = .ok (some r) ∧
      (∃ tb : List (List UInt8), tb.flatten = encStr (prefixed a s) ∧ (∀ x ∈ tb, x ≠ []) ∧
        r.tokens = tb.map byteLevelImage) ∧
      b.decode r.ids false = .ok (encStr (prefixed a s)) ∧
      ((∀ x ∈ c.addedTokens, x.special = true → x.content ∉ r.tokens) →
        b.decode r.ids true = .ok (encStr (prefixed a s))) := by
  obtain ⟨bm, m1, m2, m3, m4⟩ := bpe_section hs
  have hvl := vocabList_ok hs.vocab
  have hst : FreshModel (vocabOf m (.bpe bm none)) := by
    refine ⟨⟨rfl, rfl, rfl, rfl, rfl, rfl, rfl⟩, ?_, ?_, ?_⟩
    · show ((vocabList m).map (·.1)).Nodup
      rw [hvl]; exact hs.good.names
    · intro w i hw
      have hw : mget v w = some i := by rw [← hvl]; exact hw
      have := hs.good.range _ ((mget_mem hs.good.names w i).1 hw)
      show 0 ≤ i ∧ i < ((vocabList m).length : Int)
      rw [hvl]; exact this
    · intro w i
      show bm.vocabR i = some w ↔ mget (vocabList m) w = some i
      rw [hvl]; exact m4 i w
  obtain ⟨T, re, reN, k1, k2, k3, k4, k5, k6, k7⟩ := load_quiet hst c.addedTokens E.wordChar (norm := none) ho s s
    (fun x hx _ => absent_none (hadd x hx)) (fun x hx _ => absent_none (hadd x hx))
  have hproc' : ∃ pc : Option ProcCfg, fromSection createProc c.postProcessor = .ok pc ∧
      (pc = none ∨ ∃ a₂ t₂, pc = some (.byteLevel a₂ t₂)) := by
    rcases hproc with h | ⟨q, a₂, t₂, h1, h2⟩
    · exact ⟨none, by rw [h]; rfl, .inl rfl⟩
    · exact ⟨some (.byteLevel a₂ t₂), by rw [h1]; simp only [fromSection, C70_postProcessor q _ h2, Res.bind_ok], .inr ⟨_, _, rfl⟩⟩
  obtain ⟨pc, p1, p2⟩ := hproc'
  refine ⟨⟨⟨⟨re, reN, none, some (preFn E (.byteLevel a t)), some (bpeModel E.heap bm)⟩, none, none, pc.map procFn⟩, T,
    some (decodeFn E (.byteLevel a₁ t₁))⟩, ?_⟩
  have hpf : preFn E (.byteLevel a t) = byteLevelPre a (gpt2Engine E.isL E.isN) := by
    funext pt; rw [preFn]
  obtain ⟨e, tb, h1, h2, h3, h4, _, rows, h6, h7⟩ := byteTk_encode
    (t := ⟨re, reN, none, some (preFn E (.byteLevel a t)), some (bpeModel E.heap bm)⟩) (a := a)
    ⟨rfl, by rw [hpf], _, rfl, byteModel_bpe E.heap m2⟩ (gpt2_proper E.isL E.isN) s ⟨k4, k5⟩ hnul
    (fun hs _ h => gpt2_keeps E.isL E.isN hL hN hs h) 0
  have hpost : ∃ r, postProcess none (pc.map procFn) none e none (opts.headD false) = .ok (some r) ∧
      r.ids = e.ids ∧ r.tokens = e.tokens := by
    rcases p2 with rfl | ⟨a₂, t₂, rfl⟩
    · exact ⟨e, rfl, rfl, rfl⟩
    · obtain ⟨r, l1, l2, _⟩ := C102_single t₂ a₂ (opts.headD false) e (h6 ▸ ofRows_fresh rows 0) (h6 ▸ ofRows_aligned rows 0)
        (by rw [h6]; simp [ofRows, Encoding.default])
      refine ⟨r, ?_, ?_, ?_⟩
      · simp only [postProcess, postTruncate, Option.map_some, procFn, Res.bind_ok, l1]
      · have := l2.same .ids (by simp)
        simpa only [Encoding.arr, seqArr] using this
      · have := l2.same .tokens (by simp)
        simpa only [Encoding.arr, seqArr] using this
  obtain ⟨r, l1, l2, l3⟩ := hpost
  have hvals : rows.map (·.token.value) = tb.map byteLevelImage := by rw [← h4, h6]; rfl
  have hknown : ∀ q ∈ rows, T.idToToken q.token.id = some q.token.value := by
    intro q hq
    obtain ⟨f, bs, ts, n1, n2, n3⟩ := h7 q hq
    cases n1
    apply k6
    show mget (vocabList m) _ = _
    rw [hvl, ← m4]
    apply bpeModel_known n2 n3
    have : q.token.value ∈ rows.map (·.token.value) := List.mem_map_of_mem hq
    rw [hvals] at this
    obtain ⟨x, hx, e'⟩ := List.mem_map.mp this
    intro hv
    rw [hv] at e'
    exact h3 x hx (List.map_eq_nil_iff.mp e')
  have hdecode : byteLevelDecode (charBytes E.charOrder) ((tb.map byteLevelImage).map encStr) = encStr (prefixed a s) := by
    apply C26_decode E.charOrder hc
    rw [← h2]
    exact images_joined tb
  have hids : r.ids = rows.map (·.token.id) := by rw [l2, h6]; rfl
  refine ⟨r, ?_, ?_, ⟨tb, h2, h3, by rw [l3, h4]⟩, ?_, ?_⟩
  · have := fromReader_ok (E := E) (c := c) (n := none) (tr := none) (by rw [hm, hd]; exact m1) (by rw [hn]; rfl)
      (by rw [hp]; exact fromSection_some (C70_preTokenizer_partial E.cfg p _ hpre)) p1
      (by rw [hd]; exact fromSection_some (C70_decoder_partial d _ hdec)) (by rw [hm]; exact k1) k2 k3 (by rw [htr]; rfl)
    rw [this, hpad]
    rfl
  · simp only [Tokenizer.encodeSingle, Tokenizer.encode, Tokenizer.encodeWith, h1, Res.bind_ok, l1]
  · unfold Built.decode
    dsimp only
    rw [hids, decodeTokens_known rows (fun q hq => ⟨hknown q hq, fun h => by cases h⟩), hvals]
    simp only [decodeFn, hdecode]
  · intro hsp
    unfold Built.decode
    dsimp only
    rw [hids, decodeTokens_known rows (fun q hq => ⟨hknown q hq, fun _ => ?_⟩), hvals]
    · simp only [decodeFn, hdecode]
    · cases hq' : T.isSpecial q.token.value with
      | false => rfl
      | true =>
        obtain ⟨_, x, hx, hx1, hx2⟩ := (k7 _).1 hq'
        exfalso
        apply hsp x hx hx1
        rw [hx2, l3, h4, ← hvals]
        exact List.mem_map_of_mem hq

/-- A vocabulary of the alphabet and a token "he". -/
def exampleFileVocab : List (Str × Int) :=
  (List.range 256).map (fun i => ([alphabetChar (UInt8.ofNat i)], (i : Int))) ++ [("he".toList, 256)]

/-- A section "model" with this vocabulary and the merge "h e". -/
def exampleFileModel : List (Str × Val) :=
  [("type".toList, .str "BPE".toList), ("dropout".toList, .null), ("unk_token".toList, .null),
   ("continuing_subword_prefix".toList, .str []), ("end_of_word_suffix".toList, .str []),
   ("vocab".toList, vocabVal exampleFileVocab), ("merges".toList, .arr [.str "h e".toList])]

/-- The sections "pre_tokenizer" and "decoder" of the same file. -/
def exampleFileBytes : List (Str × Val) :=
  [("type".toList, .str "ByteLevel".toList), ("add_prefix_space".toList, .bool false), ("trim_offsets".toList, .bool true)]

theorem exampleFile_section : BpeSection exampleFileModel exampleFileBytes exampleFileVocab [(['h'], ['e'])] where
  type := .given _ (by rfl)
  vocab := by rfl
  merges := ⟨_, rfl, .cons _ _ _ _ (.line ['h'] ['e']) .nil⟩
  dropout := by rfl
  unk := ⟨none, by rfl⟩
  subword := .inr (by rfl)
  suffix := ⟨some [], by rfl⟩
  good := ⟨by decide +kernel, by decide +kernel, by decide +kernel⟩
  alphabet := by
    intro x
    refine ⟨(x.toNat : Int), List.mem_append_left _ (List.mem_map.mpr ⟨x.toNat, ?_, ?_⟩)⟩
    · exact List.mem_range.mpr x.toNat_lt
    · simp
  closed := by
    intro e he
    cases List.mem_singleton.mp he
    exact ⟨by decide, by decide, 256, by decide +kernel⟩

example (env : Config.Env) : PreDesc env exampleFileBytes (.byteLevel false true) ∧ DecDesc exampleFileBytes (.byteLevel false true) ∧
    ProcDesc exampleFileBytes (.byteLevel false true) :=
  ⟨.byteLevel _ _ _ (by unfold TypeIs; rfl) (.inl (by rfl)) (.inl (by rfl)), .byteLevel _ _ _ (by unfold TypeIs; rfl) (.inl (by rfl)) (.inl (by rfl)),
    .byteLevel _ _ _ (by unfold TypeIs; rfl) (.inl (by rfl)) (.inl (by rfl))⟩

/-- An added token that does not occur in "hello". -/
example : "<|endoftext|>".toList ≠ [] ∧ ¬ "<|endoftext|>".toList <:+: "hello".toList := by decide +kernel

end Tok.Whole
