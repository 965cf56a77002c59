import Verif.Whole.ProcAdds
import Verif.Whole.PropsPresetsRoberta
import Verif.Vocab.PropsLoad

/-!
# C133: byte-level BPE files with special tokens around the text
-/

namespace Tok.Whole

open Tok.PreTok Tok.Added Tok.Config

/-! ### Specification -/

/-- The added tokens of a file have the ids that the file gives them: no token is twice, those in the vocabulary `v` have
their ids there, and the others have the ids that follow, the special ones first. -/
structure AddedInOrder (v : List (Str × Int)) (l : List TokenConfig) : Prop where
  once : (l.map (·.content)).Nodup
  known : ∀ x ∈ l, ∀ i, (x.content, i) ∈ v → x.id = i
  specialFirst : (l.filter (fun x => (mget v x.content).isNone)).Pairwise (fun x y => y.special = true → x.special = true)
  next : ∀ (j : Nat) x, (l.filter (fun x => (mget v x.content).isNone))[j]? = some x → x.id = (v.length : Int) + j

/-! ### Lemmas -/

/-- A byte-level BPE tokenizer from a file, whatever its post-processor. -/
theorem byte_file {E : FileEnv} (hL : E.isL ' ' = false) (hN : E.isN ' ' = false) (ho : ∀ l, (E.order l).Perm l)
    {c : FileConfig} {m p d : List (Str × Val)} {v : List (Str × Int)}
    {es : List (Str × Str)} (hm : c.model = some m) (hs : BpeSection m d v es) (hd : c.decoder = some d) {a₁ t₁ : Bool}
    (hdec : DecDesc d (.byteLevel a₁ t₁)) (hp : c.preTokenizer = some p) {a t : Bool} (hpre : PreDesc E.cfg p (.byteLevel a t))
    {pc : Option ProcCfg} (p1 : fromSection createProc c.postProcessor = .ok pc)
    (hn : c.normalizer = none) (htr : c.truncation = none) (hpad : c.padding = none)
    {s : Str} (hadd : ∀ x ∈ c.addedTokens, x.content ≠ [] ∧ ¬ x.content <:+: s)
    (hnul : a = true → s.head? ≠ some '\x00') :
    ∃ (b : Built) (rows : List Row) (tb : List (List UInt8)), fromReader E (some c) = .ok b ∧
      (∀ opts, b.tok.encodeSingle (encStr s) opts = postProcess none (pc.map procFn) none (ofRows rows 0) none (opts.headD false)) ∧
      b.decoder = some (decodeFn E (.byteLevel a₁ t₁)) ∧
      tb.flatten = encStr (prefixed a s) ∧ (∀ x ∈ tb, x ≠ []) ∧ rows.map (·.token.value) = tb.map byteLevelImage ∧
      (∀ q ∈ rows, b.state.idToToken q.token.id = some q.token.value) ∧
      (∀ w, b.state.isSpecial w = true ↔ w ≠ [] ∧ ∃ x ∈ c.addedTokens, x.special = true ∧ x.content = w) ∧
      (AddedInOrder v c.addedTokens → ∀ x ∈ c.addedTokens, b.state.idToToken x.id = some x.content) ∧
      b.tok.tk.encodeSingle (.raw (encStr s)) 0 .byte = .ok (ofRows rows 0) ∧
      ('\x00' ∉ s → rows.map (·.offsets) = placesFrom (alignsOf (prefixedBlocks a s) 0) 0 tb) := by
  obtain ⟨bm, m1, m2, m3, m4⟩ := bpe_section hs
  have hvl := vocabList_ok hs.vocab
  have hst : FreshModel (vocabOf m (.bpe bm none)) := by
    refine ⟨⟨rfl, rfl, rfl, rfl, rfl, rfl, rfl⟩, ?_, ?_, ?_⟩
    · show ((vocabList m).map (·.1)).Nodup
      rw [hvl]; exact hs.good.names
    · intro w i hw
      have hw : mget v w = some i := by rw [← hvl]; exact hw
      have := hs.good.range _ ((mget_mem hs.good.names w i).1 hw)
      show 0 ≤ i ∧ i < ((vocabList m).length : Int)
      rw [hvl]; exact this
    · intro w i
      show bm.vocabR i = some w ↔ mget (vocabList m) w = some i
      rw [hvl]; exact m4 i w
  obtain ⟨T, re, reN, k1, k2, k3, k4, k5, k6, k7⟩ := load_quiet hst c.addedTokens E.wordChar (norm := none) ho s s
    (fun x hx _ => absent_none (hadd x hx)) (fun x hx _ => absent_none (hadd x hx))
  have hpf : preFn E (.byteLevel a t) = byteLevelPre a (gpt2Engine E.isL E.isN) := by
    funext pt; rw [preFn]
  obtain ⟨e, tb, h1, h2, h3, h4, h5, rows, h6, h7⟩ := byteTk_encode
    (t := ⟨re, reN, none, some (preFn E (.byteLevel a t)), some (bpeModel E.heap bm)⟩) (a := a)
    ⟨rfl, by rw [hpf], _, rfl, byteModel_bpe E.heap m2⟩ (gpt2_proper E.isL E.isN) s ⟨k4, k5⟩ hnul
    (fun hs _ h => gpt2_keeps E.isL E.isN hL hN hs h) 0
  subst h6
  have hvals : rows.map (·.token.value) = tb.map byteLevelImage := by rw [← h4]; rfl
  refine ⟨⟨⟨⟨re, reN, none, some (preFn E (.byteLevel a t)), some (bpeModel E.heap bm)⟩, none, none, pc.map procFn⟩, T,
    some (decodeFn E (.byteLevel a₁ t₁))⟩, rows, tb, ?_, ?_, rfl, h2, h3, hvals, ?_, k7, ?_, h1, h5⟩
  · have := fromReader_ok (E := E) (c := c) (n := none) (tr := none) (by rw [hm, hd]; exact m1) (by rw [hn]; rfl)
      (by rw [hp]; exact fromSection_some (C70_preTokenizer_partial E.cfg p _ hpre)) p1
      (by rw [hd]; exact fromSection_some (C70_decoder_partial d _ hdec)) (by rw [hm]; exact k1) k2 k3 (by rw [htr]; rfl)
    rw [this, hpad]
    rfl
  · intro opts
    simp only [Tokenizer.encodeSingle, Tokenizer.encode, Tokenizer.encodeWith, h1, Res.bind_ok]
  · intro q hq
    obtain ⟨f, bs, ts, n1, n2, n3⟩ := h7 q hq
    cases n1
    apply k6
    show mget (vocabList m) _ = _
    rw [hvl, ← m4]
    apply bpeModel_known n2 n3
    have : q.token.value ∈ rows.map (·.token.value) := List.mem_map_of_mem hq
    rw [hvals] at this
    obtain ⟨x, hx, e'⟩ := List.mem_map.mp this
    intro hv
    rw [hv] at e'
    exact h3 x hx (List.map_eq_nil_iff.mp e')
  · intro hao x hx
    have hvv : (vocabOf m (.bpe bm none)).vocab = v := hvl
    have hsz : (vocabOf m (.bpe bm none)).getVocabSize false = v.length := by
      simp [VocabState.getVocabSize, VocabState.modelSize, vocabOf, hvl]
    have := C71_config_ids_partial hst c.addedTokens T k1 (fun x hx => (hadd x hx).1) hao.once
      (by
        rw [hvv]
        intro d hd i hi
        exact hao.known d hd i ((mget_mem hs.good.names _ _).1 hi))
      (by rw [hvv]; exact hao.specialFirst)
      (by rw [hvv, hsz]; exact hao.next) x hx
    obtain ⟨T₁, T', e', r1, r2, _⟩ := load_steps hst c.addedTokens
    rw [k1] at e'
    cases e'
    exact ((r2.full (r1.full hst.full)).inv.roundtrip _ _).1 this

/-! ### C133 -/

/-- C133: a file with a byte-level BPE model, the pre-tokenizer and the decoder ByteLevel, and a post-processor that puts
special tokens of the file around the text makes a tokenizer that encodes every text in which no added token occurs; the
tokens between the special ones are the images of byte strings that make up the text, and `Decode` without special tokens
gives the bytes of the text back (with the space in front, if the pre-tokenizer puts one there), unless one of the tokens is
written like a special token. -/
theorem C133_special_partial (E : FileEnv) (hL : E.isL ' ' = false) (hN : E.isN ' ' = false) (ho : ∀ l, (E.order l).Perm l)
    (hc : E.charOrder.Perm bytesCharMap) (c : FileConfig) (m p d : List (Str × Val)) (v : List (Str × Int))
    (es : List (Str × Str)) (hm : c.model = some m) (hs : BpeSection m d v es) (hd : c.decoder = some d) (a₁ t₁ : Bool)
    (hdec : DecDesc d (.byteLevel a₁ t₁)) (hp : c.preTokenizer = some p) (a t : Bool) (hpre : PreDesc E.cfg p (.byteLevel a t))
    (before after : List (Str × Int)) (hproc : Surrounds c.postProcessor before after)
    (hao : AddedInOrder v c.addedTokens)
    (hplaces : ∀ x ∈ before ++ after, ∃ y ∈ c.addedTokens, y.special = true ∧ y.content = x.1 ∧ y.id = x.2)
    (hn : c.normalizer = none) (htr : c.truncation = none) (hpad : c.padding = none)
    (s : Str) (hadd : ∀ x ∈ c.addedTokens, x.content ≠ [] ∧ ¬ x.content <:+: s)
    (hnul : a = true → s.head? ≠ some '\x00') :
    ∃ (b : Built) (e : Encoding) (tb : List (List UInt8)), fromReader E (some c) = .ok b ∧
      b.tok.encodeSingle (encStr s) [true] = .ok (some e) ∧
      tb.flatten = encStr (prefixed a s) ∧ (∀ x ∈ tb, x ≠ []) ∧
      e.tokens = before.map (·.1) ++ tb.map byteLevelImage ++ after.map (·.1) ∧
      (∃ ids, e.ids = before.map (·.2) ++ ids ++ after.map (·.2) ∧ ids.length = tb.length) ∧
      ((∀ x ∈ c.addedTokens, x.special = true → x.content ∉ tb.map byteLevelImage) →
        b.decode e.ids true = .ok (encStr (prefixed a s))) := by
  obtain ⟨pc, p1, p2⟩ := surrounds_post hproc
  obtain ⟨b, rows, tb, h1, h2, h3, h4, h5, h6, h7, h8, h9, _⟩ := byte_file hL hN ho hm hs hd hdec hp hpre p1 hn htr hpad hadd hnul
  obtain ⟨r, l1, l2, l3⟩ := p2 rows
  have hids : (ofRows rows 0).ids = rows.map (·.token.id) := rfl
  have htoks : (ofRows rows 0).tokens = rows.map (·.token.value) := rfl
  refine ⟨b, r, tb, h1, ?_, h4, h5, by rw [l3, htoks, h6], ⟨_, l2, ?_⟩, fun hsp => ?_⟩
  · rw [h2]; exact l1
  · have := congrArg List.length h6
    simpa [hids] using this
  · have hx : ∀ x ∈ before ++ after, b.state.idToToken x.2 = some x.1 ∧ b.state.isSpecial x.1 = true := by
      intro x hx
      obtain ⟨y, hy, y1, y2, y3⟩ := hplaces x hx
      refine ⟨by rw [← y3, ← y2]; exact h9 hao y hy, (h8 _).2 ⟨?_, y, hy, y1, y2⟩⟩
      rw [← y2]; exact (hadd y hy).1
    have hb : ∀ l : List (Str × Int), (∀ x ∈ l, x ∈ before ++ after) → b.state.decodeTokens true (l.map (·.2)) = [] := by
      intro l
      induction l with
      | nil => intro _; rfl
      | cons x l ih =>
        intro h
        obtain ⟨g1, g2⟩ := hx x (h x (by simp))
        simp only [List.map_cons, VocabState.decodeTokens, g1, g2, ih (fun y hy => h y (by simp [hy]))]
        rfl
    have hdecode : byteLevelDecode (charBytes E.charOrder) ((tb.map byteLevelImage).map encStr) = encStr (prefixed a s) := by
      apply C26_decode E.charOrder hc
      rw [← h4]
      exact images_joined tb
    have hr : b.state.decodeTokens true (rows.map (·.token.id)) = rows.map (·.token.value) := by
      apply decodeTokens_known rows
      intro q hq
      refine ⟨h7 q hq, fun _ => ?_⟩
      cases hq' : b.state.isSpecial q.token.value with
      | false => rfl
      | true =>
        obtain ⟨_, x, hx, hx1, hx2⟩ := (h8 _).1 hq'
        exfalso
        apply hsp x hx hx1
        rw [hx2, ← h6]
        exact List.mem_map_of_mem hq
    unfold Built.decode
    rw [h3, l2, decodeTokens_append, decodeTokens_append, hb before (fun x hx => by simp [hx]),
      hb after (fun x hx => by simp [hx]), hids, hr, h6]
    simp only [List.nil_append, List.append_nil, decodeFn, hdecode]

/-- C133 is violated by every RobertaProcessing without "trim_offsets": encoding any text with special tokens panics. -/
theorem C133_roberta_violated (E : FileEnv) (hL : E.isL ' ' = false) (hN : E.isN ' ' = false) (ho : ∀ l, (E.order l).Perm l)
    (c : FileConfig) (m p d : List (Str × Val)) (v : List (Str × Int))
    (es : List (Str × Str)) (hm : c.model = some m) (hs : BpeSection m d v es) (hd : c.decoder = some d) (a₁ t₁ : Bool)
    (hdec : DecDesc d (.byteLevel a₁ t₁)) (hp : c.preTokenizer = some p) (a t : Bool) (hpre : PreDesc E.cfg p (.byteLevel a t))
    (q : List (Str × Val)) (hq : c.postProcessor = some q) (sep cls : Str × Int) (aps : Bool)
    (hproc : ProcDesc q (.roberta sep cls false aps))
    (hn : c.normalizer = none) (htr : c.truncation = none) (hpad : c.padding = none)
    (s : Str) (hadd : ∀ x ∈ c.addedTokens, x.content ≠ [] ∧ ¬ x.content <:+: s)
    (hnul : a = true → s.head? ≠ some '\x00') :
    ∃ b : Built, fromReader E (some c) = .ok b ∧ b.tok.encodeSingle (encStr s) [true] = .panic := by
  obtain ⟨b, rows, tb, h1, h2, _⟩ := byte_file hL hN ho hm hs hd hdec hp hpre
    (pc := some (.roberta sep cls false aps)) (by rw [hq]; exact fromSection_some (C70_postProcessor q _ hproc)) hn htr hpad hadd hnul
  refine ⟨b, h1, ?_⟩
  rw [h2]
  simp [postProcess, postTruncate, procFn, Roberta.toProcessor, Roberta.process]

/-- The section "post_processor" of a file: ByteLevel, then the token "<s>" in front. -/
def exampleBosSequence : List (Str × Val) :=
  [("type".toList, .str "Sequence".toList),
   ("processors".toList, .arr [.obj exampleFileBytes, .obj
    [("type".toList, .str "TemplateProcessing".toList),
     ("single".toList, .arr ((surround [(['<', 's', '>'], 257)] [] 0).map pieceVal)), ("pair".toList, .arr []),
     ("special_tokens".toList, .obj ([⟨['<', 's', '>'], [257], [['<', 's', '>']]⟩].map tokenVal))]])]

/-- The section "post_processor" of a file with the tokens "<s>" and "</s>". -/
def exampleRoberta : List (Str × Val) :=
  [("type".toList, .str "RobertaProcessing".toList), ("sep".toList, .arr [.str ['<', '/', 's', '>'], .float (258 : Int)]),
   ("cls".toList, .arr [.str ['<', 's', '>'], .float (257 : Int)]), ("trim_offsets".toList, .bool true),
   ("add_prefix_space".toList, .bool false)]

/-- The added tokens of these files. -/
def exampleBosTokens : List TokenConfig :=
  [⟨257, ['<', 's', '>'], false, false, false, false, true⟩, ⟨258, ['<', '/', 's', '>'], false, false, false, false, true⟩]

theorem exampleBos_order : AddedInOrder exampleFileVocab exampleBosTokens where
  once := by decide
  known := by
    intro x hx i hi
    have : mget exampleFileVocab x.content = none := by
      rcases List.mem_cons.mp hx with rfl | hx
      · decide +kernel
      · cases List.mem_singleton.mp hx
        decide +kernel
    rw [(mget_mem exampleFile_section.good.names _ _).2 hi] at this
    cases this
  specialFirst := by
    apply List.pairwise_of_forall_mem_list
    intro x hx y _ _
    rcases List.mem_cons.mp (List.mem_filter.mp hx).1 with rfl | hx
    · rfl
    · cases List.mem_singleton.mp hx
      rfl
  next := by
    have : exampleBosTokens.filter (fun x => (mget exampleFileVocab x.content).isNone) = exampleBosTokens := by decide +kernel
    have hl : exampleFileVocab.length = 257 := by decide +kernel
    rw [this, hl]
    intro j x hj
    match j with
    | 0 => cases hj; rfl
    | 1 => cases hj; rfl
    | j + 2 => cases hj

example : Surrounds (some exampleBosSequence) [(['<', 's', '>'], 257)] [] :=
  .inr ⟨_, rfl, .sequence _ [(exampleFileBytes, [], [])] _ [(['<', 's', '>'], 257)] [] (by unfold TypeIs; rfl) (by rfl)
    (by
      intro x hx
      cases List.mem_singleton.mp hx
      exact .byteLevel _ false true (by unfold TypeIs; rfl) (.inl (by rfl)) (.inl (by rfl)))
    (.template _ _ _ 0 [] [⟨['<', 's', '>'], [257], [['<', 's', '>']]⟩] (by unfold TypeIs; rfl) (by rfl) (by rfl) (by rfl)
      (by decide) (by simp))⟩

example : Surrounds (some exampleRoberta) [(['<', 's', '>'], 257)] [(['<', '/', 's', '>'], 258)] :=
  .inr ⟨_, rfl, .one _ _ _ (.plain _ _ _ (.roberta _ _ _ false (by unfold TypeIs; rfl) (by unfold TokenIs; rfl)
    (by unfold TokenIs; rfl) (by rfl) (by rfl)))⟩

/-- These special tokens are added tokens with these ids. -/
example : ∀ x ∈ [((['<', 's', '>'] : Str), (257 : Int)), (['<', '/', 's', '>'], 258)],
    ∃ y ∈ exampleBosTokens, y.special = true ∧ y.content = x.1 ∧ y.id = x.2 := by
  intro x hx
  rcases List.mem_cons.mp hx with rfl | hx
  · exact ⟨_, .head _, rfl, rfl, rfl⟩
  · cases List.mem_singleton.mp hx
    exact ⟨_, .tail _ (.head _), rfl, rfl, rfl⟩

end Tok.Whole
