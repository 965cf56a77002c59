import Verif.Whole.FromReaderLemmas

/-!
# C127: the tokenizer of a file has the components that the file describes
-/

namespace Tok.Whole

open Tok.PreTok Tok.Added Tok.Config
open Tok.Norm (NStr)

/-! ### Specification -/

/-- A section that is absent gives nothing; a section that is there gives what it describes. -/
inductive SectionIs (D : List (Str × Val) → α → Prop) : Option (List (Str × Val)) → Option α → Prop
  | absent : SectionIs D none none
  | given (m : List (Str × Val)) (x : α) : D m x → SectionIs D (some m) (some x)

/-- The content of an added token can be looked for: it is not empty, and if it is looked for as a single word, then the
normalizer makes a text that is not empty from it. -/
def CanBeFound (norm : Option (NStr → Res NStr)) (d : TokenConfig) : Prop :=
  d.content ≠ [] ∧ (d.singleWord = true → ∃ w, Gives norm d.content w ∧ w ≠ [])

/-! ### Lemmas -/

theorem section_made {D : List (Str × Val) → α → Prop} {f : List (Str × Val) → Res α} (hf : ∀ m x, D m x → f m = .ok x)
    {o : Option (List (Str × Val))} {r : Option α} (h : SectionIs D o r) : fromSection f o = .ok r := by
  cases h with
  | absent => rfl
  | given m x hx => exact fromSection_some (hf m x hx)

theorem section_back {f : List (Str × Val) → Res α} {o : Option (List (Str × Val))} {r : Option α}
    (h : fromSection f o = .ok r) : SectionIs (fun m x => f m = .ok x) o r := by
  cases o with
  | none => cases h; exact .absent
  | some m =>
    simp only [fromSection] at h
    obtain ⟨x, h1, h2⟩ := Res.bind_eq_ok.mp h
    cases h2
    exact .given m x h1

theorem load_sets {T₀ T : VocabState} (h₀ : FreshModel T₀) {cfg : List TokenConfig} (e : loadAdded T₀ cfg = .ok T)
    (wordChar : Char → Bool) {norm : Option (NStr → Res NStr)} (order : List PatMatch → List PatMatch)
    (h : ∀ d ∈ cfg, CanBeFound norm d) :
    ∃ re reN, buildSet wordChar norm order T.splitRe = .ok re ∧ buildSet wordChar norm order T.splitNormalizedRe = .ok reN := by
  obtain ⟨f1, _⟩ := C71_flags h₀ cfg T e
  have back : ∀ p ∈ T.splitRe ++ T.splitNormalizedRe, p.1.content ≠ [] ∧
      (p.1.singleWord = true → ∃ w, Gives norm p.1.content w ∧ w ≠ []) := by
    intro p hp
    obtain ⟨d, hd, g1, g2, _⟩ := f1 p hp
    rw [g1, g2]
    exact h d hd
  have made : ∀ es : List (AddedToken × Int), (∀ p ∈ es, p ∈ T.splitRe ++ T.splitNormalizedRe) →
      ∃ re, buildSet wordChar norm order es = .ok re := by
    intro es hes
    obtain ⟨res, k1, _⟩ := buildPatterns_ok (wordChar := wordChar) (norm := norm) (es := es) (fun p hp => back p (hes p hp))
    exact ⟨_, by simp only [buildSet, k1, Res.bind_ok]; rfl⟩
  obtain ⟨re, k1⟩ := made T.splitRe (fun p hp => by simp [hp])
  obtain ⟨reN, k2⟩ := made T.splitNormalizedRe (fun p hp => by simp [hp])
  exact ⟨re, reN, k1, k2⟩

/-! ### C127 -/

/-- C127: if the model can be made, every other section is absent or describes a component, and the added tokens can be
looked for, then the tokenizer has exactly these components, knows every added token, and gives as special exactly those
marked as special; the ids of the vocabulary stay. -/
theorem C127_components_partial (E : FileEnv) (c : FileConfig) (a : AnyModel) (n : Option NormCfg) (pre : Option PreCfg)
    (proc : Option ProcCfg) (dec : Option DecCfg) (tr : Option TruncParams)
    (hm : createModel (c.model.getD []) (c.decoder.getD []) = .ok a)
    (hn : SectionIs (NormDesc E.cfg) c.normalizer n) (hp : SectionIs (PreDesc E.cfg) c.preTokenizer pre)
    (hq : SectionIs ProcDesc c.postProcessor proc) (hd : SectionIs DecDesc c.decoder dec)
    (ht : createTruncation c.truncation = .ok tr) (hf : FreshModel (vocabOf (c.model.getD []) a))
    (hadd : ∀ d ∈ c.addedTokens, CanBeFound (n.map (normalizerOf E)) d) :
    ∃ b, fromReader E (some c) = .ok b ∧ b.tok.tk.normalizer = n.map (normalizerOf E) ∧ b.tok.tk.preTokenizer = pre.map (preFn E) ∧
      b.tok.tk.model = some (modelFn E a) ∧ b.tok.processor = proc.map procFn ∧ b.decoder = dec.map (decodeFn E) ∧
      b.tok.trunc = tr ∧ b.tok.padding = createPadding c.padding ∧
      (∀ w i, mget (vocabOf (c.model.getD []) a).vocab w = some i → b.state.tokenToId w = some i) ∧
      (∀ d ∈ c.addedTokens, (b.state.tokenToId d.content).isSome = true) ∧
      (∀ w, b.state.isSpecial w = true ↔ w ≠ [] ∧ ∃ d ∈ c.addedTokens, d.special = true ∧ d.content = w) := by
  obtain ⟨T, e, k1, k2⟩ := C71_known hf c.addedTokens
  obtain ⟨re, reN, h7, h8⟩ := load_sets hf e E.wordChar E.order hadd
  refine ⟨_, fromReader_ok hm (section_made (C70_normalizer_partial E.cfg) hn)
    (section_made (C70_preTokenizer_partial E.cfg) hp) (section_made C70_postProcessor hq)
    (section_made C70_decoder_partial hd) e h7 h8 ht, rfl, rfl, rfl, rfl, rfl, rfl, rfl, (C71_ids hf c.addedTokens T e).1, ?_, k2⟩
  intro d hd
  exact (k1 d.content).2 (.inr ⟨(hadd d hd).1, d, hd, rfl⟩)

/-- C127: a tokenizer comes only from a file whose sections could all be read: the model is made, and each component is
there exactly if its section is, made from this section. -/
theorem C127_only (E : FileEnv) (f : Option FileConfig) (b : Built) (h : fromReader E f = .ok b) :
    ∃ c, f = some c ∧ ∃ a n pre proc dec,
      createModel (c.model.getD []) (c.decoder.getD []) = .ok a ∧ b.tok.tk.model = some (modelFn E a) ∧
      SectionIs (fun m x => createNorm E.cfg m = .ok x) c.normalizer n ∧ b.tok.tk.normalizer = n.map (normalizerOf E) ∧
      SectionIs (fun m x => createPre E.cfg m = .ok x) c.preTokenizer pre ∧ b.tok.tk.preTokenizer = pre.map (preFn E) ∧
      SectionIs (fun m x => createProc m = .ok x) c.postProcessor proc ∧ b.tok.processor = proc.map procFn ∧
      SectionIs (fun m x => createDec m = .ok x) c.decoder dec ∧ b.decoder = dec.map (decodeFn E) ∧
      createTruncation c.truncation = .ok b.tok.trunc ∧ b.tok.padding = createPadding c.padding := by
  cases f with
  | none => cases h
  | some c =>
    simp only [fromReader] at h
    obtain ⟨a, h1, h⟩ := Res.bind_eq_ok.mp h
    obtain ⟨n, h2, h⟩ := Res.bind_eq_ok.mp h
    obtain ⟨pre, h3, h⟩ := Res.bind_eq_ok.mp h
    obtain ⟨proc, h4, h⟩ := Res.bind_eq_ok.mp h
    obtain ⟨dec, h5, h⟩ := Res.bind_eq_ok.mp h
    obtain ⟨T, h6, h⟩ := Res.bind_eq_ok.mp h
    obtain ⟨re, h7, h⟩ := Res.bind_eq_ok.mp h
    obtain ⟨reN, h8, h⟩ := Res.bind_eq_ok.mp h
    obtain ⟨tr, h9, h⟩ := Res.bind_eq_ok.mp h
    cases h
    exact ⟨c, rfl, a, n, pre, proc, dec, h1, rfl, section_back h2, rfl, section_back h3, rfl, section_back h4, rfl,
      section_back h5, rfl, h9, rfl⟩

/-- C127: a normalizer, pre-tokenizer, post-processor or decoder of a type that is not known makes an error, if the
sections read before describe components. -/
theorem C127_unknown_type (E : FileEnv) (c : FileConfig) (a : AnyModel) (m : List (Str × Val)) (s : Str)
    (hm : createModel (c.model.getD []) (c.decoder.getD []) = .ok a) (h : get m "type" = .str s)
    (hs : ∀ k ∈ ["BertNormalizer", "StripNormalizer", "Strip", "StripAccents", "NFC", "NFD", "NFKC", "NFKD", "Sequence",
      "Lowercase", "Nmt", "Precompiled", "Replace", "Prepend", "BertPreTokenizer", "ByteLevel", "Delimiter", "Metaspace",
      "Whitespace", "WhitespaceSplit", "Punctuation", "Digits", "UnicodeScripts", "Split", "RobertaProcessing",
      "BertProcessing", "TemplateProcessing", "BPE", "WordPiece", "CTC", "Fuse", "ByteFallback"], s ≠ k.toList) :
    (c.normalizer = some m → fromReader E (some c) = .err) ∧
    (∀ n, SectionIs (NormDesc E.cfg) c.normalizer n → c.preTokenizer = some m → fromReader E (some c) = .err) ∧
    (∀ n pre, SectionIs (NormDesc E.cfg) c.normalizer n → SectionIs (PreDesc E.cfg) c.preTokenizer pre →
      c.postProcessor = some m → fromReader E (some c) = .err) ∧
    (∀ n pre proc, SectionIs (NormDesc E.cfg) c.normalizer n → SectionIs (PreDesc E.cfg) c.preTokenizer pre →
      SectionIs ProcDesc c.postProcessor proc → c.decoder = some m → fromReader E (some c) = .err) := by
  obtain ⟨h1, h2, h3, h4⟩ := C70_unknown_type E.cfg m s h hs
  have err : ∀ {α : Type} {f : List (Str × Val) → Res α}, f m = .err → fromSection f (some m) = .err := by
    intro α f hf
    simp only [fromSection, hf, Res.bind_err]
  refine ⟨?_, ?_, ?_, ?_⟩
  · intro e1
    simp only [fromReader, hm, e1, err h1, Res.bind_ok, Res.bind_err]
  · intro n e1 e2
    simp only [fromReader, hm, section_made (C70_normalizer_partial E.cfg) e1, e2, err h2, Res.bind_ok, Res.bind_err]
  · intro n pre e1 e2 e3
    simp only [fromReader, hm, section_made (C70_normalizer_partial E.cfg) e1,
      section_made (C70_preTokenizer_partial E.cfg) e2, e3, err h3, Res.bind_ok, Res.bind_err]
  · intro n pre proc e1 e2 e3 e4
    rw [e4] at hm
    simp only [fromReader, e4, hm, section_made (C70_normalizer_partial E.cfg) e1,
      section_made (C70_preTokenizer_partial E.cfg) e2, section_made C70_postProcessor e3, err h4, Res.bind_ok,
      Res.bind_err]

/-- C127 fails for a file that holds `null`, and for sections without a type: a panic instead of an error. -/
theorem C127_null_violated (E : FileEnv) :
    fromReader E none = .panic ∧
    ∀ (c : FileConfig) (a : AnyModel) (m : List (Str × Val)), createModel (c.model.getD []) (c.decoder.getD []) = .ok a →
      get m "type" = .null → c.normalizer = some m ∨ (c.normalizer = none ∧ c.preTokenizer = some m) →
      fromReader E (some c) = .panic := by
  refine ⟨rfl, ?_⟩
  intro c a m hm ht h
  obtain ⟨h1, h2, _⟩ := C70_no_type_violated E.cfg m ht
  rcases h with h | ⟨h, h'⟩
  · simp only [fromReader, hm, h, fromSection, h1, Res.bind_ok, Res.bind_panic]
  · simp only [fromReader, hm, h, h', fromSection, h2, Res.bind_ok, Res.bind_panic]

/-- A file with a WordLevel model, a pre-tokenizer and an added token. -/
def exampleFile : FileConfig :=
  { addedTokens := [{ id := 2, content := "[PAD]".toList, special := true }]
    preTokenizer := some [("type".toList, .str "WhitespaceSplit".toList)]
    model := some [("type".toList, .str "WordLevel".toList),
      ("vocab".toList, vocabVal [("a".toList, 0), ("[UNK]".toList, 1)]), ("unk_token".toList, .str "[UNK]".toList)] }

example (env : Config.Env) : SectionIs (NormDesc env) exampleFile.normalizer none ∧
    SectionIs (PreDesc env) exampleFile.preTokenizer (some .whitespaceSplit) ∧
    SectionIs ProcDesc exampleFile.postProcessor none ∧ SectionIs DecDesc exampleFile.decoder none ∧
    ∀ d ∈ exampleFile.addedTokens, CanBeFound none d :=
  ⟨.absent, .given _ _ (.whitespaceSplit _ (by unfold TypeIs; rfl)), .absent, .absent, by
    intro d hd
    cases List.mem_singleton.mp hd
    exact ⟨by decide, fun h => by cases h⟩⟩

/-- C100, violated: if the normalizer reports an error for an added token that is a single word, the process ends. -/
theorem C100_added_violated (wordChar : Char → Bool) (f : NStr → Res NStr) (order : List PatMatch → List PatMatch)
    (es : List (AddedToken × Int)) (e : AddedToken × Int) (he : e ∈ es) (h1 : e.1.singleWord = true)
    (h2 : f (Norm.newNStr (encStr e.1.content)) = .err) : buildSet wordChar (some f) order es = .panic := by
  have hcore : ∀ t : AddedToken, core wordChar (some f) t = .panic ∨ ∃ re, core wordChar (some f) t = .ok re := by
    intro t
    unfold core
    split
    · split
      · exact .inl rfl
      · next c cs h =>
        cases hf : f (Norm.newNStr (encStr t.content)) with
        | ok n => exact .inr ⟨_, by simp only [normContent, hf, Res.bind_ok]; rfl⟩
        | err => exact .inl (by simp only [normContent, hf, Res.bind_panic])
        | panic => exact .inl (by simp only [normContent, hf, Res.bind_panic])
    · exact .inr ⟨_, rfl⟩
  have hbad : core wordChar (some f) e.1 = .panic := by
    unfold core
    rw [if_pos h1]
    split
    · rfl
    · next c cs h =>
      simp only [normContent, h2, Res.bind_panic]
  have : buildPatterns wordChar (some f) es = .panic := by
    clear order
    induction es with
    | nil => cases he
    | cons x es ih =>
      rw [buildPatterns]
      rcases List.mem_cons.mp he with rfl | he
      · simp only [getPattern, hbad, Res.bind_panic]
      · rcases hcore x.1 with h | ⟨re, h⟩
        · simp only [getPattern, h, Res.bind_panic]
        · simp only [getPattern, h, Res.bind_ok, ih he, Res.bind_panic]
  simp only [buildSet, this, Res.bind_panic]

example : buildSet (fun _ => true) (some fun _ => .err) id [(⟨['a'], true, false, false, false⟩, 0)] = .panic :=
  C100_added_violated _ _ _ _ _ List.mem_cons_self rfl rfl

end Tok.Whole
