import Verif.Whole.PropsFromReader
import Verif.Config.Props

/-!
# C129: a BERT tokenizer from a file
-/

namespace Tok.Whole

open Tok.PreTok Tok.Added Tok.Config Tok.Regex
open Tok.Norm (NStr Tables)

/-! ### Specification -/

/-- The section "model" of a BERT tokenizer: WordPiece with a vocabulary in order that has `[CLS]` and `[SEP]`, and words
of at most `max` characters. -/
structure WordPieceSection (m d : List (Str × Val)) (v : List (Str × Int)) (max cls sep : Int) : Prop where
  type : Asks m d "WordPiece"
  vocab : get m "vocab" = vocabVal v
  unk : ∃ unk, IsOpt m "unk_token" .str unk
  subword : IsOpt m "continuing_subword_prefix" .str (none : Option Str) ∨
    IsOpt m "continuing_subword_prefix" .str (some "##".toList)
  length : IsOpt m "max_input_chars_per_word" (fun i : Int => .float i) (some max)
  good : GoodVocab v
  clsId : (clsT, cls) ∈ v
  sepId : (sepT, sep) ∈ v

/-- The section "post_processor" of a BERT tokenizer: BertProcessing, or the template `[CLS] $A [SEP]`. -/
def ClsSep (q : List (Str × Val)) (cls sep : Int) : Prop :=
  ProcDesc q (.bert (sepT, sep) (clsT, cls)) ∨
  (TypeIs q "TemplateProcessing" ∧ ∃ (ty : Int) (pair : List Piece) (toks : List SpecialToken),
    get q "single" = .arr (([.special clsT ty, .seq false ty, .special sepT ty] : List Piece).map pieceVal) ∧
    get q "pair" = .arr (pair.map pieceVal) ∧ get q "special_tokens" = .obj (toks.map tokenVal) ∧
    (toks.map (·.id)).Nodup ∧ ⟨clsT, [cls], [clsT]⟩ ∈ toks ∧ ⟨sepT, [sep], [sepT]⟩ ∈ toks)

/-- An added token of BERT: in brackets, to be found anywhere, and not in the text. -/
def BertToken (s u : Str) (x : TokenConfig) : Prop :=
  (∃ c r, x.content = '[' :: c :: r) ∧ x.singleWord = false ∧ ¬ x.content <:+: s ∧ ¬ x.content <:+: u

/-- What the vocabulary makes of the words. -/
def vocabPieces (v : List (Str × Int)) (max : Int) : WordPiece :=
  { vocab := mget v, unk := "[UNK]".toList, pre := ['#', '#'], maxChars := max }

/-- How a word is spelled with the vocabulary: its pieces, or nothing for a word that is too long or has no pieces. -/
def Spells (v : List (Str × Int)) (max : Int) (w : Str) : Option (List Str) → Prop
  | some g => (w.length : Int) ≤ max ∧ ∃ ps, Greedy (vocabPieces v max) true w ps ∧ g = ps.map (·.1)
  | none => max < w.length ∨ ∀ ps, ¬ Greedy (vocabPieces v max) true w ps

/-- The tokens of a word that is spelled so: `##` before all pieces but the first, the unknown token for a word without. -/
def spelling (unk : Str) : Option (List Str) → List Str
  | some g => wordValues ['#', '#'] g
  | none => [unk]

/-! ### Lemmas -/

theorem normalizes_bert_any {t : Tk} {T : Tables} {b : Norm.Bert} {s u : Str} (f : NStr → Res NStr)
    (ht : t.normalizer = some f) (hf : ∀ n, f n = b.normalize T n) (h : Plain T b.lowercase s u) : Normalizes t s u := by
  refine .inr (.inl ⟨_, ht, fun x hx => ?_⟩)
  obtain ⟨h1, h2⟩ := fresh_same hx.2.1
  have hu : (if b.lowercase = true then u else s) = u := by
    cases hl : b.lowercase with
    | true => rfl
    | false => exact (h.cased hl).symm
  obtain ⟨n, e1, e2, _⟩ := Norm.bert_same b T h1 h2 (ds := u) h.clean h.cjk h.lower (by rw [hu]; exact h.accents)
  rw [hu] at e2
  exact ⟨n, by rw [hf, e1], e2.wf, e2.text⟩

theorem bert_normalizerOf (E : FileEnv) (cl l ch a : Bool) (n : NStr) :
    normalizerOf E (.bert cl l ch a) n = Norm.Bert.normalize ⟨cl, l, ch, a⟩ E.tables n := by
  simp only [normalizerOf, normFn, Norm.Normalizer.normalize]
  cases Norm.Bert.normalize ⟨cl, l, ch, a⟩ E.tables n <;> rfl

theorem greedy_vocab {m m' : WordPiece} (hv : ∀ t, m.vocab t = m'.vocab t) (hp : m.pre = m'.pre) {first : Bool} {w : Str}
    {ps : List (Str × Int)} (h : Greedy m first w ps) : Greedy m' first w ps := by
  have : (⟨m'.vocab, m.unk, m'.pre, m.maxChars⟩ : WordPiece) = m := by
    cases m; cases m'
    simp only [WordPiece.mk.injEq] at *
    exact ⟨(funext hv).symm, trivial, hp.symm, trivial⟩
  induction h with
  | nil => exact .nil ..
  | cons first p rest id ps hp' hid hlong _ ih =>
    refine .cons first p rest id ps hp' ?_ ?_ ih
    · rw [← this] at hid; exact hid
    · rw [← this] at hlong; exact hlong

/-- What the post-processor makes of an encoding. -/
theorem clsSep_post {q : List (Str × Val)} {cls sep : Int} (h : ClsSep q cls sep) :
    ∃ pc, createProc q = .ok pc ∧ ∀ (rows : List Row), ∃ r,
      postProcess none (some (procFn pc)) none (ofRows rows 0) none true = .ok (some r) ∧
      r.ids = cls :: (ofRows rows 0).ids ++ [sep] ∧ r.tokens = clsT :: (ofRows rows 0).tokens ++ [sepT] ∧
      r.offsets = (0, 0) :: (ofRows rows 0).offsets ++ [(0, 0)] := by
  rcases h with h | ⟨ht, ty, pair, toks, h1, h2, h3, h4, h5, h6⟩
  · refine ⟨_, C70_postProcessor q _ h, fun rows => ?_⟩
    obtain ⟨r, k1, k2, _⟩ := C22_bert_single ⟨⟨sepT, sep⟩, ⟨clsT, cls⟩⟩ (ofRows rows 0)
    refine ⟨r, ?_, ?_, ?_, ?_⟩
    · simp only [postProcess, postTruncate, procFn, Bert.toProcessor, Res.bind_ok, k1]
    · have := k2 .ids
      rw [bertSingle, ofRows_plain] at this
      exact this
    · have := k2 .tokens
      rw [bertSingle, ofRows_plain] at this
      exact this
    · have := k2 .offsets
      rw [bertSingle, ofRows_plain] at this
      exact this
  · obtain ⟨tp, g1, g2, g3, g4, g5⟩ := C52_processor q _ pair toks h1 h2 h3 h4
    refine ⟨_, C70_postProcessor q _ (.template q tp ht g1), fun rows => ?_⟩
    obtain ⟨r, k1, k2⟩ := C24_template tp (ofRows rows 0) none true (ofRows_fresh rows 0) (by simp)
      (by
        simp only [TemplateProc.chosen, Option.isSome_none, Bool.false_eq_true, if_false, g2]
        refine ⟨by intro ty h; simp at h, fun _ id ty h => ?_⟩
        simp only [List.mem_cons, List.not_mem_nil, or_false, Piece.special.injEq, reduceCtorEq, false_or] at h
        rcases h with ⟨rfl, _⟩ | ⟨rfl, _⟩
        · exact ⟨_, g4 _ h5⟩
        · exact ⟨_, g4 _ h6⟩)
      (by
        simp only [TemplateProc.chosen, Option.isSome_none, Bool.false_eq_true, if_false, g2]
        exact .inr ⟨rfl, by simp⟩)
    have hc : tp.chosen (none : Option Encoding).isSome = [.special clsT ty, .seq false ty, .special sepT ty] := by
      simp only [TemplateProc.chosen, Option.isSome_none, Bool.false_eq_true, if_false, g2]
    rw [hc] at k2
    have e1 := g4 _ h5
    have e2 := g4 _ h6
    dsimp only at e1 e2
    refine ⟨r, ?_, ?_, ?_, ?_⟩
    · simp only [postProcess, postTruncate, procFn, TemplateProc.toProcessor, Res.bind_ok, k1]
    · have := k2 .ids
      simpa [pieceArr, e1, e2, specialArr, seqArr, Encoding.arr] using this
    · have := k2 .tokens
      simpa [pieceArr, e1, e2, specialArr, seqArr, Encoding.arr] using this
    · have := k2 .offsets
      simpa [pieceArr, e1, e2, specialArr, seqArr, Encoding.arr] using this

theorem wordpiece_decodeFn (E : FileEnv) (cleanup : Bool) (ts : List Str) :
    decodeFn E (.wordPiece ['#', '#'] cleanup) (ts.map encStr) =
      .ok (encStr (wpDecodeChain ['#', '#'] (if cleanup then some cleanupText else none) ts).flatten) := by
  simp only [decodeFn, chainFn, onText, Res.bind_ok, List.map_map]
  have : ts.map (decStr ∘ encStr) = ts := by
    have : decStr ∘ encStr = id := funext decStr_enc
    rw [this, List.map_id]
  rw [this]
  congr 1
  generalize wpDecodeChain _ _ _ = l
  induction l with
  | nil => rfl
  | cons x l ih => rw [List.map_cons, List.flatten_cons, List.flatten_cons, encStr_append, ih]

theorem tidy_pieces {isPunc : Char → Bool} (hp : ∀ c ∈ ['.', '?', '!', ',', '\''], isPunc c = true)
    {segs : List (List Str)} (hm : ∀ g ∈ segs, ∃ u, g.flatten ∈ bertWords isPunc u)
    (h4 : ∀ g ∈ segs, (∃ p ps, g = p :: ps ∧ ['#', '#'].isPrefixOf p = false) ∧ ∀ q ∈ g, q ≠ []) :
    (wpDecodeChain ['#', '#'] (some cleanupText) (segs.map (wordValues ['#', '#'])).flatten).flatten =
      tidy (segs.map List.flatten) := by
  cases segs with
  | nil => rfl
  | cons w ws =>
    have := C39_wordpiece ['#', '#'] w ws (by
      intro g hg
      obtain ⟨h1, _⟩ := h4 g hg
      obtain ⟨u, hu⟩ := hm g hg
      exact ⟨h1, fun q hq hsp => (bertWords_mem hu).2.1 (List.mem_flatten.mpr ⟨q, hq, hsp⟩)⟩)
    rw [C39_decode (fun ts => .ok (wpDecodeChain ['#', '#'] (some cleanupText) ts)) _ _ rfl] at this
    injection this with this
    rw [this, List.map_cons, tidy, List.map_map]
    congr 2
    apply List.map_congr_left
    intro g hg
    obtain ⟨⟨p, ps, rfl, _⟩, hne⟩ := h4 g (List.mem_cons_of_mem _ hg)
    obtain ⟨u, hu⟩ := hm _ (List.mem_cons_of_mem _ hg)
    exact drawnTo_word hp (hne p List.mem_cons_self) hu

theorem wordpiece_segs (pre : Str) (segs : List (List Str)) (h : ∀ s ∈ segs, ∃ p ps, s = p :: ps ∧ pre.isPrefixOf p = false) :
    (wpDecodeChain pre none (segs.map (wordValues pre)).flatten).flatten = joinSpace (segs.map List.flatten) := by
  unfold wpDecodeChain
  cases segs with
  | nil => rfl
  | cons s segs =>
    obtain ⟨p, ps, rfl, hp⟩ := h s (by simp)
    rw [List.map_cons, List.flatten_cons, wpDecode_append, List.flatten_append]
    simp only [wordValues, wpDecode, List.length_cons]
    rw [wpDecode_words pre segs _ (by omega) (fun s hs => h s (by simp [hs]))]
    simp only [List.map_cons, ne_eq, not_true_eq_false, if_false, List.flatten_cons]
    rw [wpDecode_cont pre ps (0 + 1) (by omega), joinSpace_cons, List.map_map]
    rfl

theorem bert_text (E : FileEnv) (hE : BertEnv E.toEnv) (cleanup : Bool) (segs : List (List Str))
    (hm : ∀ g ∈ segs, ∃ u, g.flatten ∈ bertWords E.punc u)
    (h4 : ∀ g ∈ segs, (∃ p ps, g = p :: ps ∧ ['#', '#'].isPrefixOf p = false) ∧ ∀ q ∈ g, q ≠ []) :
    decodeFn E (.wordPiece ['#', '#'] cleanup) ((segs.map (wordValues ['#', '#'])).flatten.map encStr) =
      .ok (encStr (if cleanup then tidy (segs.map List.flatten) else joinSpace (segs.map List.flatten))) := by
  rw [wordpiece_decodeFn]
  congr 2
  cases cleanup with
  | true =>
    rw [if_pos rfl, if_pos rfl]
    refine tidy_pieces (fun c hc => hE.punc c ?_) hm h4
    simp only [List.mem_cons, List.not_mem_nil, or_false] at hc ⊢
    rcases hc with h | h | h | h | h <;> simp [h]
  | false =>
    rw [if_neg (by simp), if_neg (by simp)]
    exact wordpiece_segs _ segs (fun g hg => (h4 g hg).1)

theorem spelled_list {P : Str → Option (List Str) → Prop} (l : List Str) (h : ∀ w ∈ l, ∃ o, P w o) :
    ∃ wds : List (Str × Option (List Str)), wds.map (·.1) = l ∧ ∀ x ∈ wds, P x.1 x.2 := by
  induction l with
  | nil => exact ⟨[], rfl, by simp⟩
  | cons w l ih =>
    obtain ⟨o, ho⟩ := h w (by simp)
    obtain ⟨wds, h1, h2⟩ := ih (fun w hw => h w (by simp [hw]))
    refine ⟨(w, o) :: wds, by rw [List.map_cons, h1], ?_⟩
    intro x hx
    rcases List.mem_cons.mp hx with rfl | hx
    · exact ho
    · exact h2 x hx

theorem pieces_known {m : WordPiece} {first : Bool} {w : Str} {ps : List (Str × Int)} (hg : Greedy m first w ps) (k : Nat) :
    ∀ x ∈ piecesToTokens m first k ps, m.vocab x.value = some x.id ∧ 0 ≤ x.offsets.1 ∧ x.offsets.1 ≤ x.offsets.2 := by
  induction hg generalizing k with
  | nil => intro x hx; cases hx
  | cons first p rest id ps hp hid hlong _ ih =>
    intro x hx
    simp only [piecesToTokens, List.mem_cons] at hx
    rcases hx with rfl | hx
    · refine ⟨hid, ?_⟩
      dsimp only
      omega
    · exact ih _ x hx

/-- What a BERT file makes of a text, before the post-processor: words with pieces and, if there is an unknown token, words
without. -/
theorem bert_words_file (E : FileEnv) (hE : BertEnv E.toEnv) (c : FileConfig) (m n p d : List (Str × Val))
    (v : List (Str × Int)) (max cls sep : Int) (hm : c.model = some m) (hs : WordPieceSection m d v max cls sep)
    (unk : Option Str) (hunk : IsOpt m "unk_token" .str unk)
    (hn : c.normalizer = some n) (cl l ch a : Bool) (hnorm : NormDesc E.cfg n (.bert cl l ch a))
    (hp : c.preTokenizer = some p) (hpre : PreDesc E.cfg p .bert)
    (pc : Option ProcCfg) (hq : fromSection createProc c.postProcessor = .ok pc)
    (hd : c.decoder = some d) (cleanup : Bool) (hdec : DecDesc d (.wordPiece "##".toList cleanup))
    (htr : c.truncation = none) (hpad : c.padding = none)
    (s u : Str) (hu : Plain E.tables l s u) (hadd : ∀ x ∈ c.addedTokens, BertToken s u x)
    (hspec : ∀ w ∈ [clsT, sepT], ∃ x ∈ c.addedTokens, x.special = true ∧ x.content = w)
    (hw : (∀ w ∈ piecesOf (bertWords E.punc) s u, (w.length : Int) ≤ max ∧ ∃ ps, Greedy (vocabPieces v max) true w ps) ∨
      ((∃ i, (unk.getD "[UNK]".toList, i) ∈ v) ∧
        ∃ x ∈ c.addedTokens, x.special = true ∧ x.content = unk.getD "[UNK]".toList)) :
    ∃ (b : Built) (rows : List Row) (wds : List (Str × Option (List Str))), fromReader E (some c) = .ok b ∧
      b.tok.tk.encodeSingle (.raw (encStr s)) 0 .byte = .ok (ofRows rows 0) ∧
      b.tok.trunc = none ∧ b.tok.padding = none ∧ b.tok.processor = pc.map procFn ∧
      wds.map (·.1) = piecesOf (bertWords E.punc) s u ∧ (∀ x ∈ wds, Spells v max x.1 x.2) ∧
      (ofRows rows 0).tokens = (wds.map (fun x => spelling (unk.getD "[UNK]".toList) x.2)).flatten ∧
      (∀ x ∈ wds, ∀ g, x.2 = some g → g.flatten = x.1 ∧ (∃ u, g.flatten ∈ bertWords E.punc u) ∧
        (∃ p ps, g = p :: ps ∧ ['#', '#'].isPrefixOf p = false) ∧ ∀ q ∈ g, q ≠ []) ∧
      b.state.decodeTokens true (ofRows rows 0).ids = ((wds.filterMap (·.2)).map (wordValues ['#', '#'])).flatten ∧
      b.state.decodeTokens true [cls] = [] ∧ b.state.decodeTokens true [sep] = [] ∧
      b.decoder = some (decodeFn E (.wordPiece ['#', '#'] cleanup)) ∧
      ∃ re reN wp, b.tok.tk = ⟨re, reN, some (normalizerOf E (.bert cl l ch a)), some (preFn E .bert), some (wordPieceModel wp)⟩ ∧
        re.engine (encStr s) = [] ∧ reN.engine (encStr u) = [] ∧ (∀ t, wp.vocab t = mget v t) ∧ wp.unk = unk.getD "[UNK]".toList ∧
        wp.pre = ['#', '#'] ∧ wp.maxChars = max ∧ ∀ w ∈ piecesOf (bertWords E.punc) s u, ∃ ts, wp.tokenize w = .ok ts := by
  -- the model
  have hsub : ∃ pre : Option Str, IsOpt m "continuing_subword_prefix" .str pre ∧ ∀ p, pre = some p → p = "##".toList := by
    rcases hs.subword with h | h
    · exact ⟨none, h, by simp⟩
    · exact ⟨some "##".toList, h, fun p h => (Option.some.inj h).symm⟩
  obtain ⟨sub, hsub, hsub'⟩ := hsub
  obtain ⟨wp, m1, m2, m3, m4, m5⟩ := C69_wordPiece_partial m d v unk sub (some max) hs.type hs.vocab hunk hsub hs.length hsub'
  have m4 : wp.pre = ['#', '#'] := by
    rw [m4]
    cases sub with
    | none => rfl
    | some p => exact hsub' p rfl
  have m5 : wp.maxChars = max := m5
  -- the added tokens
  have hvl := vocabList_ok hs.vocab
  have hst : FreshModel (vocabOf m (.wordPiece wp)) := by
    have := fresh_good hs.good
    rw [← hvl] at this
    exact this
  have habs : ∀ t : Str, ∀ x ∈ c.addedTokens, ¬ x.content <:+: t → Absent (some (normalizerOf E (.bert cl l ch a))) t x.token := by
    intro t x hx ht
    obtain ⟨⟨_, _, e⟩, e2, _⟩ := hadd x hx
    have h0 : x.content ≠ [] := by rw [e]; simp
    refine ⟨h0, x.content, h0, ht, fun _ => rfl, fun h => ?_⟩
    exact absurd (e2.symm.trans h) (by simp)
  obtain ⟨T, re, reN, k1, k2, k3, k4, k5, k6, k7⟩ := load_quiet hst c.addedTokens E.wordChar
    (norm := some (normalizerOf E (.bert cl l ch a))) hE.order s u
    (fun x hx _ => habs s x hx (hadd x hx).2.2.1) (fun x hx _ => habs u x hx (hadd x hx).2.2.2)
  have hv : ∀ t i, mget v t = some i ↔ (t, i) ∈ v := mget_mem hs.good.names
  have hid : ∀ t i, mget v t = some i → T.idToToken i = some t := by
    intro t i h
    apply k6
    show mget (vocabList m) t = some i
    rw [hvl, h]
  have hspecial : ∀ x ∈ [clsT, sepT], T.isSpecial x = true := by
    intro x hx
    obtain ⟨y, hy, g1, g2⟩ := hspec x hx
    exact (k7 x).2 ⟨by rintro rfl; revert hx; decide, y, hy, g1, g2⟩
  have hgv : ∀ {w : Str} {ps : List (Str × Int)}, Greedy wp true w ps → Greedy (vocabPieces v max) true w ps :=
    fun h => greedy_vocab (fun t => by rw [m2]; rfl) (by rw [m4]; rfl) h
  -- the words
  let tok : Str → List Token := fun w => match wp.tokenize w with
    | .ok ts => ts
    | _ => []
  have hne : ∀ w ∈ piecesOf (bertWords E.punc) s u, w ≠ [] := by
    intro w hw
    unfold piecesOf at hw
    split at hw
    · cases hw
    · obtain ⟨v, _, hv⟩ := List.mem_flatMap.mp hw
      exact Norm.runs_ne _ _ w hv
  have hword : ∀ w ∈ piecesOf (bertWords E.punc) s u, ∃ o : Option (List Str), Spells v max w o ∧
      wp.tokenize w = .ok (tok w) ∧ tok w ≠ [] ∧ (∀ x ∈ tok w, 0 ≤ x.offsets.1 ∧ x.offsets.1 ≤ x.offsets.2) ∧
      (tok w).map (·.value) = spelling (unk.getD "[UNK]".toList) o ∧
      T.decodeTokens true ((tok w).map (·.id)) = (o.map (wordValues ['#', '#'])).getD [] ∧
      ∀ g, o = some g → g.flatten = w ∧ (∃ u, g.flatten ∈ bertWords E.punc u) ∧
        (∃ p ps, g = p :: ps ∧ ['#', '#'].isPrefixOf p = false) ∧ ∀ q ∈ g, q ≠ [] := by
    intro w hmem
    by_cases hk : (w.length : Int) ≤ max ∧ ∃ ps, Greedy wp true w ps
    · obtain ⟨hl, ps, hg⟩ := hk
      have ht := C34_greedy wp w (by rw [m5]; exact hl) ps hg
      have htw : tok w = piecesToTokens wp true 0 ps := by simp only [tok, ht]
      obtain ⟨hf, hne'⟩ := greedy_flatten hg
      have hmemb := piecesOf_mem hmem
      have hwv : (tok w).map (·.value) = wordValues ['#', '#'] (ps.map (·.1)) := by
        rw [htw]
        cases ps with
        | nil => rfl
        | cons p ps => simp [piecesToTokens, wordValues, WordPiece.entry, piecesToTokens_values, m4]
      have hform : ∃ p qs, ps.map (·.1) = p :: qs ∧ ['#', '#'].isPrefixOf p = false := by
        cases ps with
        | nil => exact absurd hf.symm (hne w hmem)
        | cons p ps =>
          refine ⟨p.1, ps.map (·.1), rfl, ?_⟩
          cases hpre : ['#', '#'].isPrefixOf p.1 with
          | false => rfl
          | true =>
            obtain ⟨r, hr⟩ := List.isPrefixOf_iff_prefix.mp hpre
            have h4 := hmemb
            rw [← hf, List.map_cons, List.flatten_cons, ← hr] at h4
            exact absurd (bertWords_head h4 (hE.punc '#' (by simp))) (by simp)
      have hall : ∀ q ∈ ps.map (·.1), q ≠ [] := by
        intro q hq
        obtain ⟨x, hx, rfl⟩ := List.mem_map.mp hq
        exact hne' x hx
      refine ⟨some (ps.map (fun x : Str × Int => x.1)), ⟨hl, ps, hgv hg, rfl⟩, by rw [ht, htw], ?_, ?_, hwv, ?_, ?_⟩
      · rw [htw]
        cases ps with
        | nil => exact absurd hf.symm (hne w hmem)
        | cons => simp [piecesToTokens]
      · rw [htw]
        exact fun x hx => (pieces_known hg 0 x hx).2
      · rw [kept_tokens]
        · exact hwv
        · intro x hx
          rw [htw] at hx
          exact hid _ _ (by rw [← m2]; exact (pieces_known hg 0 x hx).1)
        · intro _ x hx
          cases hq' : T.isSpecial x.value with
          | false => rfl
          | true =>
            exfalso
            obtain ⟨_, y, hy, _, e⟩ := (k7 _).1 hq'
            obtain ⟨⟨c', r', e'⟩, _⟩ := hadd y hy
            have hx' : x.value ∈ wordValues ['#', '#'] (ps.map (·.1)) := by
              rw [← hwv]; exact List.mem_map_of_mem hx
            rw [← e, e'] at hx'
            obtain ⟨p, qs, e1, _⟩ := hform
            rw [e1] at hx'
            simp only [wordValues, List.mem_cons] at hx'
            rcases hx' with hx' | hx'
            · have := hmemb
              rw [← hf, e1, List.flatten_cons, ← hx'] at this
              exact absurd (bertWords_head this (hE.punc '[' (by simp))) (by simp)
            · obtain ⟨z, _, hz⟩ := List.mem_map.mp hx'
              cases hz
      · intro g hg'
        cases hg'
        exact ⟨hf, ⟨u, by rw [hf]; exact hmemb⟩, hform, hall⟩
    · have hbad : max < (w.length : Int) ∨ ∀ ps, ¬ Greedy wp true w ps := by
        by_cases hl : (w.length : Int) ≤ max
        · exact .inr (fun ps h => hk ⟨hl, ps, h⟩)
        · exact .inl (by omega)
      rcases hw with hw | ⟨⟨i, hi⟩, x, hx, hx1, hx2⟩
      · obtain ⟨g1, ps, g2⟩ := hw w hmem
        exact absurd ⟨g1, ps, greedy_vocab (fun t => by rw [m2]; rfl) (by rw [m4]; rfl) g2⟩ hk
      · have hi' := (hv _ _).2 hi
        have ht := C34_unknown wp w (by rw [m5]; exact hbad)
        rw [m2, m3, hi'] at ht
        dsimp only at ht
        have htw : tok w = [⟨i, unk.getD "[UNK]".toList, (0, (w.length : Int))⟩] := by simp only [tok, ht]
        refine ⟨none, ?_, by rw [ht, htw], by rw [htw]; simp, ?_, by rw [htw]; rfl, ?_, nofun⟩
        · rcases hbad with h | h
          · exact .inl h
          · refine .inr (fun ps hg => h ps ?_)
            exact greedy_vocab (fun t => by rw [m2]; rfl) (by rw [m4]; rfl) hg
        · rw [htw]
          intro y hy
          rw [List.mem_singleton] at hy
          subst hy
          dsimp only
          omega
        · rw [htw]
          have h0 : unk.getD "[UNK]".toList ≠ [] := by
            rw [← hx2]
            obtain ⟨⟨_, _, e⟩, _⟩ := hadd x hx
            rw [e]; simp
          have hsu := (k7 _).2 ⟨h0, x, hx, hx1, hx2⟩
          simp only [List.map_cons, List.map_nil, VocabState.decodeTokens, hid _ _ hi', hsu]
          rfl
  have hpf : preFn E .bert = bertPre bertRe.engine E.punc := by
    funext pt; rw [preFn, hE.ws]
  obtain ⟨e, h1, h2, h3, _⟩ := C100_pieces
    ⟨re, reN, some (normalizerOf E (.bert cl l ch a)), some (preFn E .bert), some (wordPieceModel wp)⟩ s u (bertWords E.punc) tok
    (normalizes_bert_any _ rfl (bert_normalizerOf E cl l ch a) hu) k4 k5 (.inr ⟨_, by dsimp only; rw [hpf], C72_bert E.punc⟩)
    (by
      intro w h
      obtain ⟨_, _, g1, g2, g3, _⟩ := hword w h
      refine ⟨_, rfl, ?_, g2, g3⟩
      simp only [wordPieceModel, decStr_enc, g1, Res.bind_ok]) 0 .byte
  obtain ⟨rows, hrows⟩ := encodeSingle_ofRows h1
  subst hrows
  obtain ⟨wds, w1, w2⟩ := spelled_list _ hword
  have htoks : ((piecesOf (bertWords E.punc) s u).flatMap tok).map (·.value) =
      (wds.map (fun x => spelling (unk.getD "[UNK]".toList) x.2)).flatten := by
    rw [← w1]
    clear w1
    induction wds with
    | nil => rfl
    | cons x wds ih =>
      rw [List.map_cons, List.flatMap_cons, List.map_append, ih (fun y hy => w2 y (by simp [hy])), (w2 x (by simp)).2.2.2.2.1]
      rfl
  have hdecode : T.decodeTokens true (((piecesOf (bertWords E.punc) s u).flatMap tok).map (·.id)) =
      ((wds.filterMap (·.2)).map (wordValues ['#', '#'])).flatten := by
    rw [← w1]
    clear w1 htoks
    induction wds with
    | nil => rfl
    | cons x wds ih =>
      rw [List.map_cons, List.flatMap_cons, List.map_append, decodeTokens_append, ih (fun y hy => w2 y (by simp [hy])),
        (w2 x (by simp)).2.2.2.2.2.1]
      cases h : x.2 <;> simp [h]
  refine ⟨_, rows, wds, fromReader_ok (a := .wordPiece wp) (n := some (.bert cl l ch a)) (pre := some .bert) (proc := pc)
    (dec := some (.wordPiece "##".toList cleanup)) (tr := none) (by rw [hm, hd]; exact m1)
    (by rw [hn]; exact fromSection_some (C70_normalizer_partial E.cfg n _ hnorm))
    (by rw [hp]; exact fromSection_some (C70_preTokenizer_partial E.cfg p _ hpre))
    hq (by rw [hd]; exact fromSection_some (C70_decoder_partial d _ hdec))
    (by rw [hm]; exact k1) k2 k3 (by rw [htr]; rfl), h1, rfl, by rw [hpad]; rfl, rfl, w1, fun x hx => (w2 x hx).1, h3.trans htoks,
    fun x hx => (w2 x hx).2.2.2.2.2.2, by rw [h2]; exact hdecode, ?_, ?_, rfl,
    ⟨re, reN, wp, rfl, k4, k5, fun t => by rw [m2], m3, m4, m5, fun w h => by
      obtain ⟨_, _, g, _⟩ := hword w h
      exact ⟨_, g⟩⟩⟩
  · simp [VocabState.decodeTokens, hid _ _ ((hv _ _).2 hs.clsId), hspecial clsT (by simp)]
  · simp [VocabState.decodeTokens, hid _ _ ((hv _ _).2 hs.sepId), hspecial sepT (by simp)]

/-- What a BERT file makes of a text, before the post-processor. -/
theorem bert_file (E : FileEnv) (hE : BertEnv E.toEnv) (c : FileConfig) (m n p d : List (Str × Val))
    (v : List (Str × Int)) (max cls sep : Int) (hm : c.model = some m) (hs : WordPieceSection m d v max cls sep)
    (hn : c.normalizer = some n) (cl l ch a : Bool) (hnorm : NormDesc E.cfg n (.bert cl l ch a))
    (hp : c.preTokenizer = some p) (hpre : PreDesc E.cfg p .bert)
    (pc : Option ProcCfg) (hq : fromSection createProc c.postProcessor = .ok pc)
    (hd : c.decoder = some d) (cleanup : Bool) (hdec : DecDesc d (.wordPiece "##".toList cleanup))
    (htr : c.truncation = none) (hpad : c.padding = none)
    (s u : Str) (hu : Plain E.tables l s u) (hadd : ∀ x ∈ c.addedTokens, BertToken s u x)
    (hspec : ∀ w ∈ [clsT, sepT], ∃ x ∈ c.addedTokens, x.special = true ∧ x.content = w)
    (hw : ∀ w ∈ piecesOf (bertWords E.punc) s u, (w.length : Int) ≤ max ∧ ∃ ps, Greedy (vocabPieces v max) true w ps) :
    ∃ (b : Built) (rows : List Row) (segs : List (List Str)), fromReader E (some c) = .ok b ∧
      b.tok.tk.encodeSingle (.raw (encStr s)) 0 .byte = .ok (ofRows rows 0) ∧
      b.tok.trunc = none ∧ b.tok.padding = none ∧ b.tok.processor = pc.map procFn ∧
      piecesOf (bertWords E.punc) s u = segs.map List.flatten ∧
      (ofRows rows 0).tokens = (segs.map (wordValues ['#', '#'])).flatten ∧
      (∀ g ∈ segs, ∃ u, g.flatten ∈ bertWords E.punc u) ∧
      (∀ g ∈ segs, (∃ p ps, g = p :: ps ∧ ['#', '#'].isPrefixOf p = false) ∧ ∀ q ∈ g, q ≠ []) ∧
      b.state.decodeTokens true (ofRows rows 0).ids = (segs.map (wordValues ['#', '#'])).flatten ∧
      b.state.decodeTokens true [cls] = [] ∧ b.state.decodeTokens true [sep] = [] ∧
      b.decoder = some (decodeFn E (.wordPiece ['#', '#'] cleanup)) := by
  obtain ⟨unk, hunk⟩ := hs.unk
  obtain ⟨b, rows, wds, h1, h2, h3, h4, h5, h6, h7, h8, h9, h10, h11, h12, h13, _⟩ := bert_words_file E hE c m n p d v max cls sep hm hs
    unk hunk hn cl l ch a hnorm hp hpre pc hq hd cleanup hdec htr hpad s u hu hadd hspec (.inl hw)
  have hsome : ∀ x ∈ wds, ∃ g, x.2 = some g := by
    intro x hx
    obtain ⟨g1, ps, g2⟩ := hw x.1 (by rw [← h6]; exact List.mem_map_of_mem hx)
    cases hx2 : x.2 with
    | some g => exact ⟨g, rfl⟩
    | none =>
      have := h7 x hx
      rw [hx2] at this
      rcases this with h | h
      · omega
      · exact absurd g2 (h ps)
  have hmem : ∀ g ∈ wds.filterMap (·.2), ∃ x ∈ wds, x.2 = some g := by
    intro g hg
    obtain ⟨x, hx, e⟩ := List.mem_filterMap.mp hg
    exact ⟨x, hx, e⟩
  refine ⟨b, rows, wds.filterMap (·.2), h1, h2, h3, h4, h5, ?_, ?_, ?_, ?_, h10, h11, h12, h13⟩
  · rw [← h6]
    clear h6 h7 h8 h10 hmem
    induction wds with
    | nil => rfl
    | cons x wds ih =>
      obtain ⟨g, hg⟩ := hsome x (by simp)
      rw [List.map_cons, ih (fun y hy => h9 y (by simp [hy])) (fun y hy => hsome y (by simp [hy])), List.filterMap_cons, hg]
      dsimp only
      rw [List.map_cons, (h9 x (by simp) g hg).1]
  · rw [h8]
    clear h6 h7 h8 h9 h10 hmem
    induction wds with
    | nil => rfl
    | cons x wds ih =>
      obtain ⟨g, hg⟩ := hsome x (by simp)
      rw [List.map_cons, List.flatten_cons, ih (fun y hy => hsome y (by simp [hy])), List.filterMap_cons, hg]
      rfl
  · intro g hg
    obtain ⟨x, hx, e⟩ := hmem g hg
    exact (h9 x hx g e).2.1
  · intro g hg
    obtain ⟨x, hx, e⟩ := hmem g hg
    exact (h9 x hx g e).2.2

theorem spelled_known {wds : List (Str × Option (List Str))} {P : List Str → Prop}
    (h : ∀ x ∈ wds, ∀ g, x.2 = some g → g.flatten = x.1 ∧ P g) :
    (wds.filterMap (·.2)).map List.flatten = (wds.filter (·.2.isSome)).map (·.1) ∧ ∀ g ∈ wds.filterMap (·.2), P g := by
  constructor
  · induction wds with
    | nil => rfl
    | cons x wds ih =>
      have ih := ih (fun y hy => h y (by simp [hy]))
      cases hx : x.2 with
      | none => simp [hx, ih]
      | some g => simp [hx, ih, (h x (by simp) g hx).1]
  · intro g hg
    obtain ⟨x, hx, e⟩ := List.mem_filterMap.mp hg
    exact (h x hx g e).2

/-- There is one spelling of a word. -/
theorem spells_unique {v : List (Str × Int)} {max : Int} {w : Str} {o o' : Option (List Str)} (h : Spells v max w o)
    (h' : Spells v max w o') : o = o' := by
  cases o with
  | none =>
    cases o' with
    | none => rfl
    | some g =>
      obtain ⟨h1, ps, h2, _⟩ := h'
      rcases h with h | h
      · omega
      · exact absurd h2 (h ps)
  | some g =>
    obtain ⟨h1, ps, h2, rfl⟩ := h
    cases o' with
    | none =>
      rcases h' with h | h
      · omega
      · exact absurd h2 (h ps)
    | some g' =>
      obtain ⟨_, qs, h3, rfl⟩ := h'
      rw [greedy_unique h2 h3]

/-! ### C129 -/

/-- C129: a file with WordPiece, the normalizer and the pre-tokenizer of BERT, `[CLS]` and `[SEP]` put around by the
post-processor, and the decoder WordPiece makes a tokenizer that encodes every text whose words have pieces in the
vocabulary to `[CLS]`, these pieces and `[SEP]`; `Decode` without special tokens gives the words of the normalized text,
separated by single spaces, but with clean-up none before the marks `. ? ! ,`. -/
theorem C129_bert_partial (E : FileEnv) (hE : BertEnv E.toEnv) (c : FileConfig) (m n p q d : List (Str × Val))
    (v : List (Str × Int)) (max cls sep : Int) (hm : c.model = some m) (hs : WordPieceSection m d v max cls sep)
    (hn : c.normalizer = some n) (cl l ch a : Bool) (hnorm : NormDesc E.cfg n (.bert cl l ch a))
    (hp : c.preTokenizer = some p) (hpre : PreDesc E.cfg p .bert)
    (hq : c.postProcessor = some q) (hproc : ClsSep q cls sep)
    (hd : c.decoder = some d) (cleanup : Bool) (hdec : DecDesc d (.wordPiece "##".toList cleanup))
    (htr : c.truncation = none) (hpad : c.padding = none)
    (s u : Str) (hu : Plain E.tables l s u) (hadd : ∀ x ∈ c.addedTokens, BertToken s u x)
    (hspec : ∀ w ∈ [clsT, sepT], ∃ x ∈ c.addedTokens, x.special = true ∧ x.content = w)
    (hw : ∀ w ∈ piecesOf (bertWords E.punc) s u, (w.length : Int) ≤ max ∧ ∃ ps, Greedy (vocabPieces v max) true w ps) :
    ∃ (b : Built) (r : Encoding) (segs : List (List Str)), fromReader E (some c) = .ok b ∧
      b.tok.encodeSingle (encStr s) [true] = .ok (some r) ∧
      piecesOf (bertWords E.punc) s u = segs.map List.flatten ∧
      r.tokens = clsT :: (segs.map (wordValues ['#', '#'])).flatten ++ [sepT] ∧
      r.ids.head? = some cls ∧ r.ids.getLast? = some sep ∧
      b.decode r.ids true = .ok (encStr (if cleanup then tidy (piecesOf (bertWords E.punc) s u)
        else joinSpace (piecesOf (bertWords E.punc) s u))) := by
  obtain ⟨pc, p1, p2⟩ := clsSep_post hproc
  obtain ⟨b, rows, segs, h1, h2, h3, h4, h5, h6, h7, h8, h9, h10, h11, h12, h13⟩ := bert_file E hE c m n p d v max cls sep hm hs hn
    cl l ch a hnorm hp hpre (some pc) (by rw [hq]; exact fromSection_some p1) hd cleanup hdec htr hpad s u hu hadd hspec hw
  obtain ⟨r, r1, r2, r3, _⟩ := p2 rows
  refine ⟨b, r, segs, h1, ?_, h6, by rw [r3, h7], by rw [r2]; rfl, by rw [r2, List.getLast?_concat], ?_⟩
  · simp only [Tokenizer.encodeSingle, Tokenizer.encode, Tokenizer.encodeWith, h2, h3, h4, h5, Res.bind_ok, List.headD_cons]
    exact r1
  · simp only [Built.decode, h13]
    rw [r2, show cls :: (ofRows rows 0).ids ++ [sep] = [cls] ++ (ofRows rows 0).ids ++ [sep] from rfl, decodeTokens_append,
      decodeTokens_append, h10, h11, h12, List.nil_append,
      List.append_nil, h6]
    exact bert_text E hE cleanup segs h8 h9

/-- C129 (unknown words): if the unknown token of the model is a special token of the file, every text is encoded: `[CLS]`, for
each word its pieces or, if it has none or is too long, the unknown token, and `[SEP]`; `Decode` without special tokens gives
the words that have pieces. -/
theorem C129_unknown_partial (E : FileEnv) (hE : BertEnv E.toEnv) (c : FileConfig) (m n p q d : List (Str × Val))
    (v : List (Str × Int)) (max cls sep : Int) (hm : c.model = some m) (hs : WordPieceSection m d v max cls sep)
    (unk : Option Str) (hunk : IsOpt m "unk_token" .str unk) (hvu : ∃ i, (unk.getD "[UNK]".toList, i) ∈ v)
    (hn : c.normalizer = some n) (cl l ch a : Bool) (hnorm : NormDesc E.cfg n (.bert cl l ch a))
    (hp : c.preTokenizer = some p) (hpre : PreDesc E.cfg p .bert)
    (hq : c.postProcessor = some q) (hproc : ClsSep q cls sep)
    (hd : c.decoder = some d) (cleanup : Bool) (hdec : DecDesc d (.wordPiece "##".toList cleanup))
    (htr : c.truncation = none) (hpad : c.padding = none)
    (s u : Str) (hu : Plain E.tables l s u) (hadd : ∀ x ∈ c.addedTokens, BertToken s u x)
    (hspec : ∀ w ∈ [clsT, sepT, unk.getD "[UNK]".toList], ∃ x ∈ c.addedTokens, x.special = true ∧ x.content = w) :
    ∃ (b : Built) (r : Encoding) (wds : List (Str × Option (List Str))), fromReader E (some c) = .ok b ∧
      b.tok.encodeSingle (encStr s) [true] = .ok (some r) ∧
      wds.map (·.1) = piecesOf (bertWords E.punc) s u ∧ (∀ x ∈ wds, Spells v max x.1 x.2) ∧
      r.tokens = clsT :: (wds.map (fun x => spelling (unk.getD "[UNK]".toList) x.2)).flatten ++ [sepT] ∧
      r.ids.head? = some cls ∧ r.ids.getLast? = some sep ∧
      b.decode r.ids true = .ok (encStr (if cleanup then tidy ((wds.filter (·.2.isSome)).map (·.1))
        else joinSpace ((wds.filter (·.2.isSome)).map (·.1)))) := by
  obtain ⟨pc, p1, p2⟩ := clsSep_post hproc
  obtain ⟨b, rows, wds, h1, h2, h3, h4, h5, h6, h7, h8, h9, h10, h11, h12, h13, _⟩ := bert_words_file E hE c m n p d v max cls sep hm hs
    unk hunk hn cl l ch a hnorm hp hpre (some pc) (by rw [hq]; exact fromSection_some p1) hd cleanup hdec htr hpad s u hu hadd
    (fun w hw => hspec w (by
      simp only [List.mem_cons, List.not_mem_nil, or_false] at hw ⊢
      rcases hw with h | h <;> simp [h])) (.inr ⟨hvu, hspec _ (by simp)⟩)
  obtain ⟨r, r1, r2, r3, _⟩ := p2 rows
  obtain ⟨g1, g2⟩ := spelled_known h9
  refine ⟨b, r, wds, h1, ?_, h6, h7, by rw [r3, h8], by rw [r2]; rfl, by rw [r2, List.getLast?_concat], ?_⟩
  · simp only [Tokenizer.encodeSingle, Tokenizer.encode, Tokenizer.encodeWith, h2, h3, h4, h5, Res.bind_ok, List.headD_cons]
    exact r1
  · simp only [Built.decode, h13]
    rw [r2, show cls :: (ofRows rows 0).ids ++ [sep] = [cls] ++ (ofRows rows 0).ids ++ [sep] from rfl, decodeTokens_append,
      decodeTokens_append, h10, h11, h12, List.nil_append, List.append_nil, ← g1]
    exact bert_text E hE cleanup _ (fun g hg => (g2 g hg).1) (fun g hg => (g2 g hg).2)

/-! ### A case -/

/-- A vocabulary of two special tokens, a word with a continuation and a mark. -/
def exampleBertVocab : List (Str × Int) := [(clsT, 0), (sepT, 1), (['y', 'e'], 2), (['#', '#', 's'], 3), (['!'], 4)]

def exampleBertModel : List (Str × Val) :=
  [("type".toList, .str "WordPiece".toList), ("unk_token".toList, .str "[UNK]".toList),
   ("continuing_subword_prefix".toList, .str "##".toList), ("max_input_chars_per_word".toList, .float 100),
   ("vocab".toList, vocabVal exampleBertVocab)]

theorem exampleBert_section (d : List (Str × Val)) : WordPieceSection exampleBertModel d exampleBertVocab 100 0 1 where
  type := .given _ (by rfl)
  vocab := by rfl
  unk := ⟨some "[UNK]".toList, by rfl⟩
  subword := .inr (by rfl)
  length := by rfl
  good := ⟨by decide +kernel, by decide +kernel, by decide +kernel⟩
  clsId := by decide +kernel
  sepId := by decide +kernel

/-- A template as it is in the files of BERT. -/
def exampleBertTemplate : List (Str × Val) :=
  [("type".toList, .str "TemplateProcessing".toList),
   ("single".toList, .arr (([.special clsT 0, .seq false 0, .special sepT 0] : List Piece).map pieceVal)),
   ("pair".toList, .arr (([.special clsT 0, .seq false 0, .special sepT 0, .seq true 1, .special sepT 1] : List Piece).map pieceVal)),
   ("special_tokens".toList, .obj (([⟨clsT, [0], [clsT]⟩, ⟨sepT, [1], [sepT]⟩] : List SpecialToken).map tokenVal))]

example : ClsSep exampleBertTemplate 0 1 :=
  .inr ⟨by unfold TypeIs; rfl, 0, [.special clsT 0, .seq false 0, .special sepT 0, .seq true 1, .special sepT 1],
    [⟨clsT, [0], [clsT]⟩, ⟨sepT, [1], [sepT]⟩], by rfl, by rfl, by rfl, by decide, by simp, by simp⟩

example : BertToken "yes!".toList "yes!".toList { id := 0, content := clsT, special := true } :=
  ⟨⟨'C', _, rfl⟩, rfl, by decide +kernel, by decide +kernel⟩

example : Greedy (vocabPieces exampleBertVocab 100) true ['y', 'e', 's'] [(['y', 'e'], 2), (['s'], 3)] :=
  .cons true ['y', 'e'] ['s'] 2 _ (by simp) rfl
    (by
      intro p r h hl
      have h2 := congrArg List.length h
      simp only [List.length_append, List.length_cons, List.length_nil] at h2 hl
      have hr : r = [] := List.eq_nil_of_length_eq_zero (by omega)
      rw [hr, List.append_nil] at h
      rw [h]
      rfl)
    (.cons false ['s'] [] 3 _ (by simp) rfl
      (by
        intro p r h hl
        have h2 := congrArg List.length h
        simp only [List.length_append, List.length_cons, List.length_nil] at h2 hl
        omega) (.nil _))

end Tok.Whole
