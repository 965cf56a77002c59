import Verif.Whole.PropsPresetsRoberta
import Verif.Whole.PropsDecode
import Verif.Decoder.PropsCleanup
import Verif.Norm.PropsBert

/-!
# C105: the ready-made BERT tokenizers
-/

namespace Tok.Whole

open Tok.PreTok Tok.Added Tok.Norm Tok.Regex

/-! ### Specification -/

/-- The special tokens. -/
def maskT : Str := ['[', 'M', 'A', 'S', 'K', ']']
def sepT : Str := ['[', 'S', 'E', 'P', ']']
def clsT : Str := ['[', 'C', 'L', 'S', ']']

/-- What the vocabulary file of BERT is to hold: the three special tokens; the model reads the same file. -/
structure BertFiles (vocab : List (Str × Int)) (vocabR : Int → Option Str) (m : WordPiece) (mask sep cls : Int) : Prop where
  maskId : mget vocab maskT = some mask
  sepId : mget vocab sepT = some sep
  clsId : mget vocab clsT = some cls
  back : ∀ w i, mget vocab w = some i → vocabR i = some w
  model : m.vocab = mget vocab
  prefixed : m.pre = ['#', '#']

/-- `IsBertPunctuation` knows these marks, and `\s+` is searched for. -/
structure BertEnv (E : Env) : Prop where
  punc : ∀ c ∈ ['.', '?', '!', ',', '\'', '[', '#'], E.punc c = true
  ws : E.ws = bertRe.engine
  order : ∀ l, (E.order l).Perm l

/-- The text does not have a special token in it. -/
def Unmarked (s : Str) : Prop := ¬ maskT <:+: s ∧ ¬ sepT <:+: s ∧ ¬ clsT <:+: s

/-- The normalizer has nothing to remove from the text and no ideographs to separate: it becomes `u`, which is the text
itself or, in lower case, one whose characters have as many bytes. -/
structure Plain (T : Tables) (lowercase : Bool) (s u : Str) : Prop where
  clean : ∀ c ∈ s, ¬ Unwanted T.ctl c
  cjk : ∀ c ∈ s, ¬ Cjk c
  cased : lowercase = false → u = s
  lower : lowercase = true → T.lower (encStr s) = encStr u ∧ u.map Char.utf8Size = s.map Char.utf8Size
  accents : ∀ c ∈ u, T.mn c = false ∧ c ≠ '\x00'

/-- Words separated by single spaces, but with none before the marks `. ? ! ,`. -/
def tidy : List Str → Str
  | [] => []
  | w :: ws => w ++ (ws.map (fun v => if v ∈ [['.'], ['?'], ['!'], [',']] then v else ' ' :: v)).flatten

/-! ### Building it -/

def bertState (vocab : List (Str × Int)) (vocabR : Int → Option Str) (mask sep cls : Int) : VocabState :=
  { vocab := vocab, vocabR := vocabR, fixedSize := none
    addedR := [(mask, maskT), (sep, sepT), (cls, clsT)]
    specialTokens := [specialToken maskT, specialToken sepT, specialToken clsT]
    specialSet := [maskT, sepT, clsT]
    splitRe := [(specialToken maskT, mask), (specialToken sepT, sep), (specialToken clsT, cls)] }

theorem BertFiles.distinct {vocab : List (Str × Int)} {vocabR : Int → Option Str} {m : WordPiece} {mask sep cls : Int}
    (h : BertFiles vocab vocabR m mask sep cls) : mask ≠ sep ∧ mask ≠ cls ∧ sep ≠ cls := by
  have h1 := h.back _ _ h.maskId
  have h2 := h.back _ _ h.sepId
  have h3 := h.back _ _ h.clsId
  refine ⟨?_, ?_, ?_⟩ <;> rintro rfl
  · rw [h1] at h2; exact absurd h2 (by decide)
  · rw [h1] at h3; exact absurd h3 (by decide)
  · rw [h2] at h3; exact absurd h3 (by decide)

theorem addSpecials_bert {vocab : List (Str × Int)} {vocabR : Int → Option Str} {m : WordPiece} {mask sep cls : Int}
    (h : BertFiles vocab vocabR m mask sep cls) :
    addSpecials { vocab := vocab, vocabR := vocabR, fixedSize := none } [maskT, sepT, clsT] =
      .ok (bertState vocab vocabR mask sep cls) := by
  have h1 : mget vocab ['[', 'M', 'A', 'S', 'K', ']'] = some mask := h.maskId
  have h2 : mget vocab ['[', 'S', 'E', 'P', ']'] = some sep := h.sepId
  have h3 : mget vocab ['[', 'C', 'L', 'S', ']'] = some cls := h.clsId
  obtain ⟨d1, d2, d3⟩ := h.distinct
  simp [addSpecials, VocabState.addSpecialTokens, VocabState.registerSpecial, VocabState.addTokens, VocabState.addLoop,
    VocabState.addOne, VocabState.refresh, VocabState.refreshIds, VocabState.tokenToId, VocabState.isSpecial, specialToken,
    maskT, sepT, clsT, h1, h2, h3, mget, mset, bertState, d1, d2, d3]

/-- What the presets return. -/
theorem bertPreset_eq (lowercase : Bool) (decoder : DecoderVal) (E : Env) {vocab : List (Str × Int)}
    {vocabR : Int → Option Str} {m : WordPiece} {mask sep cls : Int} (h : BertFiles vocab vocabR m mask sep cls) :
    bertPreset lowercase decoder E vocab vocabR m = .ok {
      tok := {
        tk := ⟨⟨[mask, sep, cls], fun bs => E.order (allMatches [.lit maskT, .lit sepT, .lit clsT] bs)⟩,
          ⟨[], fun bs => E.order (allMatches [] bs)⟩, some ((Norm.Bert.mk true lowercase true true).normalize E.tables),
          some (bertPre E.ws E.punc), some (wordPieceModel m)⟩
        trunc := none
        padding := none
        processor := some (Bert.mk ⟨sepT, sep⟩ ⟨clsT, cls⟩).toProcessor }
      state := bertState vocab vocabR mask sep cls
      decoder := decoder } := by
  have h1 := addSpecials_bert h
  have h2 : mget vocab ['[', 'S', 'E', 'P', ']'] = some sep := h.sepId
  have h3 : mget vocab ['[', 'C', 'L', 'S', ']'] = some cls := h.clsId
  simp only [maskT, sepT, clsT] at h1
  unfold bertPreset
  simp only [VocabState.tokenToId, mget, h2, h3]
  rw [h1]
  rfl

/-! ### C105 -/

/-- C105 is violated by the uncased tokenizer: once loaded, every call of `Decode` panics. -/
theorem C105_uncased_violated (E : Env) (vocab : List (Str × Int)) (vocabR : Int → Option Str) (m : WordPiece) (l : Loaded)
    (h : bertBaseUncased E vocab vocabR m = .ok l) (ids : List Int) (skip : Bool) : l.decode ids skip = .panic := by
  unfold bertBaseUncased bertPreset at h
  dsimp only at h
  split at h
  · simp only [Res.bind_eq_ok] at h
    obtain ⟨T, _, re, _, reN, _, h⟩ := h
    cases h
    rfl
  · cases h

/-- C105 (loading): the tokenizers are returned exactly if the vocabulary has `[SEP]` and `[CLS]`; otherwise the process
ends. -/
theorem C105_loads (lowercase : Bool) (decoder : DecoderVal) (E : Env) (vocab : List (Str × Int))
    (vocabR : Int → Option Str) (m : WordPiece) :
    (mget vocab sepT ≠ none ∧ mget vocab clsT ≠ none → ∃ l, bertPreset lowercase decoder E vocab vocabR m = .ok l) ∧
    (mget vocab sepT = none ∨ mget vocab clsT = none → bertPreset lowercase decoder E vocab vocabR m = .panic) := by
  constructor
  · rintro ⟨h1, h2⟩
    obtain ⟨sep, h1⟩ := Option.ne_none_iff_exists'.mp h1
    obtain ⟨cls, h2⟩ := Option.ne_none_iff_exists'.mp h2
    simp only [sepT, clsT] at h1 h2
    unfold bertPreset
    simp only [VocabState.tokenToId, mget, h1, h2]
    cases h3 : mget vocab ['[', 'M', 'A', 'S', 'K', ']'] <;>
    simp [addSpecials, VocabState.addSpecialTokens, VocabState.registerSpecial, VocabState.addTokens, VocabState.addLoop,
      VocabState.addOne, VocabState.refresh, VocabState.refreshIds, VocabState.tokenToId, VocabState.isSpecial, specialToken,
      h1, h2, h3, mget, mset, buildSet, buildPatterns, getPattern, core]
  · intro h
    unfold bertPreset
    simp only [sepT, clsT] at h
    simp only [VocabState.tokenToId, mget]
    rcases h with h | h
    · rw [h]
    · rw [h]
      split
      · next h' => cases h'
      · rfl

/-! ### Words -/

theorem fresh_same {x : NStr} {s : Str} (h : PreTok.Fresh x s) : Same x s ∧ x.original = encStr s :=
  ⟨⟨h.text, by rw [h.original, length_encStr], h.aligns, h.alignsO⟩, h.original⟩

theorem normalizes_bert {t : Tk} {T : Tables} {lowercase : Bool} {s u : Str}
    (ht : t.normalizer = some ((Norm.Bert.mk true lowercase true true).normalize T)) (h : Plain T lowercase s u) :
    Normalizes t s u := by
  refine .inr (.inl ⟨_, ht, fun x hx => ?_⟩)
  obtain ⟨h1, h2⟩ := fresh_same hx.2.1
  have hu : (if lowercase = true then u else s) = u := by
    cases lowercase with
    | true => rfl
    | false => exact (h.cased rfl).symm
  obtain ⟨n, e1, e2, _⟩ := bert_same (Norm.Bert.mk true lowercase true true) T h1 h2 (ds := u) h.clean h.cjk h.lower
    (by dsimp only; rw [hu]; exact h.accents)
  dsimp only at e2
  rw [hu] at e2
  exact ⟨n, e1, e2.wf, e2.text⟩

/-- A word is one punctuation character, or has none; it has no space. -/
theorem bertWords_mem {isPunc : Char → Bool} {s w : Str} (h : w ∈ bertWords isPunc s) :
    w ≠ [] ∧ ' ' ∉ w ∧ ((∃ c, w = [c]) ∨ ∀ c ∈ w, isPunc c = false) := by
  obtain ⟨v, hv, hw⟩ := List.mem_flatMap.mp h
  obtain ⟨_, hv⟩ := List.mem_filter.mp hv
  refine ⟨runs_ne _ _ w hw, ?_, ?_⟩
  · intro hs
    have : ' ' ∈ v := by rw [← runs_flatten (fun a b => !isPunc a && !isPunc b) v]; exact List.mem_flatten.mpr ⟨w, hw, hs⟩
    rw [List.all_eq_true] at hv
    exact absurd (hv _ this) (by decide)
  · have hl := runs_linked _ _ w hw
    have key : ∀ (w : Str) (c d : Char), Linked (fun a b => !isPunc a && !isPunc b) (c :: d :: w) →
        ∀ x ∈ c :: d :: w, isPunc x = false := by
      intro w
      induction w with
      | nil =>
        intro c d hl x hx
        simp only [Linked, Bool.and_eq_true, Bool.not_eq_true'] at hl
        simp only [List.mem_cons, List.not_mem_nil, or_false] at hx
        rcases hx with rfl | rfl
        · exact hl.1.1
        · exact hl.1.2
      | cons e w ih =>
        intro c d hl x hx
        rcases List.mem_cons.mp hx with rfl | hx
        · simp only [Linked, Bool.and_eq_true, Bool.not_eq_true'] at hl
          exact hl.1.1
        · exact ih d e hl.2 x hx
    match w, hl with
    | [], _ => exact .inr (by simp)
    | [c], _ => exact .inl ⟨c, rfl⟩
    | c :: d :: w, hl => exact .inr (key w c d hl)

theorem piecesOf_mem {isPunc : Char → Bool} {s u w : Str} (h : w ∈ piecesOf (bertWords isPunc) s u) :
    w ∈ bertWords isPunc u := by
  unfold piecesOf at h
  split at h
  · cases h
  · exact h

/-- A word that begins with a punctuation character is that character. -/
theorem bertWords_head {isPunc : Char → Bool} {s : Str} {c : Char} {w : Str} (h : c :: w ∈ bertWords isPunc s)
    (hc : isPunc c = true) : w = [] := by
  obtain ⟨_, _, h⟩ := bertWords_mem h
  rcases h with ⟨d, e⟩ | h
  · cases e; rfl
  · rw [h c List.mem_cons_self] at hc; cases hc

/-- Whether the space before a word is dropped. -/
theorem drawnTo_word {isPunc : Char → Bool} (hp : ∀ c ∈ ['.', '?', '!', ',', '\''], isPunc c = true) {s : Str} {q : Str}
    {qs : List Str} (hq : q ≠ []) (h : (q :: qs).flatten ∈ bertWords isPunc s) :
    drawnTo (q :: qs) = if (q :: qs).flatten ∈ [['.'], ['?'], ['!'], [',']] then (q :: qs).flatten
      else ' ' :: (q :: qs).flatten := by
  have hiff : (∃ p ∈ drawn, p <+: q) ↔ (q :: qs).flatten ∈ [['.'], ['?'], ['!'], [',']] := by
    rw [List.flatten_cons] at h ⊢
    constructor
    · rintro ⟨p, hp', r, rfl⟩
      have hsub : ∀ c, c ∈ p → c ∈ ['.', '?', '!', ',', '\''] → p = [c] ∧ r ++ qs.flatten = [] := by
        intro c h1 h2
        obtain ⟨_, _, h3⟩ := bertWords_mem h
        rcases h3 with ⟨d, e⟩ | h3
        · cases p with
          | nil => cases h1
          | cons x p =>
            simp only [List.cons_append, List.cons.injEq, List.append_eq_nil_iff] at e
            obtain ⟨rfl, ⟨rfl, rfl⟩, e4⟩ := e
            simp only [List.mem_singleton] at h1
            subst h1
            exact ⟨rfl, by rw [e4]; rfl⟩
        · exact absurd (hp c h2) (by simp [h3 c (by simp [h1])])
      simp only [drawn, List.mem_cons, List.not_mem_nil, or_false] at hp'
      rcases hp' with rfl | rfl | rfl | rfl | rfl | rfl | rfl | rfl | rfl
      · have := (hsub '.' (by simp) (by simp)).2; rw [List.append_assoc, this]; simp
      · have := (hsub '?' (by simp) (by simp)).2; rw [List.append_assoc, this]; simp
      · have := (hsub '!' (by simp) (by simp)).2; rw [List.append_assoc, this]; simp
      · have := (hsub ',' (by simp) (by simp)).2; rw [List.append_assoc, this]; simp
      · exact absurd (hsub '\'' (by simp) (by simp)).1 (by decide)
      · exact absurd (hsub '\'' (by simp) (by simp)).1 (by decide)
      · exact absurd (hsub '\'' (by simp) (by simp)).1 (by decide)
      · exact absurd (hsub '\'' (by simp) (by simp)).1 (by decide)
      · exact absurd (hsub '\'' (by simp) (by simp)).1 (by decide)
    · intro hm
      have h1 : ∃ c, q ++ qs.flatten = [c] ∧ [c] ∈ drawn := by
        simp only [List.mem_cons, List.not_mem_nil, or_false] at hm
        rcases hm with e | e | e | e <;> rw [e] <;> exact ⟨_, rfl, by decide⟩
      obtain ⟨c, e, hc⟩ := h1
      refine ⟨[c], hc, ?_⟩
      cases q with
      | nil => exact absurd rfl hq
      | cons x q =>
        simp only [List.cons_append, List.cons.injEq] at e
        rw [e.1]
        exact ⟨q, rfl⟩
  have h4 : drawnTo (q :: qs) = if ∃ p ∈ drawn, p <+: q then (q :: qs).flatten else ' ' :: (q :: qs).flatten := rfl
  rw [h4]
  by_cases hd : ∃ p ∈ drawn, p <+: q
  · rw [if_pos hd, if_pos (hiff.1 hd)]
  · rw [if_neg hd, if_neg (fun x => hd (hiff.2 x))]

/-- The tokens of the words are not special tokens. -/
theorem pieces_not_special {isPunc : Char → Bool} (hp : isPunc '[' = true) {u : Str} {segs : List (List Str)}
    (hw : ∀ s ∈ segs, s.flatten ∈ bertWords isPunc u ∧ ∃ p ps, s = p :: ps ∧ p ≠ []) {v : Str}
    (hv : v ∈ (segs.map (wordValues ['#', '#'])).flatten) : v ≠ maskT ∧ v ≠ sepT ∧ v ≠ clsT := by
  obtain ⟨l, hl, hv⟩ := List.mem_flatten.mp hv
  obtain ⟨s, hs, rfl⟩ := List.mem_map.mp hl
  obtain ⟨h1, p, ps, rfl, hne⟩ := hw s hs
  simp only [wordValues, List.mem_cons] at hv
  rcases hv with rfl | hv
  · have key : ∀ d r, v ≠ '[' :: d :: r := fun d r h => by
      subst h
      exact absurd (bertWords_head h1 hp) (by simp)
    exact ⟨key _ _, key _ _, key _ _⟩
  · obtain ⟨q, _, rfl⟩ := List.mem_map.mp hv
    refine ⟨?_, ?_, ?_⟩ <;> intro h <;> cases h

theorem bert_knows {vocab : List (Str × Int)} {vocabR : Int → Option Str} {m : WordPiece} {mask sep cls : Int}
    (h : BertFiles vocab vocabR m mask sep cls) (i : Int) :
    (bertState vocab vocabR mask sep cls).idToToken i = vocabR i := by
  simp only [VocabState.idToToken, bertState, mget]
  by_cases h0 : mask = i
  · subst h0; simp [h.back _ _ h.maskId]
  · by_cases h1 : sep = i
    · subst h1; simp [h0, h.back _ _ h.sepId]
    · by_cases h2 : cls = i
      · subst h2; simp [h0, h1, h.back _ _ h.clsId]
      · simp [h0, h1, h2]

/-- C105 (both tokenizers): a text without special tokens, which the normalizer only makes `u`, and whose words have
pieces in the vocabulary, is encoded with special tokens to `[CLS]`, the pieces of the words with `##` before all
but the first of a word, and `[SEP]`; the decoder is given the pieces. -/
theorem C105_encode (lowercase : Bool) (decoder : DecoderVal) {E : Env} (hE : BertEnv E) {vocab : List (Str × Int)}
    {vocabR : Int → Option Str} {m : WordPiece} {mask sep cls : Int} (hf : BertFiles vocab vocabR m mask sep cls)
    (s u : Str) (hs : Unmarked s) (hu : Plain E.tables lowercase s u)
    (hw : ∀ w ∈ piecesOf (bertWords E.punc) s u, (w.length : Int) ≤ m.maxChars ∧ ∃ ps, Greedy m true w ps) :
    ∃ (l : Loaded) (r : Encoding) (segs : List (List Str)), bertPreset lowercase decoder E vocab vocabR m = .ok l ∧
      l.tok.encodeSingle (encStr s) [true] = .ok (some r) ∧
      piecesOf (bertWords E.punc) s u = segs.map List.flatten ∧
      (∀ g ∈ segs, ∃ p ps, g = p :: ps ∧ p ≠ [] ∧ ['#', '#'].isPrefixOf p = false) ∧
      r.tokens = clsT :: (segs.map (wordValues ['#', '#'])).flatten ++ [sepT] ∧
      r.ids.head? = some cls ∧ r.ids.getLast? = some sep ∧
      l.decode r.ids true = decoder.decode (segs.map (wordValues ['#', '#'])).flatten ∧
      l.decode r.ids false = decoder.decode (clsT :: (segs.map (wordValues ['#', '#'])).flatten ++ [sepT]) := by
  have hnil : E.order [] = [] := List.perm_nil.mp (hE.order [])
  have hws : ∀ w ∈ piecesOf (bertWords E.punc) s u, (w.length : Int) ≤ m.maxChars ∧
      ∃ ps, Greedy m true w ps ∧ ∀ q ∈ ps.head?, m.pre.isPrefixOf q.1 = false := by
    intro w h
    obtain ⟨h1, ps, h2⟩ := hw w h
    refine ⟨h1, ps, h2, ?_⟩
    intro q hq
    obtain ⟨h3, _⟩ := greedy_flatten h2
    cases ps with
    | nil => cases hq
    | cons p ps =>
      cases hq
      rw [hf.prefixed]
      cases hpre : ['#', '#'].isPrefixOf q.1 with
      | false => rfl
      | true =>
        obtain ⟨r, hr⟩ := List.isPrefixOf_iff_prefix.mp hpre
        have h4 := piecesOf_mem h
        rw [← h3, List.map_cons, List.flatten_cons, ← hr] at h4
        exact absurd (bertWords_head h4 (hE.punc '#' (by simp))) (by simp)
  obtain ⟨e, h1, ⟨segs, h2, h3, h4⟩, _, h5⟩ := bert_pieces
    ⟨⟨[mask, sep, cls], fun bs => E.order (allMatches [.lit maskT, .lit sepT, .lit clsT] bs)⟩,
          ⟨[], fun bs => E.order (allMatches [] bs)⟩, some ((Norm.Bert.mk true lowercase true true).normalize E.tables),
          some (bertPre E.ws E.punc), some (wordPieceModel m)⟩ m E.punc s u (normalizes_bert rfl hu)
    (by
      have e1 := lit_none (c := maskT) (by decide) hs.1
      have e2 := lit_none (c := sepT) (by decide) hs.2.1
      have e3 := lit_none (c := clsT) (by decide) hs.2.2
      simp [allMatches, e1, e2, e3, hnil]) (by simp [allMatches, hnil]) (by dsimp only; rw [hE.ws]) rfl hws
  rw [hf.prefixed] at h2 h4
  obtain ⟨r, k1, k2, _⟩ := C96_special {
        tk := ⟨⟨[mask, sep, cls], fun bs => E.order (allMatches [.lit maskT, .lit sepT, .lit clsT] bs)⟩,
          ⟨[], fun bs => E.order (allMatches [] bs)⟩, some ((Norm.Bert.mk true lowercase true true).normalize E.tables),
          some (bertPre E.ws E.punc), some (wordPieceModel m)⟩
        trunc := none
        padding := none
        processor := some (Bert.mk ⟨sepT, sep⟩ ⟨clsT, cls⟩).toProcessor } rfl rfl ⟨⟨sepT, sep⟩, ⟨clsT, cls⟩⟩ rfl (encStr s) e h1
  have hids : r.ids = cls :: e.ids ++ [sep] := k2 .ids
  have htok : r.tokens = clsT :: e.tokens ++ [sepT] := k2 .tokens
  have hknow : Knows (bertState vocab vocabR mask sep cls) m.vocab := by
    intro v i hv
    rw [bert_knows hf, hf.back]
    rw [← hf.model]; exact hv
  have hspec : ∀ v ∈ e.tokens, (bertState vocab vocabR mask sep cls).isSpecial v = false := by
    intro v hv
    rw [h2] at hv
    obtain ⟨n1, n2, n3⟩ := pieces_not_special (hE.punc '[' (by simp)) (u := u) (fun g hg => by
      obtain ⟨⟨p, ps, rfl, _⟩, hq⟩ := h4 g hg
      exact ⟨piecesOf_mem (by rw [h3]; exact List.mem_map_of_mem hg), p, ps, rfl, hq p List.mem_cons_self⟩) hv
    simp [VocabState.isSpecial, bertState, n1, n2, n3]
  have i0 : (bertState vocab vocabR mask sep cls).idToToken cls = some clsT := by rw [bert_knows hf, hf.back _ _ hf.clsId]
  have i2 : (bertState vocab vocabR mask sep cls).idToToken sep = some sepT := by rw [bert_knows hf, hf.back _ _ hf.sepId]
  have s0 : (bertState vocab vocabR mask sep cls).isSpecial clsT = true := by simp [VocabState.isSpecial, bertState]
  have s2 : (bertState vocab vocabR mask sep cls).isSpecial sepT = true := by simp [VocabState.isSpecial, bertState]
  have hdec : ∀ skip, (bertState vocab vocabR mask sep cls).decodeTokens skip e.ids = e.tokens := by
    intro skip
    have := h5 (bertState vocab vocabR mask sep cls) (fun ts => if ts = e.tokens then .ok [] else .err) skip hknow
      (fun _ => hspec)
    simp only [VocabState.decode, if_true] at this
    split at this
    · assumption
    · cases this
  refine ⟨_, r, segs, bertPreset_eq lowercase decoder E hf, k1, h3, ?_, by rw [htok, h2], by rw [hids]; rfl,
    by rw [hids, List.getLast?_concat], ?_, ?_⟩
  · intro g hg
    obtain ⟨⟨p, ps, rfl, hpre⟩, hq⟩ := h4 g hg
    exact ⟨p, ps, rfl, hq p List.mem_cons_self, hpre⟩
  · unfold Loaded.decode VocabState.decode
    dsimp only
    rw [hids, decodeTokens_append]
    simp only [VocabState.decodeTokens, i0, i2, s0, s2]
    simp [hdec, h2]
  · unfold Loaded.decode VocabState.decode
    dsimp only
    rw [hids, decodeTokens_append]
    simp only [VocabState.decodeTokens, i0, i2, s0, s2]
    simp [hdec, h2]

/-- C105 (`BertBaseUncased`): the words are those of the text in lower case. -/
theorem C105_uncased_encode {E : Env} (hE : BertEnv E) {vocab : List (Str × Int)}
    {vocabR : Int → Option Str} {m : WordPiece} {mask sep cls : Int} (hf : BertFiles vocab vocabR m mask sep cls)
    (s u : Str) (hs : Unmarked s) (hu : Plain E.tables true s u)
    (hw : ∀ w ∈ piecesOf (bertWords E.punc) s u, (w.length : Int) ≤ m.maxChars ∧ ∃ ps, Greedy m true w ps) :
    ∃ (l : Loaded) (r : Encoding) (segs : List (List Str)), bertBaseUncased E vocab vocabR m = .ok l ∧
      l.tok.encodeSingle (encStr s) [true] = .ok (some r) ∧
      piecesOf (bertWords E.punc) s u = segs.map List.flatten ∧
      r.tokens = clsT :: (segs.map (wordValues ['#', '#'])).flatten ++ [sepT] := by
  obtain ⟨l, r, segs, h1, h2, h3, _, h4, _⟩ := C105_encode true defaultWordpieceDecoder hE hf s u hs hu hw
  exact ⟨l, r, segs, h1, h2, h3, h4⟩

/-- C105 (the cased tokenizer): `Decode` without special tokens gives the words of the text back, separated by single
spaces, but with none before the marks `. ? ! ,`. -/
theorem C105_cased_partial {E : Env} (hE : BertEnv E) {vocab : List (Str × Int)}
    {vocabR : Int → Option Str} {m : WordPiece} {mask sep cls : Int} (hf : BertFiles vocab vocabR m mask sep cls)
    (s : Str) (hs : Unmarked s) (hu : Plain E.tables false s s)
    (hw : ∀ w ∈ piecesOf (bertWords E.punc) s s, (w.length : Int) ≤ m.maxChars ∧ ∃ ps, Greedy m true w ps) :
    ∃ (l : Loaded) (r : Encoding), bertLargeCased E vocab vocabR m = .ok l ∧
      l.tok.encodeSingle (encStr s) [true] = .ok (some r) ∧
      l.decode r.ids true = .ok (tidy (bertWords E.punc s)) := by
  obtain ⟨l, r, segs, h1, h2, h3, h4, _, _, _, h5, _⟩ := C105_encode false
    (newDecoder (fun ts => .ok (wpDecodeChain ['#', '#'] (some cleanupText) ts))) hE hf s s hs hu hw
  refine ⟨l, r, h1, h2, ?_⟩
  have hp : piecesOf (bertWords E.punc) s s = bertWords E.punc s := by
    unfold piecesOf
    split
    · next h => have : s = [] := by simpa using h
                subst this; rfl
    · rfl
  rw [hp] at h3
  rw [h5]
  have hmem : ∀ g ∈ segs, g.flatten ∈ bertWords E.punc s := fun g hg => by rw [h3]; exact List.mem_map_of_mem hg
  cases segs with
  | nil =>
    rw [h3]
    rfl
  | cons w ws =>
    rw [C39_wordpiece ['#', '#'] w ws]
    · rw [h3, List.map_cons, tidy, List.map_map]
      congr 3
      apply List.map_congr_left
      intro g hg
      obtain ⟨p, ps, rfl, hne, _⟩ := h4 g (List.mem_cons_of_mem _ hg)
      exact drawnTo_word (fun c hc => hE.punc c (by simp at hc ⊢; rcases hc with h | h | h | h | h <;> simp [h])) hne (hmem _ (List.mem_cons_of_mem _ hg))
    · intro g hg
      obtain ⟨p, ps, rfl, _, hpre⟩ := h4 g hg
      refine ⟨⟨p, ps, rfl, hpre⟩, fun q hq hsp => ?_⟩
      exact (bertWords_mem (hmem _ hg)).2.1 (List.mem_flatten.mpr ⟨q, hq, hsp⟩)

/-- C105 is violated by the cased tokenizer too: a text whose words are not separated in this way does not come back. -/
theorem C105_cased_violated {E : Env} (hE : BertEnv E) {vocab : List (Str × Int)}
    {vocabR : Int → Option Str} {m : WordPiece} {mask sep cls : Int} (hf : BertFiles vocab vocabR m mask sep cls)
    (s : Str) (hs : Unmarked s) (hu : Plain E.tables false s s)
    (hw : ∀ w ∈ piecesOf (bertWords E.punc) s s, (w.length : Int) ≤ m.maxChars ∧ ∃ ps, Greedy m true w ps)
    (ht : s ≠ tidy (bertWords E.punc s)) :
    ∃ (l : Loaded) (r : Encoding), bertLargeCased E vocab vocabR m = .ok l ∧
      l.tok.encodeSingle (encStr s) [true] = .ok (some r) ∧ l.decode r.ids true ≠ .ok s := by
  obtain ⟨l, r, h1, h2, h3⟩ := C105_cased_partial hE hf s hs hu hw
  refine ⟨l, r, h1, h2, ?_⟩
  rw [h3]
  intro h
  exact ht (Res.ok.inj h).symm

/-! ### A case -/

/-- A vocabulary of three special tokens, two words and a mark. -/
def bertVocab : List (Str × Int) := [(maskT, 0), (sepT, 1), (clsT, 2), (['y', 'e', 's'], 3), (['N', 'o'], 4), (['!'], 5)]

def bertVocabR (i : Int) : Option Str :=
  if i = 0 then some maskT else if i = 1 then some sepT else if i = 2 then some clsT else if i = 3 then some ['y', 'e', 's']
  else if i = 4 then some ['N', 'o'] else if i = 5 then some ['!'] else none

def bertCase : WordPiece := { vocab := mget bertVocab, unk := ['?'], pre := ['#', '#'], maxChars := 100 }

def bertCaseEnv : Env :=
  { caseEnv with ws := bertRe.engine, punc := fun c => ['.', '?', '!', ',', '\'', '[', '#'].contains c }

theorem bertCase_files : BertFiles bertVocab bertVocabR bertCase 0 1 2 := by
  refine ⟨rfl, rfl, rfl, ?_, rfl, rfl⟩
  intro w i h
  have key : ∀ l : List (Str × Int), mget l w = some i → (w, i) ∈ l := by
    intro l
    induction l with
    | nil => intro h; cases h
    | cons p l ih =>
      intro h
      unfold mget at h
      split at h
      · next e => cases h; rw [beq_iff_eq] at e; subst e; exact List.mem_cons_self
      · exact List.mem_cons_of_mem _ (ih h)
  have hm := key _ h
  have all : ∀ p ∈ bertVocab, bertVocabR p.2 = some p.1 := by decide +kernel
  exact all _ hm

theorem bertCase_env : BertEnv bertCaseEnv := ⟨by decide, rfl, fun _ => .refl _⟩

theorem greedy_whole {m : WordPiece} {w : Str} {i : Int} (hw : w ≠ []) (h : m.vocab w = some i) : Greedy m true w [(w, i)] := by
  have := Greedy.cons (m := m) true w [] i [] hw (by simpa [WordPiece.entry] using h) (by
    intro p' r' e hl
    have := congrArg List.length e
    simp at this
    omega) (.nil false)
  simpa using this

/-- "yes  No !" comes back as "yes No!". -/
example : ∃ (l : Loaded) (r : Encoding), bertLargeCased bertCaseEnv bertVocab bertVocabR bertCase = .ok l ∧
    l.tok.encodeSingle (encStr ['y', 'e', 's', ' ', ' ', 'N', 'o', ' ', '!']) [true] = .ok (some r) ∧
    l.decode r.ids true = .ok ['y', 'e', 's', ' ', 'N', 'o', '!'] := by
  have hwords : bertWords bertCaseEnv.punc ['y', 'e', 's', ' ', ' ', 'N', 'o', ' ', '!'] = [['y', 'e', 's'], ['N', 'o'], ['!']] := by
    decide +kernel
  obtain ⟨l, r, h1, h2, h3⟩ := C105_cased_partial bertCase_env bertCase_files ['y', 'e', 's', ' ', ' ', 'N', 'o', ' ', '!']
    (by refine ⟨?_, ?_, ?_⟩ <;> decide +kernel)
    ⟨by decide +kernel, by decide +kernel, fun _ => rfl, by simp, by decide +kernel⟩ (by
      intro w h
      have h := piecesOf_mem h
      rw [hwords] at h
      simp only [List.mem_cons, List.not_mem_nil, or_false] at h
      rcases h with rfl | rfl | rfl
      · exact ⟨by decide, _, greedy_whole (i := 3) (by simp) rfl⟩
      · exact ⟨by decide, _, greedy_whole (i := 4) (by simp) rfl⟩
      · exact ⟨by decide, _, greedy_whole (i := 5) (by simp) rfl⟩)
  rw [hwords] at h3
  exact ⟨l, r, h1, h2, h3⟩

/-- The lower case of the Latin letters. -/
def lowerEnv : Env :=
  { bertCaseEnv with tables := { bertCaseEnv.tables with lower := fun bs => bs.map (fun b => if 65 ≤ b ∧ b ≤ 90 then b + 32 else b) } }

/-- "Yes !" has the words "yes" and "!". -/
example : ∃ (l : Loaded) (r : Encoding) (segs : List (List Str)), bertBaseUncased lowerEnv bertVocab bertVocabR bertCase = .ok l ∧
    l.tok.encodeSingle (encStr ['Y', 'e', 's', ' ', '!']) [true] = .ok (some r) ∧ segs.map List.flatten = [['y', 'e', 's'], ['!']] ∧
    r.tokens = clsT :: (segs.map (wordValues ['#', '#'])).flatten ++ [sepT] := by
  have hwords : piecesOf (bertWords lowerEnv.punc) ['Y', 'e', 's', ' ', '!'] ['y', 'e', 's', ' ', '!'] = [['y', 'e', 's'], ['!']] := by
    decide +kernel
  obtain ⟨l, r, segs, h1, h2, h3, h4⟩ := C105_uncased_encode (E := lowerEnv) ⟨by decide, rfl, fun _ => .refl _⟩ bertCase_files
    ['Y', 'e', 's', ' ', '!'] ['y', 'e', 's', ' ', '!'] (by refine ⟨?_, ?_, ?_⟩ <;> decide +kernel)
    ⟨by decide +kernel, by decide +kernel, by simp, fun _ => ⟨by decide +kernel, by decide +kernel⟩, by decide +kernel⟩ (by
      intro w h
      rw [hwords] at h
      simp only [List.mem_cons, List.not_mem_nil, or_false] at h
      rcases h with rfl | rfl
      · exact ⟨by decide, _, greedy_whole (i := 3) (by simp) rfl⟩
      · exact ⟨by decide, _, greedy_whole (i := 5) (by simp) rfl⟩)
  exact ⟨l, r, segs, h1, h2, h3.symm.trans hwords, h4⟩

end Tok.Whole
