import Verif.Whole.Props
import Verif.Whole.PropsPieces
import Verif.Word.Props
import Verif.PreTok.PropsTokenizers
import Verif.Vocab.PropsDecode

/-!
# C101: decoding an encoding
-/

namespace Tok.Whole

open Tok.Norm Tok.PreTok Tok.Regex

/-! ### Specification -/

/-- The tokenizer knows the tokens of the vocabulary by their ids. -/
def Knows (T : VocabState) (vocab : Str → Option Int) : Prop := ∀ v id, vocab v = some id → T.idToToken id = some v

/-- The words of BERT's pre-tokenizer: the maximal parts without white space, cut before and after every
punctuation character. -/
def bertWords (isPunc : Char → Bool) (s : Str) : List Str :=
  ((runs (fun a b => isS a == isS b) s).filter (fun w => w.all (fun c => !isS c))).flatMap
    (runs (fun a b => !isPunc a && !isPunc b))

/-- The maximal parts without white space. -/
def plainWords (isWs : Char → Bool) (s : Str) : List Str :=
  (runs (fun a b => !isWs a && !isWs b) s).filter (fun w => !w.any isWs)

/-! ### Lemmas -/

theorem kept_tokens {T : VocabState} {skip : Bool} (ts : List Token) (h : ∀ x ∈ ts, T.idToToken x.id = some x.value)
    (hs : skip = true → ∀ x ∈ ts, T.isSpecial x.value = false) :
    T.decodeTokens skip (ts.map (·.id)) = ts.map (·.value) := by
  induction ts with
  | nil => rfl
  | cons x ts ih =>
    have ih := ih (fun y hy => h y (by simp [hy])) (fun k y hy => hs k y (by simp [hy]))
    simp only [List.map_cons, VocabState.decodeTokens, h x (by simp), ih]
    cases skip with
    | false => simp
    | true => simp [hs rfl x (by simp)]

theorem runs_word {r : Char → Char → Bool} {w : Str} (hw : w ≠ []) (hl : Linked r w) (t : Str)
    (ht : ∀ a d, w.getLast? = some a → t.head? = some d → r a d = false) : runs r (w ++ t) = w :: runs r t := by
  rcases List.eq_nil_or_concat w with h | ⟨a, l, h⟩
  · exact absurd h hw
  · rw [List.concat_eq_append] at h
    subst h
    obtain ⟨h1, h2⟩ := runs_block r a l t hl
    cases t with
    | nil => rw [h1 rfl]; rfl
    | cons d t => exact h2 d t rfl (ht l d (by simp) rfl)

theorem linked_all {r : Char → Char → Bool} (w : Str) (h : ∀ a ∈ w, ∀ b ∈ w, r a b = true) : Linked r w := by
  induction w with
  | nil => trivial
  | cons c w ih =>
    cases w with
    | nil => trivial
    | cons d w =>
      refine ⟨h c (by simp) d (by simp), ih (fun a ha b hb => h a (by simp [ha]) b (by simp [hb]))⟩

/-- Words joined by single spaces are cut into the words. -/
theorem plainWords_join (isWs : Char → Bool) (hsp : isWs ' ' = true) (ws : List Str)
    (hw : ∀ w ∈ ws, w ≠ [] ∧ ∀ c ∈ w, isWs c = false) : plainWords isWs (joinSpace ws) = ws := by
  unfold plainWords
  induction ws with
  | nil => rfl
  | cons w ws ih =>
    have ih := ih (fun v hv => hw v (by simp [hv]))
    obtain ⟨hne, hc⟩ := hw w (by simp)
    have hl : Linked (fun a b => !isWs a && !isWs b) w := linked_all w (fun a ha b hb => by simp [hc a ha, hc b hb])
    have hany : w.any isWs = false := by
      rw [List.any_eq_false]
      intro c h
      simp [hc c h]
    cases ws with
    | nil =>
      have := runs_word hne hl [] (by simp)
      simp only [List.append_nil, runs] at this
      simp [joinSpace, this, hany]
    | cons v ws =>
      have h1 := runs_word hne hl (' ' :: joinSpace (v :: ws)) (by
        intro a d _ hd
        simp only [List.head?_cons, Option.some.injEq] at hd
        subst hd
        simp [hsp])
      have h2 : runs (fun a b => !isWs a && !isWs b) (' ' :: joinSpace (v :: ws)) =
          [' '] :: runs (fun a b => !isWs a && !isWs b) (joinSpace (v :: ws)) := by
        have := runs_word (r := fun a b => !isWs a && !isWs b) (w := [' ']) (by simp) trivial (joinSpace (v :: ws)) (by
          intro a d ha _
          simp only [List.getLast?_singleton, Option.some.injEq] at ha
          subst ha
          simp [hsp])
        simpa using this
      rw [show joinSpace (w :: v :: ws) = w ++ ' ' :: joinSpace (v :: ws) from rfl, h1, h2]
      simp [hany, hsp, ih]

theorem joinStr_joinSpace (ws : List Str) : VocabState.joinStr [' '] ws = joinSpace ws := by
  induction ws with
  | nil => rfl
  | cons w ws ih =>
    cases ws with
    | nil => rfl
    | cons v ws =>
      rw [show joinSpace (w :: v :: ws) = w ++ ' ' :: joinSpace (v :: ws) from rfl, ← ih]
      simp [VocabState.joinStr]

theorem piecesOf_self {g : Str → List Str} (hg : g [] = []) (s : Str) : piecesOf g s s = g s := by
  unfold piecesOf
  split
  · next h =>
    have h : s = [] := by simpa using h
    rw [h, hg]
  · rfl

/-! ### C101 -/

/-- C101 (every tokenizer): if the tokenizer knows the tokens of the model by their ids, `Decode` gives its
decoder the tokens that the model gave for the pieces of the text. -/
theorem C101_decoder_input (t : Tk) (s u : Str) (g : Str → List Str) (tok : Str → List Token) (hn : Normalizes t s u)
    (h1 : t.splitRe.engine (encStr s) = []) (h2 : t.splitNormalizedRe.engine (encStr u) = []) (hg : CutsInto t g)
    (hm : ∀ w ∈ piecesOf g s u, ModelGives t tok w) :
    ∃ e, t.encodeSingle (.raw (encStr s)) 0 .byte = .ok e ∧
      e.tokens = ((piecesOf g s u).flatMap tok).map (·.value) ∧
      ∀ (T : VocabState) (d : List Str → Res Str) (skip : Bool),
        (∀ w ∈ piecesOf g s u, ∀ x ∈ tok w, T.idToToken x.id = some x.value) →
        (skip = true → ∀ v ∈ e.tokens, T.isSpecial v = false) →
        T.decode (some d) e.ids skip = d (((piecesOf g s u).flatMap tok).map (·.value)) := by
  obtain ⟨e, h3, h4, h5, _⟩ := C100_pieces t s u g tok hn h1 h2 hg hm 0 .byte
  refine ⟨e, h3, h5, ?_⟩
  intro T d skip hk hs
  simp only [VocabState.decode]
  rw [h4, kept_tokens]
  · intro x hx
    obtain ⟨w, hw, hx⟩ := List.mem_flatMap.mp hx
    exact hk w hw x hx
  · intro k x hx
    refine hs k x.value ?_
    rw [h5]
    exact List.mem_map_of_mem hx

/-- C101 (WordLevel): for a text of known words, `Decode` without a decoder gives the words separated by single
spaces. -/
theorem C101_wordlevel (t : Tk) (vocab : Str → Option Int) (unk : Str) (isWs : Char → Bool)
    (hno : t.normalizer = none) (hp : t.preTokenizer = some (whitespaceSplit isWs))
    (hmod : t.model = some (wordLevelModel vocab unk)) (s : Str) (hw : ∀ w ∈ plainWords isWs s, vocab w ≠ none)
    (hadd : NoAdded t s) :
    ∃ e, t.encodeSingle (.raw (encStr s)) 0 .byte = .ok e ∧ e.tokens = plainWords isWs s ∧
      ∀ (T : VocabState) (skip : Bool), Knows T vocab → (skip = true → ∀ w ∈ e.tokens, T.isSpecial w = false) →
        T.decode none e.ids skip = .ok (joinSpace (plainWords isWs s)) := by
  let tok : Str → List Token := fun w => [⟨(vocab w).getD 0, w, (0, ((blen w : Nat) : Int))⟩]
  have hpieces : piecesOf (plainWords isWs) s s = plainWords isWs s := piecesOf_self rfl s
  obtain ⟨e, h3, h4, h5, _⟩ := C100_pieces t s s (plainWords isWs) tok (.inl ⟨hno, rfl⟩)
    hadd.1 hadd.2 (.inr ⟨_, hp, C72_whitespaceSplit isWs⟩) (by
      rw [hpieces]
      intro w h
      refine ⟨_, hmod, ?_, by simp [tok], ?_⟩
      · obtain ⟨id, hid⟩ := Option.ne_none_iff_exists'.mp (hw w h)
        simp only [wordLevelModel, wordLevelTokenize, decStr_enc, hid, Res.bind_ok, tok, Option.getD_some]
      · intro x hx
        simp only [tok, List.mem_singleton] at hx
        subst hx
        dsimp only
        omega) 0 .byte
  rw [hpieces] at h4 h5
  have htok : (plainWords isWs s).flatMap tok =
      (plainWords isWs s).map (fun w => ⟨(vocab w).getD 0, w, (0, ((blen w : Nat) : Int))⟩) := by
    simp only [tok]
    rw [← List.map_eq_flatMap]
  have h6 : e.tokens = plainWords isWs s := by rw [h5, htok, List.map_map]; simp [Function.comp_def]
  refine ⟨e, h3, h6, ?_⟩
  intro T skip hk hs
  simp only [VocabState.decode]
  rw [h4, htok, kept_tokens]
  · rw [List.map_map]
    simp only [Function.comp_def, List.map_id']
    rw [joinStr_joinSpace]
  · intro x hx
    obtain ⟨w, h, rfl⟩ := List.mem_map.mp hx
    obtain ⟨id, hid⟩ := Option.ne_none_iff_exists'.mp (hw w h)
    simp only [hid, Option.getD_some]
    exact hk w id hid
  · intro k x hx
    obtain ⟨w, h, rfl⟩ := List.mem_map.mp hx
    exact hs k w (by rw [h6]; exact h)

/-- C101 (WordLevel, round trip): words of the vocabulary separated by single spaces come back as they were. -/
theorem C101_roundtrip_partial (t : Tk) (vocab : Str → Option Int) (unk : Str) (isWs : Char → Bool) (hsp : isWs ' ' = true)
    (hno : t.normalizer = none) (hp : t.preTokenizer = some (whitespaceSplit isWs))
    (hmod : t.model = some (wordLevelModel vocab unk)) (ws : List Str)
    (hw : ∀ w ∈ ws, w ≠ [] ∧ (∀ c ∈ w, isWs c = false) ∧ vocab w ≠ none) (hadd : NoAdded t (joinSpace ws)) :
    ∃ e, t.encodeSingle (.raw (encStr (joinSpace ws))) 0 .byte = .ok e ∧ e.tokens = ws ∧
      ∀ (T : VocabState) (skip : Bool), Knows T vocab → (skip = true → ∀ w ∈ ws, T.isSpecial w = false) →
        T.decode none e.ids skip = .ok (joinSpace ws) := by
  have hpw := plainWords_join isWs hsp ws (fun w h => ⟨(hw w h).1, (hw w h).2.1⟩)
  obtain ⟨e, h1, h2, h3⟩ := C101_wordlevel t vocab unk isWs hno hp hmod (joinSpace ws)
    (by rw [hpw]; exact fun w h => (hw w h).2.2) hadd
  rw [hpw] at h2 h3
  exact ⟨e, h1, h2, fun T skip hk hs => h3 T skip hk (by rw [h2]; exact hs)⟩

/-- C101 is violated for every other text of known words: with white space at its ends, with more than one space
between words or with other white space, `Decode` does not give the text back. -/
theorem C101_spaces_violated (t : Tk) (vocab : Str → Option Int) (unk : Str) (isWs : Char → Bool)
    (hno : t.normalizer = none) (hp : t.preTokenizer = some (whitespaceSplit isWs))
    (hmod : t.model = some (wordLevelModel vocab unk)) (s : Str) (hw : ∀ w ∈ plainWords isWs s, vocab w ≠ none)
    (hadd : NoAdded t s) (hs : s ≠ joinSpace (plainWords isWs s)) :
    ∃ e, t.encodeSingle (.raw (encStr s)) 0 .byte = .ok e ∧
      ∀ T : VocabState, Knows T vocab → T.decode none e.ids false ≠ .ok s := by
  obtain ⟨e, h1, _, h3⟩ := C101_wordlevel t vocab unk isWs hno hp hmod s hw hadd
  refine ⟨e, h1, ?_⟩
  intro T hk h
  rw [h3 T false hk (by simp), Res.ok.injEq] at h
  exact hs h.symm

/-- The tokens of a text whose words have pieces in the vocabulary, and what the decoder is given. -/
theorem bert_pieces (t : Tk) (m : WordPiece) (isPunc : Char → Bool) (s u : Str) (hn : Normalizes t s u)
    (h1 : t.splitRe.engine (encStr s) = []) (h2 : t.splitNormalizedRe.engine (encStr u) = [])
    (hp : t.preTokenizer = some (bertPre bertRe.engine isPunc)) (hmod : t.model = some (wordPieceModel m))
    (hw : ∀ w ∈ piecesOf (bertWords isPunc) s u, (w.length : Int) ≤ m.maxChars ∧
      ∃ ps, Greedy m true w ps ∧ ∀ q ∈ ps.head?, m.pre.isPrefixOf q.1 = false) :
    ∃ e, t.encodeSingle (.raw (encStr s)) 0 .byte = .ok e ∧
      (∃ segs : List (List Str), e.tokens = (segs.map (wordValues m.pre)).flatten ∧
        piecesOf (bertWords isPunc) s u = segs.map List.flatten ∧
        ∀ s ∈ segs, (∃ p ps, s = p :: ps ∧ m.pre.isPrefixOf p = false) ∧ ∀ q ∈ s, q ≠ []) ∧
      joinDecode (wpDecodeChain m.pre none) e.tokens = joinSpace (piecesOf (bertWords isPunc) s u) ∧
      ∀ (T : VocabState) (d : List Str → Res Str) (skip : Bool), Knows T m.vocab →
        (skip = true → ∀ v ∈ e.tokens, T.isSpecial v = false) → T.decode (some d) e.ids skip = d e.tokens := by
  let tok : Str → List Token := fun w => match m.tokenize w with
    | .ok ts => ts
    | _ => []
  have hne : ∀ w ∈ piecesOf (bertWords isPunc) s u, w ≠ [] := by
    intro w hw
    unfold piecesOf at hw
    split at hw
    · cases hw
    · obtain ⟨v, _, hv⟩ := List.mem_flatMap.mp hw
      exact runs_ne _ _ w hv
  have htok : ∀ w ∈ piecesOf (bertWords isPunc) s u, ∃ ps, Greedy m true w ps ∧
      m.tokenize w = .ok (piecesToTokens m true 0 ps) ∧ tok w = piecesToTokens m true 0 ps := by
    intro w h
    obtain ⟨hl, ps, hg, _⟩ := hw w h
    have := C34_greedy m w hl ps hg
    exact ⟨ps, hg, this, by simp only [tok, this]⟩
  have hknown : ∀ {first : Bool} {w : Str} {ps : List (Str × Int)} (hg : Greedy m first w ps) (k : Nat),
      ∀ x ∈ piecesToTokens m first k ps, m.vocab x.value = some x.id ∧ 0 ≤ x.offsets.1 ∧ x.offsets.1 ≤ x.offsets.2 := by
    intro first w ps hg
    induction hg with
    | nil => intro k x hx; cases hx
    | cons first p rest id ps hp hid hlong _ ih =>
      intro k x hx
      simp only [piecesToTokens, List.mem_cons] at hx
      rcases hx with rfl | hx
      · refine ⟨hid, ?_⟩
        dsimp only
        omega
      · exact ih _ x hx
  obtain ⟨e, h3, h5, h4⟩ := C101_decoder_input t s u (bertWords isPunc) tok hn h1 h2
    (.inr ⟨_, hp, C72_bert isPunc⟩) (by
      intro w h
      obtain ⟨ps, hg, ht, ht'⟩ := htok w h
      refine ⟨_, hmod, ?_, ?_, ?_⟩
      · simp only [wordPieceModel, decStr_enc, ht, Res.bind_ok, ht']
      · rw [ht']
        cases hg with
        | nil => exact absurd rfl (hne [] h)
        | cons => simp [piecesToTokens]
      · rw [ht']
        exact fun x hx => (hknown hg 0 x hx).2)
  have hts : (piecesOf (bertWords isPunc) s u).map m.tokenize =
      ((piecesOf (bertWords isPunc) s u).map tok).map .ok := by
    rw [List.map_map]
    apply List.map_congr_left
    intro w h
    obtain ⟨ps, _, ht, ht'⟩ := htok w h
    simp only [Function.comp, ht, ht']
  have hfl : e.tokens = (((piecesOf (bertWords isPunc) s u).map tok).flatten).map (·.value) := by
    rw [h5, List.flatMap_def]
  refine ⟨e, h3, ?_, ?_, ?_⟩
  · rw [hfl]
    exact words_pieces m _ _ hne (fun w h => (hw w h).1) hts (fun w h => (hw w h).2)
  · rw [hfl]
    exact C35_decode m _ hne (fun w h => (hw w h).1) _ hts (fun w h => (hw w h).2)
  · intro T d skip hk hs
    rw [h4 T d skip (by
      intro w h x hx
      obtain ⟨ps, hg, _, ht'⟩ := htok w h
      rw [ht'] at hx
      exact hk _ _ (hknown hg 0 x hx).1) hs, h5]

/-- C101 (BERT): for a text whose words have pieces in the vocabulary, the WordPiece decoder without clean-up
gives the words of the normalized text, separated by single spaces. -/
theorem C101_bert (t : Tk) (m : WordPiece) (isPunc : Char → Bool) (s u : Str) (hn : Normalizes t s u)
    (h1 : t.splitRe.engine (encStr s) = []) (h2 : t.splitNormalizedRe.engine (encStr u) = [])
    (hp : t.preTokenizer = some (bertPre bertRe.engine isPunc)) (hmod : t.model = some (wordPieceModel m))
    (hw : ∀ w ∈ piecesOf (bertWords isPunc) s u, (w.length : Int) ≤ m.maxChars ∧
      ∃ ps, Greedy m true w ps ∧ ∀ q ∈ ps.head?, m.pre.isPrefixOf q.1 = false) :
    ∃ e, t.encodeSingle (.raw (encStr s)) 0 .byte = .ok e ∧
      ∀ (T : VocabState) (skip : Bool), Knows T m.vocab → (skip = true → ∀ v ∈ e.tokens, T.isSpecial v = false) →
        T.decode (some (fun ts => .ok (joinDecode (wpDecodeChain m.pre none) ts))) e.ids skip =
          .ok (joinSpace (piecesOf (bertWords isPunc) s u)) := by
  obtain ⟨e, h3, _, h5, h6⟩ := bert_pieces t m isPunc s u hn h1 h2 hp hmod hw
  exact ⟨e, h3, fun T skip hk hs => by rw [h6 T _ skip hk hs, h5]⟩

/-- C101 (special tokens): with BERT's special tokens added, `Decode` that skips them gives the same as without. -/
theorem C101_special (t : Tokenizer) (htr : t.trunc = none) (hpad : t.padding = none) (bp : Bert)
    (hproc : t.processor = some bp.toProcessor) (s : List UInt8) (e : Encoding)
    (he : t.tk.encodeSingle (.raw s) 0 .byte = .ok e) (T : VocabState)
    (hc : T.idToToken bp.cls.id = some bp.cls.value) (hs : T.idToToken bp.sep.id = some bp.sep.value)
    (hc' : T.isSpecial bp.cls.value = true) (hs' : T.isSpecial bp.sep.value = true) (d : Option (List Str → Res Str)) :
    ∃ r, t.encodeSingle s [true] = .ok (some r) ∧ r.ids = bp.cls.id :: e.ids ++ [bp.sep.id] ∧
      T.decode d r.ids true = T.decode d e.ids true := by
  obtain ⟨r, h1, h2, _⟩ := C96_special t htr hpad bp hproc s e he
  have h3 : r.ids = bp.cls.id :: e.ids ++ [bp.sep.id] := h2 .ids
  refine ⟨r, h1, h3, ?_⟩
  have hk : keptTokens T r.ids true = keptTokens T e.ids true := by
    rw [h3]
    simp [keptTokens, hc, hs, hc', hs']
  rw [C19_decode, C19_decode, hk]

/-! ### A case -/

/-- A word-level tokenizer that splits at spaces. -/
def wordTk (vocab : Str → Option Int) : Tk :=
  { splitRe := ⟨[], fun _ => []⟩, splitNormalizedRe := ⟨[], fun _ => []⟩, normalizer := none
    preTokenizer := some (whitespaceSplit (fun c => c == ' ')), model := some (wordLevelModel vocab ['?']) }

/-- The vocabulary of the case, and what is known of it by id. -/
def wordVocab (w : Str) : Option Int := if w = ['h', 'i'] then some 1 else if w = ['é'] then some 2 else none

def wordState : VocabState :=
  { vocab := [(['h', 'i'], 1), (['é'], 2)]
    vocabR := fun i => if i = 1 then some ['h', 'i'] else if i = 2 then some ['é'] else none, fixedSize := none }

theorem wordState_knows : Knows wordState wordVocab := by
  intro v id h
  unfold wordVocab at h
  split at h
  · next hv => cases h; subst hv; rfl
  · split at h
    · next hv => cases h; subst hv; rfl
    · cases h

/-- "hi é" comes back. -/
example : ∃ e, (wordTk wordVocab).encodeSingle (.raw (encStr ['h', 'i', ' ', 'é'])) 0 .byte = .ok e ∧
    wordState.decode none e.ids false = .ok ['h', 'i', ' ', 'é'] := by
  obtain ⟨e, h1, _, h2⟩ := C101_roundtrip_partial (wordTk wordVocab) wordVocab ['?'] (fun c => c == ' ') rfl rfl rfl rfl
    [['h', 'i'], ['é']] (by decide) ⟨rfl, rfl⟩
  exact ⟨e, h1, h2 _ false wordState_knows (by simp)⟩

/-- "hi  é" does not. -/
example : ∃ e, (wordTk wordVocab).encodeSingle (.raw (encStr ['h', 'i', ' ', ' ', 'é'])) 0 .byte = .ok e ∧
    wordState.decode none e.ids false ≠ .ok ['h', 'i', ' ', ' ', 'é'] := by
  obtain ⟨e, h1, h2⟩ := C101_spaces_violated (wordTk wordVocab) wordVocab ['?'] (fun c => c == ' ') rfl rfl rfl
    ['h', 'i', ' ', ' ', 'é'] (by decide) ⟨rfl, rfl⟩ (by decide)
  exact ⟨e, h1, h2 _ wordState_knows⟩

/-- The words of BERT's pre-tokenizer. -/
example : bertWords (fun c => c == ',') "un,  aff".toList = [['u', 'n'], [','], ['a', 'f', 'f']] := by decide +kernel

end Tok.Whole
