import Verif.Whole.Model
import Verif.Decoder.Model
import Verif.Added.Model
import Verif.PreTok.PropsBpe
import Verif.PreTok.PropsTokenizers
import Verif.PreTok.ByteLevel
import Verif.PreTok.Splitters
import Verif.Norm.Bert

/-!
# The ready-made tokenizers (pretrained/gpt2.go, roberta.go, bert.go)

What the vocabulary files hold is a parameter; a file that cannot be read ends the process and is not modelled, nor is
the change of the working directory.
-/

namespace Tok.Whole

open Tok.PreTok Tok.Added

/-- What the functions of package pretrained return: a `Tokenizer` (tokenizer.go:257-271) with its vocabulary and its
decoder. -/
structure Loaded where
  tok : Tokenizer
  state : VocabState
  decoder : DecoderVal

/-- `Tokenizer.Decode` (tokenizer.go:515-530) of such a tokenizer. -/
def Loaded.decode (l : Loaded) (ids : List Int) (skip : Bool) : Res Str :=
  l.state.decode (some l.decoder.decode) ids skip

/-- Where no tokens have been added nothing is matched (`NewAddedVocabulary`, added-vocabulary.go:220-236). -/
def noSet : MatchingSet := ⟨[], fun _ => []⟩

/-- The character classes and the order of matches that the presets take from elsewhere: `isL` and `isN` are `\p{L}` and
`\p{N}` of the expression of bytelevel.go:18, `wordChar` is `isWordCharacter` and `order` what `sort.Sort` leaves
(`Tok.Added`), `ws` the engine of `\s+` (pretokenizer/bert.go:71-73), `punc` is `IsBertPunctuation`, `tables` are those
of the normalizers. -/
structure Env where
  isL : Char → Bool
  isN : Char → Bool
  wordChar : Char → Bool
  order : List PatMatch → List PatMatch
  ws : List UInt8 → List (Nat × Nat)
  punc : Char → Bool
  tables : Norm.Tables

/-- `GPT2` (pretrained/gpt2.go:32-64); `vocab` and `b` are what `NewBpeFromFiles` reads. -/
def gpt2 (E : Env) (H : Heap) (vocab : List (Str × Int)) (b : BpeModel) (addPrefixSpace trimOffsets : Bool) : Loaded where
  tok := {
    tk := ⟨noSet, noSet, none, some (byteLevelPre addPrefixSpace (gpt2Engine E.isL E.isN)), some (bpeModel H b)⟩
    trunc := none
    padding := none
    processor := some (byteLevelProcessor trimOffsets addPrefixSpace) }
  state := { vocab := vocab, vocabR := b.vocabR, fixedSize := none }
  decoder := newDecoder (fun ts => .ok (bpeDecode ['Ġ'] ts.length 0 ts))

/-- `NewAddedToken(s, true)` (added-vocabulary.go:82-92). -/
def specialToken (s : Str) : AddedToken := { content := s, normalized := false }

/-- A call of `AddSpecialTokens` with one token, for each of the contents. -/
def addSpecials (T : VocabState) : List Str → Res VocabState
  | [] => .ok T
  | s :: ss => do
    let r ← T.addSpecialTokens [specialToken s]
    addSpecials r.1 ss

/-- `DefaultRobertaProcessing` (processor/roberta.go:17-25). -/
def defaultRoberta : Roberta :=
  ⟨⟨['<', '/', 's', '>'], 2⟩, ⟨['<', 's', '>'], 0⟩, true, true⟩

/-- `RobertaBase` and `RobertaBaseSquad2` (pretrained/roberta.go:32-65, 84-110): the parameter `trimOffsets` goes to the
pre-tokenizer only, which does not use it. -/
def robertaBase (E : Env) (H : Heap) (vocab : List (Str × Int)) (b : BpeModel) (addPrefixSpace _trimOffsets : Bool) :
    Res Loaded := do
  let T ← addSpecials { vocab := vocab, vocabR := b.vocabR, fixedSize := none } [['<', 's', '>'], ['<', '/', 's', '>']]
  let re ← buildSet E.wordChar none E.order T.splitRe
  let reN ← buildSet E.wordChar none E.order T.splitNormalizedRe
  .ok {
    tok := {
      tk := ⟨re, reN, none, some (byteLevelPre addPrefixSpace (gpt2Engine E.isL E.isN)), some (bpeModel H b)⟩
      trunc := none
      padding := none
      processor := some defaultRoberta.toProcessor }
    state := T
    decoder := newDecoder (fun ts => .ok (bpeDecode ['Ġ'] ts.length 0 ts)) }

/-- `BertBaseUncased` and `BertLargeCasedWholeWordMaskingSquad` (pretrained/bert.go:28-76, 83-127), which differ in the
flag for lower case and in the decoder; `vocab`, `vocabR` and `m` are what `NewWordPieceFromFile` reads. -/
def bertPreset (lowercase : Bool) (decoder : DecoderVal) (E : Env) (vocab : List (Str × Int)) (vocabR : Int → Option Str)
    (m : WordPiece) : Res Loaded := do
  let T : VocabState := { vocab := vocab, vocabR := vocabR, fixedSize := none }
  let norm := (Norm.Bert.mk true lowercase true true).normalize E.tables
  match T.tokenToId ['[', 'S', 'E', 'P', ']'], T.tokenToId ['[', 'C', 'L', 'S', ']'] with
  | some sep, some cls => do
    let T' ← addSpecials T [['[', 'M', 'A', 'S', 'K', ']'], ['[', 'S', 'E', 'P', ']'], ['[', 'C', 'L', 'S', ']']]
    let re ← buildSet E.wordChar (some norm) E.order T'.splitRe
    let reN ← buildSet E.wordChar (some norm) E.order T'.splitNormalizedRe
    .ok {
      tok := {
        tk := ⟨re, reN, some norm, some (bertPre E.ws E.punc), some (wordPieceModel m)⟩
        trunc := none
        padding := none
        processor := some (Bert.mk ⟨['[', 'S', 'E', 'P', ']'], sep⟩ ⟨['[', 'C', 'L', 'S', ']'], cls⟩).toProcessor }
      state := T'
      decoder := decoder }
  | _, _ => .panic

/-- `BertBaseUncased` (pretrained/bert.go:28-76). -/
def bertBaseUncased := bertPreset true defaultWordpieceDecoder

/-- `BertLargeCasedWholeWordMaskingSquad` (pretrained/bert.go:83-127); `NewWordPieceDecoder("##", true)`. -/
def bertLargeCased :=
  bertPreset false (newDecoder (fun ts => .ok (wpDecodeChain ['#', '#'] (some cleanupText) ts)))

end Tok.Whole
