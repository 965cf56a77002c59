import Verif.Whole.Presets
import Verif.Vocab.Load
import Verif.Config.CreateModel
import Verif.Config.Components
import Verif.PreTok.Metaspace
import Verif.PreTok.Scripts
import Verif.PreTok.PropsPipeline
import Verif.PreTok.PropsInsideUnigram
import Verif.Norm.ReplaceDecoder

/-!
# A tokenizer from a file tokenizer.json (pretrained/tokenizer.go)

The text of the file has been decoded by `encoding/json`; reading and decoding are not modelled.
-/

namespace Tok.Whole

open Tok.PreTok Tok.Added Tok.Config
open Tok.Norm (NStr)

/-- `Config` (config.go:9-29) after decoding: `none` is a nil map, which is an absent section or null. -/
structure FileConfig where
  truncation : Option (List (Str × Val)) := none
  padding : Option (List (Str × Val)) := none
  addedTokens : List TokenConfig := []
  normalizer : Option (List (Str × Val)) := none
  preTokenizer : Option (List (Str × Val)) := none
  postProcessor : Option (List (Str × Val)) := none
  decoder : Option (List (Str × Val)) := none
  model : Option (List (Str × Val)) := none

/-- What comes from outside of the modelled code: `engine` gives the matches of a regular expression, `number` is
`unicode.IsNumber`, `punctuation` is `isPunctuation` (pretokenizer/punctuation.go), `whitespace` is
`normalizer.IsWhitespace`, `words` the engine of `\w+|[^\w\s]+`, `scripts` are the tables of package unicode,
`precompiled` normalizes with the data of a precompiled map (`Tok.Spm.normalize` with its parameters), `charOrder` is
the order in which the map `BytesChar` is read (bytelevel.go:24-31), `heap` the priority queue of the merges, `dropped`
is BPE with a dropout. -/
structure FileEnv extends Env where
  cfg : Config.Env
  engine : Str → List UInt8 → List (Nat × Nat)
  number : Char → Bool
  punctuation : Char → Bool
  whitespace : Char → Bool
  words : List UInt8 → List (Nat × Nat)
  scripts : List (String × (Char → Bool))
  precompiled : Str → Option NStr → Res (Option NStr)
  charOrder : List (UInt8 × List UInt8)
  heap : Heap
  dropped : BpeModel → Rat → List UInt8 → Res (Option (List Token))

/-- The pattern of a `Replace`: `NewReplace` (normalizer/replace.go:22-42). -/
def replacePat (E : FileEnv) (regex : Bool) (pattern : Str) : Norm.Pat :=
  if regex then .regexp (E.engine pattern) else Norm.stringPattern (encStr pattern)

mutual
/-- `Normalize` of the normalizers that `CreateNormalizer` makes (pretrained/normalizer.go:27-197). -/
def normFn (E : FileEnv) (c : NormCfg) (n : Option NStr) : Res (Option NStr) :=
  match c with
  | .bert clean lower chinese accents => Norm.Normalizer.normalize E.tables (.bert ⟨clean, lower, chinese, accents⟩) n
  | .strip l r => Norm.Normalizer.normalize E.tables (.strip l r) n
  | .stripAccents => Norm.Normalizer.normalize E.tables .stripAccents n
  | .nfc => Norm.Normalizer.normalize E.tables .nfc n
  | .nfd => Norm.Normalizer.normalize E.tables .nfd n
  | .nfkc => Norm.Normalizer.normalize E.tables .nfkc n
  | .nfkd => Norm.Normalizer.normalize E.tables .nfkd n
  | .sequence l => normFns E l n
  | .lowercase => Norm.Normalizer.normalize E.tables (.default true false) n
  | .precompiled data => E.precompiled data n
  | .replace regex pattern content =>
    Norm.Normalizer.normalize E.tables (.replace (replacePat E regex pattern) (encStr content)) n
  | .prepend s => Norm.Normalizer.normalize E.tables (.prepend (encStr s)) n

/-- The loop of `Sequence.Normalize` (normalizer/sequence.go:16-27). -/
def normFns (E : FileEnv) (l : List NormCfg) (n : Option NStr) : Res (Option NStr) :=
  match l with
  | [] => .ok n
  | c :: l => do
    let n' ← normFn E c n
    normFns E l n'
end

/-- The normalizer of a tokenizer: a nil result is dereferenced by the callers. -/
def normalizerOf (E : FileEnv) (c : NormCfg) (n : NStr) : Res NStr := do
  match ← normFn E c (some n) with
  | some x => .ok x
  | none => .panic

mutual
/-- `PreTokenize` of the pre-tokenizers that `CreatePreTokenizer` makes (pretrained/pretokenizer.go:26-233). -/
def preFn (E : FileEnv) (c : PreCfg) (pt : PTS) : Res PTS :=
  match c with
  | .bert => bertPre E.ws E.punc pt
  | .byteLevel addPrefixSpace _ => byteLevelPre addPrefixSpace (gpt2Engine E.isL E.isN) pt
  | .delimiter c => delimiterSplit c pt
  | .metaspace rep scheme addPrefix => (Metaspace.mk rep scheme addPrefix (E.engine rep)).preTokenize pt
  | .whitespace => whitespace E.words pt
  | .sequence l => preFns E l pt
  | .whitespaceSplit => whitespaceSplit E.whitespace pt
  | .punctuation b => punctuation E.punctuation b pt
  | .digits individual => digits E.number individual pt
  | .unicodeScripts => unicodeScript (fixedScript E.scripts) pt
  | .split regex b invert => splitPre (.regexp (E.engine regex)) b invert pt

/-- `Sequence.PreTokenize` (pretokenizer/sequence.go:19-30). -/
def preFns (E : FileEnv) (l : List PreCfg) (pt : PTS) : Res PTS :=
  match l with
  | [] => .ok pt
  | c :: l => do
    let out ← preFn E c pt
    preFns E l out
end

mutual
/-- The post-processors that `CreatePostProcessor` makes (pretrained/processor.go:19-228). -/
def procFn (c : ProcCfg) : PostProcessor :=
  match c with
  | .roberta sep cls trim addPrefix => (Roberta.mk ⟨sep.1, sep.2⟩ ⟨cls.1, cls.2⟩ trim addPrefix).toProcessor
  | .bert sep cls => (Bert.mk ⟨sep.1, sep.2⟩ ⟨cls.1, cls.2⟩).toProcessor
  | .byteLevel addPrefix trim => byteLevelProcessor trim addPrefix
  | .template t => t.toProcessor
  | .sequence l => sequenceProcessor (procFns l)

/-- The post-processors of a `Sequence` (processor/sequence.go:11-15). -/
def procFns (l : List ProcCfg) : List PostProcessor :=
  match l with
  | [] => []
  | c :: l => procFn c :: procFns l
end

/-- A decoder of texts on byte strings: what is no valid UTF-8 is replaced first, which the code does not do. -/
def onText (f : List Str → Res (List Str)) (ts : List Bytes) : Res (List Bytes) := do
  let r ← f (ts.map decStr)
  .ok (r.map encStr)

mutual
/-- `DecodeChain` of the decoders that `CreateDecoder` makes (pretrained/decoder.go:25-195). -/
def chainFn (E : FileEnv) (c : DecCfg) (ts : List Bytes) : Res (List Bytes) :=
  match c with
  | .bpe suffix => onText (fun ts => .ok (bpeDecode suffix ts.length 0 ts)) ts
  | .byteLevel _ _ => .ok (byteLevelDecodeChain (charBytes E.charOrder) ts)
  | .wordPiece pre cleanup => onText (fun ts => .ok (wpDecodeChain pre (if cleanup then some cleanupText else none) ts)) ts
  | .metaspace rep addPrefix =>
    onText (fun ts => .ok ((Metaspace.mk rep (if addPrefix then .always else .never) addPrefix (E.engine rep)).decodeChain ts)) ts
  | .ctc pad delim cleanup => onText (fun ts => .ok (ctcChain pad delim cleanup ts)) ts
  | .sequence l => chainFns E l ts
  | .replace regex pattern content => Norm.replaceChain (replacePat E regex pattern) (encStr content) ts
  | .fuse => onText fuseChain ts
  | .strip content start stop => onText (stripChain content start.toNat stop.toNat) ts
  | .byteFallback => byteFallbackChain ts

/-- The loop of `Sequence.DecodeChain` (decoder/sequence.go:28-35). -/
def chainFns (E : FileEnv) (l : List DecCfg) (ts : List Bytes) : Res (List Bytes) :=
  match l with
  | [] => .ok ts
  | c :: l => do
    let out ← chainFn E c ts
    chainFns E l out
end

/-- `Decode` of the same decoders: the joined chain (decoder/decoder.go:13-15, normalizer/replace.go:70-72,
pretokenizer/metaspace.go:145-149), but `ByteLevel.Decode` joins first (bytelevel.go:228-243). -/
def decodeFn (E : FileEnv) (c : DecCfg) (ts : List Bytes) : Res Bytes :=
  match c with
  | .byteLevel _ _ => .ok (byteLevelDecode (charBytes E.charOrder) ts)
  | c => do
    let out ← chainFn E c ts
    .ok out.flatten

/-- `Tokenize` of the model that `CreateModel` makes. -/
def modelFn (E : FileEnv) : AnyModel → List UInt8 → Res (Option (List Token))
  | .bpe b none => bpeModel E.heap b
  | .bpe b (some p) => E.dropped b p
  | .wordPiece m => wordPieceModel m
  | .wordLevel vocab unk => wordLevelModel vocab unk
  | .unigram u => unigramModel u

/-- The map `vocab` of a model section, which `castVocab` (pretrained/model.go:210-217) has read when the model was
made. -/
def vocabList (m : List (Str × Val)) : List (Str × Int) :=
  match get m "vocab" with
  | .obj o =>
    match castVocab o with
    | .ok v => v
    | _ => []
  | _ => []

/-- What `GetVocab`, `IdToToken` and `GetVocabSize` of the model give to the added vocabulary (`VocabState`): the maps of
bpe.go:104-161, wordpiece.go:80-111, wordlevel.go:53-64 and unigram.go:92-190. -/
def vocabOf (m : List (Str × Val)) : AnyModel → VocabState
  | .bpe b _ => { vocab := vocabList m, vocabR := b.vocabR, fixedSize := none }
  | .wordPiece _ => { vocab := vocabList m, vocabR := reverseVocab (vocabList m), fixedSize := none }
  | .wordLevel _ _ => { vocab := vocabList m, vocabR := reverseVocab (vocabList m), fixedSize := none }
  | .unigram u =>
    { vocab := u.getVocab.map (fun p => (decStr p.1, (p.2 : Int)))
      vocabR := fun i => (u.idToToken i).map decStr
      fixedSize := some u.getVocabSize }

/-- What `FromReader` returns: a `Tokenizer` (tokenizer.go:257-271) with its vocabulary and its decoder. -/
structure Built where
  tok : Tokenizer
  state : VocabState
  decoder : Option (List Bytes → Res Bytes)

/-- `Tokenizer.Decode` (tokenizer.go:515-530) of such a tokenizer; the text as bytes. -/
def Built.decode (b : Built) (ids : List Int) (skip : Bool) : Res Bytes :=
  match b.decoder with
  | some d => d ((b.state.decodeTokens skip ids).map encStr)
  | none => .ok (encStr (VocabState.joinStr [' '] (b.state.decodeTokens skip ids)))

/-- The test at the beginning of `CreateNormalizer`, `CreatePreTokenizer`, `CreatePostProcessor` and `CreateDecoder`
(pretrained/normalizer.go:29-31, pretokenizer.go:27-29, processor.go:20-22, decoder.go:26-28): nothing for a nil map. -/
def fromSection (create : List (Str × Val) → Res α) : Option (List (Str × Val)) → Res (Option α)
  | none => .ok none
  | some m => do
    let c ← create m
    .ok (some c)

/-- `FromReader` (pretrained/tokenizer.go:28-100) after decoding; `none` is a file that holds null. The matching sets are
built once at the end of step 6 instead of after each of the two calls. -/
def fromReader (E : FileEnv) : Option FileConfig → Res Built
  | none => .panic
  | some c => do
    let model ← createModel (c.model.getD []) (c.decoder.getD [])
    let n ← fromSection (createNorm E.cfg) c.normalizer
    let pre ← fromSection (createPre E.cfg) c.preTokenizer
    let proc ← fromSection createProc c.postProcessor
    let dec ← fromSection createDec c.decoder
    let norm := n.map (normalizerOf E)
    let T ← loadAdded (vocabOf (c.model.getD []) model) c.addedTokens
    let re ← buildSet E.wordChar norm E.order T.splitRe
    let reN ← buildSet E.wordChar norm E.order T.splitNormalizedRe
    let trunc ← createTruncation c.truncation
    .ok {
      tok := {
        tk := ⟨re, reN, norm, pre.map (preFn E), some (modelFn E model)⟩
        trunc := trunc
        padding := createPadding c.padding
        processor := proc.map procFn }
      state := T
      decoder := dec.map (decodeFn E) }

end Tok.Whole
