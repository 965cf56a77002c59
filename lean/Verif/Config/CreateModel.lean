import Verif.Config.Model
import Verif.Files.Model
import Verif.Bpe.Model
import Verif.Word.Model
import Verif.Unigram.Build
import Mathlib.Algebra.Order.Ring.Rat

/-!
# Models from a configuration (pretrained/model.go)

Types that do not fit end in a failing type assertion, here `.panic`. The order of the entries of
an object is the order in which Go iterates over the map. Caches are left out.
-/

namespace Tok.Config

open Files (Merges createMerges)

/-- The type assertion `.(bool)`. -/
def asBool : Val → Res Bool
  | .bool b => .ok b
  | _ => .panic

/-- The type assertion `.(int)`. -/
def asInt : Val → Res Int
  | .int i => .ok i
  | _ => .panic

/-- The type assertion `.(float64)`. -/
def asNum : Val → Res Rat
  | .float x => .ok x
  | _ => .panic

/-- `if params.Has(key) { v := params.Get(key).(T); … }`: nil if the key is absent. -/
def opt (m : List (Str × Val)) (k : String) (cast : Val → Res α) : Res (Option α) :=
  if has m k then do
    let v ← cast (get m k)
    .ok (some v)
  else .ok none

/-- `castVocab` (pretrained/model.go:210-217). -/
def castVocab : List (Str × Val) → Res (List (Str × Int))
  | [] => .ok []
  | (k, v) :: rest => do
    let i ← asFloat v
    let r ← castVocab rest
    .ok ((k, i) :: r)

/-- One entry of `castMerge` (pretrained/model.go:221-236): an entry that is no string and no array
leaves the empty string that `make` put there. The case `[]string` does not come out of JSON. -/
def castMergeEntry : Val → Res Str
  | .arr [a, b] => do
    let x ← asStr a
    let y ← asStr b
    .ok (x ++ ' ' :: y)
  | .arr _ => .err
  | .str s => .ok s
  | _ => .ok []

/-- `castMerge` (pretrained/model.go:219-239). -/
def castMerge : List Val → Res (List Str)
  | [] => .ok []
  | v :: rest => do
    let s ← castMergeEntry v
    let r ← castMerge rest
    .ok (s :: r)

/-- The reverse of a vocabulary (bpe.go:138-140): for equal ids the entry that comes last. -/
def reverseVocab (v : List (Str × Int)) : Int → Option Str :=
  v.foldl (fun r e => fun i => if i = e.2 then some e.1 else r i) (fun _ => none)

/-- The merge table of `MergeWord` for a merge map. -/
def mergeTable (m : Merges) : MergeTable := fun a b => (mget m (a, b)).map (fun p => ⟨p.1, p.2⟩)

/-- What the four functions return. -/
inductive AnyModel where
  | bpe (m : BpeModel) (dropout : Option Rat)
  | wordPiece (m : WordPiece)
  | wordLevel (vocab : Str → Option Int) (unk : Str)
  | unigram (u : Unigram Rat)

/-- `bpe.New` (bpe.go:649-679) with `Build` (bpe.go:104-161); the conversion of the dropout to
`float32` is taken to be exact. -/
def bpeNew (vocab : List (Str × Int)) (merges : List Str) (dropout : Option Rat) (unk pre suf : Option Str) :
    Res AnyModel := do
  let ms ← createMerges (mget vocab) merges
  if dropout.any (fun p => decide (p ≤ 0 ∨ p > 1)) then .err
  else .ok (.bpe ⟨mget vocab, reverseVocab vocab, mergeTable ms, unk, pre, suf⟩ dropout)

/-- `createBPE` (pretrained/model.go:80-113). -/
def createBpe (m : List (Str × Val)) : Res AnyModel := do
  let dropout ← opt m "dropout" asNum
  let unk ← opt m "unk_token" asStr
  let pre ← opt m "continuing_subword_prefix" asStr
  let suf ← opt m "end_of_word_suffix" asStr
  let v ← asObj (get m "vocab")
  let vocab ← castVocab v
  let l ← asArr (get m "merges")
  let merges ← castMerge l
  bpeNew vocab merges dropout unk pre suf

/-- `wordpiece.New` (wordpiece.go:410-441): the prefix is looked up under a key that is spelled in
another way in the test. -/
def wordPieceNew (vocab : List (Str × Int)) (opts : List (Str × Val)) : Res AnyModel := do
  let unk ← opt opts "unk_token" asStr
  let pre ← if has opts "continuingSubwordPrefix" then do
      let s ← asStr (get opts "continuing_subword_prefix")
      .ok (some s)
    else .ok none
  let max ← opt opts "max_input_chars_per_word" asInt
  .ok (.wordPiece ⟨mget vocab, unk.getD "[UNK]".toList, pre.getD "##".toList, max.getD 100⟩)

/-- `opts.Set` if there is a value. -/
def setOpt (opts : List (Str × Val)) (k : String) (v : Option Val) : List (Str × Val) :=
  match v with
  | some x => mset opts k.toList x
  | none => opts

/-- `createWordPiece` (pretrained/model.go:123-142): `opts.Get("continuing_subword_prefix", v)` has
no effect. -/
def createWordPiece (m : List (Str × Val)) : Res AnyModel := do
  let unk ← opt m "unk_token" asStr
  let opts := setOpt [] "unk_token" (unk.map .str)
  let _ ← opt m "continuing_subword_prefix" asStr
  let max ← opt m "max_input_chars_per_word" asFloat
  let opts := setOpt opts "max_input_chars_per_word" (max.map .int)
  let v ← asObj (get m "vocab")
  let vocab ← castVocab v
  wordPieceNew vocab opts

/-- `createWordLevel` (pretrained/model.go:144-154) and `wordlevel.New` (wordlevel.go:248-263). -/
def createWordLevel (m : List (Str × Val)) : Res AnyModel := do
  let unk ← opt m "unk_token" asStr
  let v ← asObj (get m "vocab")
  let vocab ← castVocab v
  let unkToken := unk.getD []
  .ok (.wordLevel (mget vocab) (if unkToken = [] then "<unk>".toList else unkToken))

/-- The loop over the vocabulary (pretrained/model.go:180-194). -/
def castScores : List Val → Res (List (Bytes × Rat))
  | [] => .ok []
  | v :: rest => do
    let pair ← asArr v
    match pair with
    | [a, b] => do
      let token ← asStr a
      let score ← asNum b
      let r ← castScores rest
      .ok ((encStr token, score) :: r)
    | _ => .err

/-- `unigram.New` (unigram.go:117-150) with the constants 0.1 and 10. -/
def unigramNew (vocab : List (Bytes × Rat)) (opts : List (Str × Val)) : Res AnyModel := do
  let unk ← if has opts "unk_id" then
      match get opts "unk_id" with
      | .float x => .ok (some (truncInt x))
      | .int i => .ok (some i)
      | _ => .err
    else .ok none
  let bf ← opt opts "byte_fallback" asBool
  let fu ← opt opts "fuse_unk" asBool
  let u ← Unigram.build vocab unk (bf.getD false) (fu.getD true) (1 / 10) 10
  .ok (.unigram u)

/-- `createUnigram` (pretrained/model.go:156-208). -/
def createUnigram (m : List (Str × Val)) : Res AnyModel := do
  let unk ← opt m "unk_id" asFloat
  let bf ← opt m "byte_fallback" asBool
  let fu ← opt m "fuse_unk" asBool
  if has m "vocab" then do
    let l ← asArr (get m "vocab")
    let vocab ← castScores l
    let opts := setOpt [] "unk_id" (unk.map .int)
    let opts := mset opts "byte_fallback".toList (.bool (bf.getD false))
    let opts := mset opts "fuse_unk".toList (.bool (fu.getD true))
    unigramNew vocab opts
  else .err

/-- The type guessed from the decoder (pretrained/model.go:30-49). -/
def guessType (d : List (Str × Val)) : Res Str := do
  let t ← opt d "type" asStr
  match t with
  | none => .ok "BPE".toList
  | some s =>
    if s = "ByteLevel".toList then .ok "BPE".toList
    else if s = "WordPiece".toList then .ok "WordPiece".toList
    else if s = "WordLevel".toList then .ok "WordLevel".toList
    else if s = "Unigram".toList then .ok "Unigram".toList
    else .ok "BPE".toList

/-- `CreateModel` (pretrained/model.go:18-66) with the objects under `model` and `decoder`, which are
empty if they are absent. -/
def createModel (model decoder : List (Str × Val)) : Res AnyModel := do
  let t ← opt model "type" asStr
  let typ ← match t with
    | some s => .ok s
    | none => guessType decoder
  if typ = "BPE".toList then createBpe model
  else if typ = "WordPiece".toList then createWordPiece model
  else if typ = "WordLevel".toList then createWordLevel model
  else if typ = "Unigram".toList then createUnigram model
  else .err

/-- The JSON object that `Unigram.Save` writes (unigram.go:193-243), for tokens that are valid
UTF-8. -/
def saveUnigram (vocab : List (Str × Rat)) (unkId : Option Int) (bytesFallback : Bool) : List (Str × Val) :=
  [("byte_fallback".toList, .bool bytesFallback),
   ("type".toList, .str "Unigram".toList),
   ("unk_id".toList, match unkId with
     | some i => .float i
     | none => .null),
   ("vocab".toList, .arr (vocab.map (fun e => .obj [("token".toList, .str e.1), ("score".toList, .float e.2)])))]

end Tok.Config
