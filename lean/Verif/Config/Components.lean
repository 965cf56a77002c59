import Verif.Config.CreateModel
import Verif.Norm.Pattern
import Verif.PreTok.Metaspace

/-!
# Normalizers, pre-tokenizers, post-processors and decoders from a configuration
(pretrained/normalizer.go, pretokenizer.go, processor.go, decoder.go)

The results are descriptions: the constructor that is called and its arguments. Type assertions
that fail are `.panic`.
-/

namespace Tok.Config

open Tok.Norm (Behavior)
open Tok.PreTok (Scheme)

theorem sizeOf_mget (m : List (Str × Val)) (k : Str) (v : Val) (h : mget m k = some v) : sizeOf v < sizeOf m := by
  induction m with
  | nil => cases h
  | cons p l ih =>
    unfold mget at h
    split at h
    · cases h
      have : sizeOf p = 1 + sizeOf p.1 + sizeOf p.2 := by cases p; rfl
      simp only [List.cons.sizeOf_spec, this]
      omega
    · have := ih h
      simp only [List.cons.sizeOf_spec]
      omega

theorem sizeOf_get (m : List (Str × Val)) (k : String) (l : List Val) (h : get m k = .arr l) : sizeOf l < sizeOf m := by
  unfold get lookup at h
  cases hm : mget m k.toList with
  | none => rw [hm] at h; cases h
  | some v =>
    rw [hm] at h
    have hv : v = .arr l := h
    have := sizeOf_mget m _ v hm
    rw [hv] at this
    simp only [Val.arr.sizeOf_spec] at this
    omega

/-- `params.Get(key).([]interface{})`, remembering that it is a part of the object (for the
termination of the functions below). -/
def getArr (m : List (Str × Val)) (k : String) : Res { l : List Val // sizeOf l < sizeOf m } :=
  match h : get m k with
  | .arr l => .ok ⟨l, sizeOf_get m k l h⟩
  | _ => .panic

theorem getArr_ok {m : List (Str × Val)} {k : String} {l : List Val} (h : get m k = .arr l) :
    getArr m k = .ok ⟨l, sizeOf_get m k l h⟩ := by
  unfold getArr
  split
  · next l' h' =>
    have : l' = l := by
      rw [h] at h'
      exact (Val.arr.inj h').symm
    subst this
    rfl
  · next hn => exact absurd h (hn l)

/-- `params.Get(key, false).(bool)`. -/
def flag (m : List (Str × Val)) (k : String) : Res Bool :=
  match get m k with
  | .null => .ok false
  | .bool b => .ok b
  | _ => .panic

/-- Things that are decided outside of this package: whether a regular expression is accepted by
package regexp, whether a precompiled map can be decoded and parsed, and `strings.ToLower`. -/
structure Env where
  compiles : Str → Bool
  charsmap : Str → Bool
  lower : Str → Str

/-! ### Normalizers -/

/-- The normalizers that `CreateNormalizer` makes. -/
inductive NormCfg where
  | bert (cleanText lowercase handleChineseChars stripAccents : Bool)
  | strip (left right : Bool)
  | stripAccents
  | nfc | nfd | nfkc | nfkd
  | sequence (l : List NormCfg)
  | lowercase
  | precompiled (data : Str)
  | replace (regex : Bool) (pattern content : Str)
  | prepend (s : Str)

/-- The pattern of a `Replace` (pretrained/normalizer.go:104-116, pretrained/decoder.go:161-173): the
test for "Regex" is made on the outer object, and the type is `String` in both cases. -/
def replacePattern (m : List (Str × Val)) : Res (Bool × Str) := do
  let pm ← asObj (get m "pattern")
  if has pm "String" then do
    let s ← asStr (get pm "String")
    .ok (false, s)
  else if has m "Regex" then do
    let s ← asStr (get pm "Regex")
    .ok (false, s)
  else .ok (false, [])

mutual
/-- `CreateNormalizer` (pretrained/normalizer.go:27-77) for a map that is not nil, with the functions
below it (86-197). "Nmt" is a panic. -/
def createNorm (env : Env) (m : List (Str × Val)) : Res NormCfg := do
  let typ ← asStr (get m "type")
  if typ = "BertNormalizer".toList then do
    let clean ← flag m "clean_text"
    let chinese ← flag m "handle_chinese_chars"
    let accents ← flag m "strip_accents"
    let lower ← flag m "lowercase"
    .ok (.bert clean lower chinese accents)
  else if typ = "StripNormalizer".toList ∨ typ = "Strip".toList then do
    let l ← flag m "strip_left"
    let r ← flag m "strip_right"
    .ok (.strip l r)
  else if typ = "StripAccents".toList then .ok .stripAccents
  else if typ = "NFC".toList then .ok .nfc
  else if typ = "NFD".toList then .ok .nfd
  else if typ = "NFKC".toList then .ok .nfkc
  else if typ = "NFKD".toList then .ok .nfkd
  else if typ = "Sequence".toList then
    if has m "normalizers" then do
      let ⟨l, _⟩ ← getArr m "normalizers"
      let ns ← createNorms env l
      .ok (.sequence ns)
    else .ok (.sequence [])
  else if typ = "Lowercase".toList then .ok .lowercase
  else if typ = "Nmt".toList then .panic
  else if typ = "Precompiled".toList then
    if has m "precompiled_charsmap" then do
      let s ← asStr (get m "precompiled_charsmap")
      if env.charsmap s then .ok (.precompiled s) else .err
    else .err
  else if typ = "Replace".toList then do
    let p ← replacePattern m
    let content ← asStr (get m "content")
    .ok (.replace p.1 p.2 content)
  else if typ = "Prepend".toList then do
    let s ← opt m "prepend" asStr
    .ok (.prepend (s.getD []))
  else .err
termination_by sizeOf m

/-- The loop of `createSequenceNormalizer` (pretrained/normalizer.go:185-192). -/
def createNorms (env : Env) (l : List Val) : Res (List NormCfg) :=
  match l with
  | [] => .ok []
  | .obj m :: rest => do
    let n ← createNorm env m
    let ns ← createNorms env rest
    .ok (n :: ns)
  | _ :: _ => .panic
termination_by sizeOf l
end

/-! ### Pre-tokenizers -/

/-- The pre-tokenizers that `CreatePreTokenizer` makes. -/
inductive PreCfg where
  | bert
  | byteLevel (addPrefixSpace trimOffsets : Bool)
  | delimiter (c : Char)
  | metaspace (replacement : Str) (scheme : Scheme) (addPrefixSpace : Bool)
  | whitespace
  | sequence (l : List PreCfg)
  | whitespaceSplit
  | punctuation (b : Behavior)
  | digits (individual : Bool)
  | unicodeScripts
  | split (regex : Str) (b : Behavior) (invert : Bool)

/-- The names of the behaviors (pretrained/pretokenizer.go:131-147, 197-213). -/
def behaviorOf (s : Str) : Res Behavior :=
  if s = "Removed".toList then .ok .removed
  else if s = "Isolated".toList then .ok .isolated
  else if s = "MergedWithNext".toList then .ok .mergedWithNext
  else if s = "MergedWithPrevious".toList then .ok .mergedWithPrevious
  else if s = "Contiguous".toList then .ok .contiguous
  else .err

/-- `createMetaspacePreTokenizer` (pretrained/pretokenizer.go:84-112), with what the two constructors
set (pretokenizer/metaspace.go:33-59). -/
def createMetaspace (env : Env) (m : List (Str × Val)) : Res PreCfg := do
  let rep ← opt m "replacement" asStr
  let scheme ← opt m "prepend_scheme" asStr
  match scheme with
  | some s =>
    if env.lower s = "always".toList then .ok (.metaspace (rep.getD []) .always true)
    else if env.lower s = "first".toList then .ok (.metaspace (rep.getD []) .first true)
    else if env.lower s = "never".toList then .ok (.metaspace (rep.getD []) .never false)
    else .err
  | none => do
    let b ← flag m "add_prefix_space"
    .ok (.metaspace (rep.getD []) (if b then .always else .never) b)

/-- The pattern of `createSplitPreTokenizer` (pretrained/pretokenizer.go:187-195): a "String" is
compiled as a regular expression as well. -/
def splitPattern (pm : List (Str × Val)) : Res Str :=
  match lookup pm "Regex" with
  | some v => asStr v
  | none =>
    match lookup pm "String" with
    | some v => asStr v
    | none => .err

mutual
/-- `CreatePreTokenizer` (pretrained/pretokenizer.go:26-62) for a map that is not nil, with the
functions below it (64-233). -/
def createPre (env : Env) (m : List (Str × Val)) : Res PreCfg := do
  let typ ← asStr (get m "type")
  if typ = "BertPreTokenizer".toList then .ok .bert
  else if typ = "ByteLevel".toList then do
    let a ← flag m "add_prefix_space"
    let t ← flag m "trim_offsets"
    .ok (.byteLevel a t)
  else if typ = "Delimiter".toList then do
    let s ← asStr (get m "delimiter")
    match s with
    | c :: _ => .ok (.delimiter c)
    | [] => .panic
  else if typ = "Metaspace".toList then createMetaspace env m
  else if typ = "Whitespace".toList then .ok .whitespace
  else if typ = "Sequence".toList then do
    let ⟨l, _⟩ ← getArr m "pretokenizers"
    let ns ← createPres env l
    .ok (.sequence ns)
  else if typ = "WhitespaceSplit".toList then .ok .whitespaceSplit
  else if typ = "Punctuation".toList then do
    let s ← asStr (get m "behavior")
    let b ← behaviorOf s
    .ok (.punctuation b)
  else if typ = "Digits".toList then do
    let b ← asBool (get m "individual_digits")
    .ok (.digits b)
  else if typ = "UnicodeScripts".toList then .ok .unicodeScripts
  else if typ = "Split".toList then do
    let pm ← asObj (get m "pattern")
    let s ← asStr (get m "behavior")
    let invert ← asBool (get m "invert")
    let p ← splitPattern pm
    if env.compiles p then do
      let b ← behaviorOf s
      .ok (.split p b invert)
    else .panic
  else .err
termination_by sizeOf m

/-- The loop of `createSequencePreTokenizer` (pretrained/pretokenizer.go:222-228). -/
def createPres (env : Env) (l : List Val) : Res (List PreCfg) :=
  match l with
  | [] => .ok []
  | .obj m :: rest => do
    let n ← createPre env m
    let ns ← createPres env rest
    .ok (n :: ns)
  | _ :: _ => .panic
termination_by sizeOf l
end

/-! ### Post-processors -/

/-- The post-processors that `CreatePostProcessor` makes. -/
inductive ProcCfg where
  | roberta (sep cls : Str × Int) (trimOffsets addPrefixSpace : Bool)
  | bert (sep cls : Str × Int)
  | byteLevel (addPrefixSpace trimOffsets : Bool)
  | template (t : TemplateProc)
  | sequence (l : List ProcCfg)

/-- `getPostToken` (pretrained/processor.go:60-69): entries after the second are not read. -/
def postToken (m : List (Str × Val)) (k : String) : Res (Str × Int) := do
  let l ← asArr (get m k)
  match l with
  | a :: b :: _ => do
    let s ← asStr a
    let i ← asFloat b
    .ok (s, i)
  | _ => .panic

mutual
/-- `CreatePostProcessor` (pretrained/processor.go:19-44) for a map that is not nil, with the
functions below it (51-228). -/
def createProc (m : List (Str × Val)) : Res ProcCfg := do
  let typ ← asStr (get m "type")
  if typ = "RobertaProcessing".toList then do
    let sep ← postToken m "sep"
    let cls ← postToken m "cls"
    let t ← asBool (get m "trim_offsets")
    let a ← asBool (get m "add_prefix_space")
    .ok (.roberta sep cls t a)
  else if typ = "BertProcessing".toList then do
    let sep ← postToken m "sep"
    let cls ← postToken m "cls"
    .ok (.bert sep cls)
  else if typ = "ByteLevel".toList then do
    let a ← flag m "add_prefix_space"
    let t ← flag m "trim_offsets"
    .ok (.byteLevel a t)
  else if typ = "TemplateProcessing".toList then do
    let t ← createTemplate m
    .ok (.template t)
  else if typ = "Sequence".toList then do
    let ⟨l, _⟩ ← getArr m "processors"
    let ps ← createProcs l
    .ok (.sequence ps)
  else .err
termination_by sizeOf m

/-- The loop of `createSequence` (pretrained/processor.go:215-223). -/
def createProcs (l : List Val) : Res (List ProcCfg) :=
  match l with
  | [] => .ok []
  | .obj m :: rest => do
    let p ← createProc m
    let ps ← createProcs rest
    .ok (p :: ps)
  | _ :: _ => .panic
termination_by sizeOf l
end

/-! ### Decoders -/

/-- The decoders that `CreateDecoder` makes. -/
inductive DecCfg where
  | bpe (suffix : Str)
  | byteLevel (addPrefixSpace trimOffsets : Bool)
  | wordPiece (pre : Str) (cleanup : Bool)
  | metaspace (replacement : Str) (addPrefixSpace : Bool)
  | ctc (pad delimiter : Str) (cleanup : Bool)
  | sequence (l : List DecCfg)
  | replace (regex : Bool) (pattern content : Str)
  | fuse
  | strip (content : Str) (start stop : Int)
  | byteFallback

mutual
/-- `CreateDecoder` (pretrained/decoder.go:25-58) for a map that is not nil, with the functions below
it (60-195). -/
def createDec (m : List (Str × Val)) : Res DecCfg := do
  let typ ← asStr (get m "type")
  if typ = "BPE".toList then do
    let s ← asStr (get m "suffix")
    .ok (.bpe s)
  else if typ = "ByteLevel".toList then do
    let a ← flag m "add_prefix_space"
    let t ← flag m "trim_offsets"
    .ok (.byteLevel a t)
  else if typ = "WordPiece".toList then do
    let p ← asStr (get m "prefix")
    let c ← asBool (get m "cleanup")
    .ok (.wordPiece p c)
  else if typ = "Metaspace".toList then do
    let r ← opt m "replacement" asStr
    let a ← flag m "add_prefix_space"
    .ok (.metaspace (r.getD []) a)
  else if typ = "CTC".toList then do
    let p ← asStr (get m "pad_token")
    let w ← asStr (get m "word_delimiter")
    let c ← asBool (get m "cleanup")
    .ok (.ctc p w c)
  else if typ = "Sequence".toList then do
    let ⟨l, _⟩ ← getArr m "decoders"
    let ds ← createDecs l
    .ok (.sequence ds)
  else if typ = "Replace".toList then do
    let p ← replacePattern m
    let content ← asStr (get m "content")
    .ok (.replace p.1 p.2 content)
  else if typ = "Fuse".toList then .ok .fuse
  else if typ = "Strip".toList then do
    let c ← asStr (get m "content")
    let a ← asFloat (get m "start")
    let b ← asFloat (get m "stop")
    .ok (.strip c a b)
  else if typ = "ByteFallback".toList then .ok .byteFallback
  else .err
termination_by sizeOf m

/-- The loop of `createSequenceDecoder` (pretrained/decoder.go:141-149). -/
def createDecs (l : List Val) : Res (List DecCfg) :=
  match l with
  | [] => .ok []
  | .obj m :: rest => do
    let d ← createDec m
    let ds ← createDecs rest
    .ok (d :: ds)
  | _ :: _ => .panic
termination_by sizeOf l
end

end Tok.Config
