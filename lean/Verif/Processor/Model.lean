import Verif.Encoding.Budget

/-!
# Model of the post-processors (`processor/*.go`, `pretokenizer/bytelevel.go`)

A processor result `none` is a nil pointer.
-/

namespace Tok

/-- processor/bert.go:7-10 `PostToken`. -/
structure PostToken where
  value : Str
  id : Int
  deriving Repr, DecidableEq

/-- encoding.go:57-75 `NewEncoding` with no overflowing and the words option:
the sequence map is empty, not nil. -/
def newEncoding (ids typeIds : List Int) (tokens : List Str) (offsets : List (Int × Int))
    (specialMask attentionMask words : List Int) : Encoding :=
  { ids, typeIds, tokens, offsets, specialMask, attentionMask, words,
    overflowing := [], ranges := some [] }

/-- tokenizer.go:77-87 `DefaultProcess`. -/
def defaultProcess (encoding : Encoding) (pair : Option Encoding) : Res (Option Encoding) :=
  match pair with
  | none => .ok (some encoding)
  | some p => do
    let r ← encoding.mergeWith p false
    .ok (some r)

/-! ### BERT -/

/-- processor/bert.go:12-15 `BertProcessing`. -/
structure Bert where
  sep : PostToken
  cls : PostToken
  deriving Repr

/-- processor/bert.go:27-33 `AddedTokens`. -/
def Bert.addedTokens (_ : Bert) (isPair : Bool) : Nat := if isPair then 3 else 2

/-- processor/bert.go:74-116 `addSpecialToken`. -/
def Bert.addSpecialToken (bp : Bert) (e : Encoding) : Encoding :=
  newEncoding
    ([bp.cls.id] ++ e.ids ++ [bp.sep.id])
    ([0] ++ e.typeIds ++ [0])
    ([bp.cls.value] ++ e.tokens ++ [bp.sep.value])
    ([(0, 0)] ++ e.offsets ++ [(0, 0)])
    ([1] ++ List.replicate e.ids.length 0 ++ [1])
    (List.replicate (e.ids.length + 2) 1)
    ([-1] ++ e.words ++ [-1])

/-- processor/bert.go:120-156 `pairAddSpecialToken`. -/
def Bert.pairAddSpecialToken (bp : Bert) (e : Encoding) : Encoding :=
  newEncoding
    (e.ids ++ [bp.sep.id])
    (e.typeIds ++ [1])
    (e.tokens ++ [bp.sep.value])
    (e.offsets ++ [(0, 0)])
    (List.replicate e.ids.length 0 ++ [1])
    (List.replicate e.ids.length 1 ++ [1])
    (e.words ++ [-1])

/-- processor/bert.go:36-70 `Process`. -/
def Bert.process (bp : Bert) (encoding : Encoding) (pair : Option Encoding)
    (addSpecialTokens : Bool) : Res (Option Encoding) :=
  if !addSpecialTokens then defaultProcess encoding pair
  else
    let new := { bp.addSpecialToken encoding with
      overflowing := encoding.overflowing.map bp.addSpecialToken }
    match pair with
    | none => .ok (some new)
    | some p => do
      let newPair := { bp.pairAddSpecialToken p with
        overflowing := p.overflowing.map bp.pairAddSpecialToken }
      let r ← new.mergeWith newPair false
      .ok (some r)

/-! ### Byte-level offset trimming -/

/-- pretokenizer/bytelevel.go:311-319: number of leading `Ġ`. -/
def leadingSpaces : Str → Nat
  | [] => 0
  | c :: cs => if c ≠ 'Ġ' then 0 else leadingSpaces cs + 1

/-- pretokenizer/bytelevel.go:321-327: number of trailing `Ġ` (a backward loop). -/
def trailingSpaces (tok : Str) : Nat := leadingSpaces tok.reverse

/-- pretokenizer/bytelevel.go:335-366, the body of the second loop. -/
def trimOffset (i : Nat) (addPrefixSpace : Bool) (lead trail : Nat) (o : Int × Int) : Int × Int :=
  let ld := lead
  let offset0 :=
    if lead > 0 then
      let ld := if i = 0 ∧ addPrefixSpace = true ∧ lead = 1 then 0 else ld
      let offset0 := o.1 + ld
      if offset0 > o.2 then o.2 else offset0
    else o.1
  let tl : Int := trail
  let offset1 :=
    if tl > 0 ∧ o.2 ≥ tl then
      let offset1 := o.2 - tl
      if offset1 < offset0 then offset0 else offset1
    else o.2
  (offset0, offset1)

/-- pretokenizer/bytelevel.go:335-366, the second loop, from token `i` on. -/
def trimLoop (offsets : List (Int × Int)) (addPrefixSpace : Bool) :
    (i : Nat) → List Str → Res (List (Int × Int))
  | _, [] => .ok []
  | i, tok :: toks => do
    let o ← idx offsets i
    let rest ← trimLoop offsets addPrefixSpace (i + 1) toks
    .ok (trimOffset i addPrefixSpace (leadingSpaces tok) (trailingSpaces tok) o :: rest)

/-- pretokenizer/bytelevel.go:300-370 `processOffsets`. -/
def processOffsets (e : Encoding) (addPrefixSpace : Bool) : Res Encoding := do
  let offsets ← trimLoop e.offsets addPrefixSpace 0 e.tokens
  .ok { e with offsets }

/-- The pattern shared by processor/roberta.go:71-79, 82-87 and
pretokenizer/bytelevel.go:274-281: trim an encoding and its overflowing parts. -/
def processOffsetsDeep (e : Encoding) (addPrefixSpace : Bool) : Res Encoding := do
  let e' ← processOffsets e addPrefixSpace
  let over ← mapRes (fun o => processOffsets o addPrefixSpace) e'.overflowing
  .ok { e' with overflowing := over }

/-! ### RoBERTa -/

/-- processor/roberta.go:9-14 `RobertaProcessing`. -/
structure Roberta where
  sep : PostToken
  cls : PostToken
  trimOffsets : Bool
  addPrefixSpace : Bool
  deriving Repr

/-- processor/roberta.go:50-56 `AddedTokens`. -/
def Roberta.addedTokens (_ : Roberta) (isPair : Bool) : Nat := if isPair then 4 else 2

/-- processor/roberta.go:127-166 `addSpecialToken`. -/
def Roberta.addSpecialToken (rp : Roberta) (e : Encoding) : Encoding :=
  newEncoding
    ([rp.cls.id] ++ e.ids ++ [rp.sep.id])
    ([0] ++ e.typeIds ++ [0])
    ([rp.cls.value] ++ e.tokens ++ [rp.sep.value])
    ([(0, 0)] ++ e.offsets ++ [(0, 0)])
    ([1] ++ List.replicate e.specialMask.length 0 ++ [1])
    ([1] ++ List.replicate e.attentionMask.length 1 ++ [1])
    ([-1] ++ e.words ++ [-1])

/-- processor/roberta.go:172-211 `pairAddSpecialToken`. -/
def Roberta.pairAddSpecialToken (rp : Roberta) (e : Encoding) : Encoding :=
  newEncoding
    ([rp.sep.id] ++ e.ids ++ [rp.sep.id])
    ([1] ++ e.typeIds ++ [1])
    ([rp.sep.value] ++ e.tokens ++ [rp.sep.value])
    ([(0, 0)] ++ e.offsets ++ [(0, 0)])
    ([1] ++ List.replicate e.specialMask.length 0 ++ [1])
    ([1] ++ List.replicate e.attentionMask.length 1 ++ [1])
    ([-1] ++ e.words ++ [-1])

/-- `for … range` over an optional value with a failing body. -/
def optMapRes (f : α → Res β) : Option α → Res (Option β)
  | none => .ok none
  | some a => do
    let b ← f a
    .ok (some b)

/-- processor/roberta.go:63-122 `Process`.  Without `trimOffsets` the local
`newEncoding` and `newPairEncoding` stay nil: `DefaultProcess(nil, nil)` returns
nil, `addSpecialToken(nil)` dereferences nil. -/
def Roberta.process (rp : Roberta) (encoding : Encoding) (pair : Option Encoding)
    (addSpecialTokens : Bool) : Res (Option Encoding) := do
  let (new, newPair) ←
    if rp.trimOffsets then do
      let new ← processOffsetsDeep encoding rp.addPrefixSpace
      let newPair ← optMapRes (fun p => processOffsetsDeep p rp.addPrefixSpace) pair
      Res.ok (some new, newPair)
    else Res.ok (none, none)
  match new with
  | none => if !addSpecialTokens then .ok none else .panic
  | some new =>
    if !addSpecialTokens then defaultProcess new newPair
    else
      let final := { rp.addSpecialToken new with
        overflowing := new.overflowing.map rp.addSpecialToken }
      match newPair with
      | none => .ok (some final)
      | some p => do
        let finalPair := { rp.pairAddSpecialToken p with
          overflowing := p.overflowing.map rp.pairAddSpecialToken }
        let r ← final.mergeWith finalPair false
        .ok (some r)

/-! ### Preparation, byte-level processor -/

/-- tokenizer.go:95-113, the body of the loop of `PrepareEncodings`, for index `i`. -/
def prepareOne (i : Int) (e : Encoding) : Res Encoding := do
  let e ← e.setSequenceIds i
  let over ← mapRes (fun o => o.setSequenceIds i) e.overflowing
  let e := { e with overflowing := over }
  if e.ids.length > 0 then .ok { e with typeIds := List.replicate e.ids.length i }
  else .ok e

/-- tokenizer.go:90-117 `PrepareEncodings`.  Simplified: Go maps are shared by
the copies, so the caller's encodings also see the new sequence ids; the model
returns the prepared encodings only. -/
def prepareEncodings (encoding : Encoding) (pair : Option Encoding) : Res (List Encoding) := do
  let a ← prepareOne 0 encoding
  match pair with
  | none => .ok [a]
  | some p => do
    let b ← prepareOne 1 p
    .ok [a, b]

/-- pretokenizer/bytelevel.go:285-287: `SetSequenceIds(i)` on each (a copy, but
the sequence map is shared with it unless it is nil). -/
def setIdsLoop : (i : Int) → List Encoding → Res (List Encoding)
  | _, [] => .ok []
  | i, e :: es => do
    let e ← (match e.ranges with
      | none => Res.ok e
      | some _ => e.setSequenceIds i)
    let es ← setIdsLoop (i + 1) es
    .ok (e :: es)

/-- pretokenizer/bytelevel.go:270-294 `ByteLevel.Process` (reached through
processor/bytelevel.go:26-28). -/
def byteLevelProcess (trimOffsets addPrefixSpace : Bool) (encoding : Encoding)
    (pair : Option Encoding) : Res (Option Encoding) := do
  let encodings ← prepareEncodings encoding pair
  let new ← if trimOffsets then mapRes (fun e => processOffsetsDeep e addPrefixSpace) encodings
    else Res.ok encodings
  let new ← setIdsLoop 0 new
  match pair with
  | some _ => mergeEncodings new false
  | none => do
    let a ← idx new 0
    .ok (some a)

/-! ### Templates -/

/-- processor/template.go:20-38: `SequencePiece` (sequence B when `isB`) and
`SpecialTokenPiece`. -/
inductive Piece where
  | seq (isB : Bool) (typeId : Int)
  | special (id : Str) (typeId : Int)
  deriving Repr, DecidableEq

/-- processor/template.go:153-162 `SpecialToken`. -/
structure SpecialToken where
  id : Str
  ids : List Int
  tokens : List Str
  deriving Repr

/-- processor/template.go:205-208, 265-268 `Tokens`: the map behind `GetItemByKey`. -/
abbrev TokenTable := Str → Option SpecialToken

/-- processor/template.go:329-350 `countAdded`. -/
def countAdded (tpl : List Piece) (tab : TokenTable) : Nat :=
  match tpl with
  | [] => 0
  | .seq _ _ :: rest => countAdded rest tab
  | .special id _ :: rest =>
    (match tab id with
     | some t => t.ids.length
     | none => 0) + countAdded rest tab

/-- processor/template.go:289-295 `TemplateProcessing`, with the counts computed by
`NewTemplateProcessingFrom` (307-318). -/
structure TemplateProc where
  single : List Piece
  pair : List Piece
  tab : TokenTable

/-- processor/template.go:560-566 `AddedTokens`. -/
def TemplateProc.addedTokens (tp : TemplateProc) (isPair : Bool) : Nat :=
  if isPair then countAdded tp.pair tp.tab else countAdded tp.single tp.tab

/-- processor/template.go:504-553 `ApplyTemplate`.  `NewEncoding` is called without
the words option: a special-token encoding has no words. -/
def applyTemplate (tab : TokenTable) (encodings : List Encoding) (addSpecialTokens : Bool) :
    List Piece → Res (List Encoding)
  | [] => .ok []
  | .seq isB typeId :: rest => do
    let i : Int := if isB then 1 else 0
    let e ← idx encodings i
    let e := { e with typeIds := List.replicate e.ids.length typeId }
    let e ← e.setSequenceIds i
    let es ← applyTemplate tab encodings addSpecialTokens rest
    .ok (e :: es)
  | .special id typeId :: rest =>
    if addSpecialTokens then
      match tab id with
      | none => .panic
      | some t => do
        let n := t.ids.length
        let e := newEncoding t.ids (List.replicate n typeId) t.tokens (List.replicate n (0, 0))
          (List.replicate n 1) (List.replicate n 1) []
        let es ← applyTemplate tab encodings addSpecialTokens rest
        .ok (e :: es)
    else applyTemplate tab encodings addSpecialTokens rest

/-- processor/template.go:568-583 `Process`. -/
def TemplateProc.process (tp : TemplateProc) (encoding : Encoding) (pair : Option Encoding)
    (addSpecialTokens : Bool) : Res (Option Encoding) := do
  let encodings ← prepareEncodings encoding pair
  let tpl := if pair.isSome then tp.pair else tp.single
  let applied ← applyTemplate tp.tab encodings addSpecialTokens tpl
  mergeEncodings applied false

/-! ### The processor interface and `PostProcess` -/

/-- tokenizer.go:67-75 `PostProcessor`. -/
structure PostProcessor where
  addedTokens : Bool → Nat
  process : Encoding → Option Encoding → Bool → Res (Option Encoding)

/-- processor/bert.go as a `PostProcessor`. -/
def Bert.toProcessor (bp : Bert) : PostProcessor := ⟨bp.addedTokens, bp.process⟩
/-- processor/roberta.go as a `PostProcessor`. -/
def Roberta.toProcessor (rp : Roberta) : PostProcessor := ⟨rp.addedTokens, rp.process⟩
/-- processor/template.go as a `PostProcessor`. -/
def TemplateProc.toProcessor (tp : TemplateProc) : PostProcessor := ⟨tp.addedTokens, tp.process⟩
/-- processor/bytelevel.go as a `PostProcessor` (`AddedToken` is 0,
pretokenizer/bytelevel.go:266-268). -/
def byteLevelProcessor (trimOffsets addPrefixSpace : Bool) : PostProcessor :=
  ⟨fun _ => 0, fun e p _ => byteLevelProcess trimOffsets addPrefixSpace e p⟩

/-- processor/sequence.go:17-24 `AddedTokens`. -/
def sequenceAdded (ps : List PostProcessor) (isPair : Bool) : Nat :=
  match ps with
  | [] => 0
  | p :: ps => p.addedTokens isPair + sequenceAdded ps isPair

/-- processor/sequence.go:26-34 `Process`: every processor gets the same pair.
Simplified: a nil encoding handed to the next processor counts as a panic
(byte-level and template processors dereference it; BERT without special tokens
and RoBERTa without trimming would hand it on). -/
def sequenceProcess (ps : List PostProcessor) (encoding : Encoding) (pair : Option Encoding)
    (addSpecialTokens : Bool) : Res (Option Encoding) :=
  match ps with
  | [] => .ok (some encoding)
  | p :: ps => do
    let r ← p.process encoding pair addSpecialTokens
    match r with
    | none => if ps.isEmpty then .ok none else .panic
    | some e => sequenceProcess ps e pair addSpecialTokens

/-- processor/sequence.go as a `PostProcessor`. -/
def sequenceProcessor (ps : List PostProcessor) : PostProcessor :=
  ⟨sequenceAdded ps, sequenceProcess ps⟩

/-- tokenizer.go:592-614, the truncation step of `PostProcess`. -/
def postTruncate (trunc : Option TruncParams) (proc : Option PostProcessor) (encoding : Encoding)
    (pair : Option Encoding) (addSpecialTokens : Bool) : Res (Encoding × Option Encoding) :=
  match trunc with
  | none => .ok (encoding, pair)
  | some t =>
    let nAdded : Int := match proc with
      | none => 0
      | some p => p.addedTokens pair.isSome
    if addSpecialTokens = true ∧ nAdded > 0 then
      truncateEncodings encoding pair { t with maxLength := t.maxLength - nAdded }
    else truncateEncodings encoding pair t

/-- tokenizer.go:588-637 `PostProcess`.  A nil final encoding is dereferenced
when padding is enabled. -/
def postProcess (trunc : Option TruncParams) (proc : Option PostProcessor)
    (padding : Option PadParams) (encoding : Encoding) (pair : Option Encoding)
    (addSpecialTokens : Bool) : Res (Option Encoding) := do
  let (tEnc, tPair) ← postTruncate trunc proc encoding pair addSpecialTokens
  let final ← match proc with
    | some p => p.process tEnc tPair addSpecialTokens
    | none => defaultProcess tEnc tPair
  match padding with
  | none => .ok final
  | some pp =>
    match final with
    | none => .panic
    | some f => do
      let padded ← padEncodings [f] pp
      match padded with
      | [] => .panic
      | a :: rest => do
        let r ← a.merge rest true
        .ok (some r)

end Tok
