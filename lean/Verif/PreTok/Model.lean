import Verif.Encoding.Model
import Verif.PreTok.Offsets

/-!
# PreTokenizedString (pretokenizer.go)
-/

namespace Tok.PreTok

open Tok.Norm

/-- `Split` (pretokenizer.go:31-40); `none` is a nil token slice. -/
structure Split where
  normalized : NStr
  tokens : Option (List Token)
  deriving Repr, DecidableEq

/-- `PreTokenizedString` (pretokenizer.go:54-57). -/
structure PTS where
  original : List UInt8
  splits : List Split
  deriving Repr, DecidableEq

/-- `SplitIdx` (added-vocabulary.go:467-470); `none` is a nil pointer. -/
structure SplitIdx where
  normalized : Option NStr
  tokens : Option (List Token)
  deriving Repr, DecidableEq

/-- `NewPreTokenizedString` (pretokenizer.go:297-308). -/
def newPTS (s : List UInt8) : PTS := ⟨s, [⟨newNStr s, none⟩]⟩

/-- The inner loop of `Split` (pretokenizer.go:81-90): empty pieces are dropped, a nil piece is a
nil dereference. -/
def keepPieces : List SplitIdx → Res (List Split)
  | [] => .ok []
  | p :: ps =>
    match p.normalized with
    | none => .panic
    | some n => do
      let rest ← keepPieces ps
      .ok (if n.normalized = [] then rest else ⟨n, p.tokens⟩ :: rest)

/-- The loop of `Split` (pretokenizer.go:75-91). -/
def splitLoop (fn : Nat → NStr → Res (List SplitIdx)) : List Split → Nat → Res (List Split)
  | [], _ => .ok []
  | s :: ss, i =>
    match s.tokens with
    | some _ => do
      let rest ← splitLoop fn ss (i + 1)
      .ok (s :: rest)
    | none => do
      let ps ← fn i s.normalized
      let kept ← keepPieces ps
      let rest ← splitLoop fn ss (i + 1)
      .ok (kept ++ rest)

/-- `Split` (pretokenizer.go:72-95). -/
def PTS.split (pt : PTS) (fn : Nat → NStr → Res (List SplitIdx)) : Res PTS := do
  let ss ← splitLoop fn pt.splits 0
  .ok { pt with splits := ss }

/-- The loop of `Normalize` (pretokenizer.go:103-109): splits with tokens are not copied. -/
def normalizeLoop (fn : NStr → Res NStr) : List Split → Res (List Split)
  | [] => .ok []
  | s :: ss =>
    match s.tokens with
    | some _ => normalizeLoop fn ss
    | none => do
      let n ← fn s.normalized
      let rest ← normalizeLoop fn ss
      .ok (⟨n, none⟩ :: rest)

/-- `Normalize` (pretokenizer.go:99-113). -/
def PTS.normalize (pt : PTS) (fn : NStr → Res NStr) : Res PTS := do
  let ss ← normalizeLoop fn pt.splits
  .ok { pt with splits := ss }

/-- The loop of `Tokenize` (pretokenizer.go:120-130). -/
def tokenizeLoop (fn : NStr → Res (Option (List Token))) : List Split → Res (List Split)
  | [] => .ok []
  | s :: ss =>
    match s.tokens with
    | some _ => do
      let rest ← tokenizeLoop fn ss
      .ok (s :: rest)
    | none => do
      let t ← fn s.normalized
      let rest ← tokenizeLoop fn ss
      .ok (⟨s.normalized, t⟩ :: rest)

/-- `Tokenize` (pretokenizer.go:117-134). -/
def PTS.tokenize (pt : PTS) (fn : NStr → Res (Option (List Token))) : Res PTS := do
  let ss ← tokenizeLoop fn pt.splits
  .ok { pt with splits := ss }

/-- `OffsetType` (pretokenizer.go:20-25); other values are refused by `IntoEncoding` and are not
modelled. -/
inductive OffsetType where
  | byte | char
  deriving Repr, DecidableEq

/-- The map from byte to character index of `IntoEncoding` (pretokenizer.go:160-171), the last
write first: a byte that starts no character is visited as U+FFFD and writes three keys. -/
def charMapLoop : List (Option Char × List UInt8) → Nat → Nat → List (Int × Nat) → List (Int × Nat)
  | [], _, _, m => m
  | (o, bs) :: rest, byteIdx, runeIdx, m =>
    charMapLoop rest (byteIdx + bs.length) (runeIdx + 1)
      (((List.range (runeOf o).utf8Size).map (fun i => (((byteIdx + i : Nat) : Int), runeIdx))).reverse ++ m)

/-- The map of `IntoEncoding` (pretokenizer.go:158-179). -/
def charMap (ot : OffsetType) (original : List UInt8) : List (Int × Nat) :=
  match ot with
  | .byte => []
  | .char => charMapLoop (explode original) 0 0 []

/-- Conversion of the offsets of a token to the original text (pretokenizer.go:194-202). -/
def origOffsets (n : NStr) (o : Int × Int) : Res (Int × Int) := do
  match ← n.convert ⟨o.1, o.2, .normalized⟩ with
  | none => .ok (n.shift + o.1, n.shift + o.2)
  | some r => .ok (n.shift + r.start, n.shift + r.stop)

/-- Conversion to character offsets (pretokenizer.go:204-228). -/
def charOffsets (m : List (Int × Nat)) (o : Int × Int) : Int × Int :=
  match m.lookup o.1 with
  | none => o
  | some a =>
    match m.lookup o.2 with
    | some b => ((a : Int), (b : Int))
    | none => ((a : Int), match m.lookup (o.2 - 1) with
      | some l => (l : Int)
      | none => (a : Int) + 1)

/-- A row of the encoding: token, offsets, word. -/
structure Row where
  token : Token
  offsets : Int × Int
  word : Int
  deriving Repr, DecidableEq

/-- The loop over the tokens of a split (pretokenizer.go:193-245). -/
def rowsOfTokens (m : List (Int × Nat)) (n : NStr) (word : Int) : List Token → Res (List Row)
  | [] => .ok []
  | t :: ts => do
    let o ← origOffsets n t.offsets
    let rest ← rowsOfTokens m n word ts
    .ok (⟨t, charOffsets m o, word⟩ :: rest)

/-- The loop over the splits (pretokenizer.go:188-246). -/
def rowsOfSplits (m : List (Int × Nat)) (wordIdx : Int) : List Split → Nat → Res (List Row)
  | [], _ => .ok []
  | s :: ss, i => do
    let rs ← rowsOfTokens m s.normalized (if wordIdx = -1 then (i : Int) else wordIdx) (s.tokens.getD [])
    let rest ← rowsOfSplits m wordIdx ss (i + 1)
    .ok (rs ++ rest)

/-- `IntoEncoding` (pretokenizer.go:143-255). -/
def PTS.intoEncoding (pt : PTS) (typeId wordIdx : Int) (ot : OffsetType) : Res Encoding :=
  if pt.splits = [] then .ok Encoding.default
  else if pt.splits.any (fun s => (s.tokens.getD []).isEmpty) then .err
  else do
    let rows ← rowsOfSplits (charMap ot pt.original) wordIdx pt.splits 0
    .ok { Encoding.default with
      ids := rows.map (·.token.id)
      tokens := rows.map (·.token.value)
      offsets := rows.map (·.offsets)
      words := rows.map (·.word)
      typeIds := List.replicate rows.length typeId
      specialMask := List.replicate rows.length 0
      attentionMask := List.replicate rows.length 1 }

/-- `PreToken` (pretokenizer.go:13-17). -/
structure PreToken where
  value : List UInt8
  offsets : Int × Int
  tokens : Option (List Token)
  deriving Repr, DecidableEq

/-- The loop of `GetSplits` (pretokenizer.go:268-290); `offset` is the running offset in the
normalized text. -/
def getSplitsLoop (ref : IndexOn) (conv : Option (List Nat)) : List Split → Int → Res (List PreToken)
  | [], _ => .ok []
  | s :: ss, offset => do
    let len : Int := s.normalized.normalized.length
    let offset' := match ref with | .original => offset | .normalized => offset + len
    let o : Int × Int := match ref with
      | .original => (s.normalized.shift, s.normalized.shift + s.normalized.original.length)
      | .normalized => (offset' - len, offset')
    let o' ← match conv with
      | none => .ok o
      | some m =>
        match convertOffsets m o with
        | .ok p => .ok p
        | _ => .panic
    let rest ← getSplitsLoop ref conv ss offset'
    .ok (⟨s.normalized.normalized, o', s.tokens⟩ :: rest)

/-- `GetSplits` (pretokenizer.go:260-293). -/
def PTS.getSplits (pt : PTS) (ref : IndexOn) (ot : OffsetType) : Res (List PreToken) :=
  getSplitsLoop ref (match ot with | .byte => none | .char => some (b2c pt.original)) pt.splits 0

end Tok.PreTok
