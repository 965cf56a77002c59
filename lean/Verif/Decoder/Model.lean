import Verif.Unigram.Model
import Verif.Word.Model

/-!
# Decoders (decoder/*.go)

Token texts are character lists, except for the byte-fallback decoder, which looks at bytes.
-/

namespace Tok

/-- `strings.ReplaceAll(s, old, new)` for a non-empty `old` (standard library): leftmost
occurrences that do not overlap. -/
def replaceNE (old new : Str) (s : Str) : Str :=
  match s with
  | [] => []
  | c :: cs =>
    if old ≠ [] ∧ old.isPrefixOf (c :: cs) then new ++ replaceNE old new ((c :: cs).drop old.length)
    else c :: replaceNE old new cs
termination_by s.length
decreasing_by
  · rename_i h
    have := List.length_pos_iff.mpr h.1
    simp only [List.length_drop, List.length_cons]
    omega
  · simp

/-- `strings.ReplaceAll` (standard library); an empty `old` matches before every character and
at the end. -/
def replaceAll (old new s : Str) : Str :=
  if old = [] then new ++ s.flatMap (fun c => c :: new) else replaceNE old new s

/-- The body of the loop of `BpeDecoder.DecodeChain` (decoder/bpe.go:45-57), from token `i` of
`n`. -/
def bpeDecode (suffix : Str) (n : Nat) : Nat → List Str → List Str
  | _, [] => []
  | i, t :: ts => replaceAll suffix (if i + 1 = n then [] else [' ']) t :: bpeDecode suffix n (i + 1) ts

/-- `Fuse.DecodeChain` (decoder/fuse.go:25-29). -/
def fuseChain (ts : List Str) : Res (List Str) := .ok [ts.flatten]

/-- `dedup` (decoder/ctc.go:43-56); `previous` starts as the empty string. -/
def ctcDedup : Str → List Str → List Str
  | _, [] => []
  | prev, t :: ts => if t ≠ prev then t :: ctcDedup t ts else ctcDedup prev ts

/-- `cleanup` (decoder/ctc.go:68-83) and `WordPieceDecoder.Cleanup` (decoder/wordpiece.go:64-79). -/
def cleanupText (t : Str) : Str :=
  [(" .", "."), (" ?", "?"), (" !", "!"), (" ,", ","), (" ' ", "'"), (" n't", "n't"), (" 'm", "'m"),
    (" do not", " don't"), (" 's", "'s"), (" 've", "'ve"), (" 're", "'re")].foldl
    (fun o (p : String × String) => replaceAll p.1.toList p.2.toList o) t

/-- The text made of one token by `CTC.DecodeChain` (decoder/ctc.go:90-94). -/
def ctcText (pad delim : Str) (clean : Bool) (t : Str) : Str :=
  let r := replaceAll pad [] t
  if clean then replaceAll delim [' '] (cleanupText r) else r

/-- `CTC.DecodeChain` (decoder/ctc.go:85-102). -/
def ctcChain (pad delim : Str) (clean : Bool) (ts : List Str) : List Str :=
  ((ctcDedup [] ts).map (ctcText pad delim clean)).filter (fun r => r.length > 0)

/-- The first loop of `Strip.DecodeChain` (decoder/strip.go:38-47): from index `i`, `fuel`
iterations left; indexing beyond the characters panics. -/
def stripStart (content : Str) (chars : List Str) : Nat → Nat → Nat → Res Nat
  | 0, _, cut => .ok cut
  | fuel + 1, i, cut =>
    match chars[i]? with
    | none => .panic
    | some c => if c = content then stripStart content chars fuel (i + 1) (i + 1) else .ok cut

/-- The second loop of `Strip.DecodeChain` (decoder/strip.go:49-58). -/
def stripStop (content : Str) (chars : List Str) : Nat → Nat → Nat → Res Nat
  | 0, _, cut => .ok cut
  | fuel + 1, i, cut =>
    if i < chars.length then
      match chars[chars.length - i - 1]? with
      | none => .panic
      | some c =>
        if c = content then stripStop content chars fuel (i + 1) (chars.length - i - 1) else .ok cut
    else .panic

/-- The body of the loop of `Strip.DecodeChain` (decoder/strip.go:35-61); a slice with its
bounds crossed panics.  Negative `Start` or `Stop` act as 0. -/
def stripToken (content : Str) (start stop : Nat) (t : Str) : Res Str :=
  let chars := t.map (fun c => [c])
  match stripStart content chars start 0 0 with
  | .ok a =>
    match stripStop content chars stop 0 chars.length with
    | .ok b => if a ≤ b then .ok ((chars.take b).drop a).flatten else .panic
    | .err => .err
    | .panic => .panic
  | .err => .err
  | .panic => .panic

/-- `Strip.DecodeChain` (decoder/strip.go:32-65). -/
def stripChain (content : Str) (start stop : Nat) : List Str → Res (List Str)
  | [] => .ok []
  | t :: ts =>
    match stripToken content start stop t with
    | .ok r =>
      match stripChain content start stop ts with
      | .ok rs => .ok (r :: rs)
      | .err => .err
      | .panic => .panic
    | .err => .err
    | .panic => .panic

/-- `Sequence.DecodeChain` (decoder/sequence.go:29-41). -/
def seqChain : List (List Str → Res (List Str)) → List Str → Res (List Str)
  | [], ts => .ok ts
  | d :: ds, ts =>
    match d ts with
    | .ok ts' => seqChain ds ts'
    | .err => .err
    | .panic => .panic

/-- A value of a decoder type: its `DecodeChain`, and the embedded `*DecoderBase`, which is nil or
holds the decoder whose `DecodeChain` `DecoderBase.Decode` calls (decoder/decoder.go:9-11). -/
structure DecoderVal where
  chain : List Str → Res (List Str)
  base : Option (Option (List Str → Res (List Str)))

/-- `DecoderBase.Decode` (decoder/decoder.go:13-15), promoted to the decoder types: a nil base or
a nil decoder in it panics. -/
def DecoderVal.decode (d : DecoderVal) (ts : List Str) : Res Str :=
  match d.base with
  | none => .panic
  | some none => .panic
  | some (some chain) =>
    match chain ts with
    | .ok r => .ok r.flatten
    | .err => .err
    | .panic => .panic

/-- The constructors `NewBpeDecoder`, `NewCTC`, `NewFuse`, `NewSequence`, `NewStrip`,
`NewWordPieceDecoder` (decoder/bpe.go:18-28, ctc.go:17-30, fuse.go:15-23, sequence.go:15-26,
strip.go:17-30, wordpiece.go:21-32) all set the base's decoder to the new value. -/
def newDecoder (chain : List Str → Res (List Str)) : DecoderVal := ⟨chain, some (some chain)⟩

/-- `DefaultBpeDecoder` (decoder/bpe.go:31-33): no base. -/
def defaultBpeDecoder : DecoderVal :=
  ⟨fun ts => .ok (bpeDecode "</w>".toList ts.length 0 ts), none⟩

/-- `DefaultWordpieceDecoder` (decoder/wordpiece.go:35-40): no base. -/
def defaultWordpieceDecoder : DecoderVal :=
  ⟨fun ts => .ok (wpDecodeChain "##".toList (some cleanupText) ts), none⟩

/-- `DefaultCTC` (decoder/ctc.go:32-40): a base without a decoder. -/
def defaultCTC : DecoderVal :=
  ⟨fun ts => .ok (ctcChain "<pad>".toList "|".toList true ts), some none⟩

/-! ## Byte fallback -/

/-- One hexadecimal digit as read by `hex.DecodeString` (standard library). -/
def hexVal (c : UInt8) : Option Nat :=
  let n := c.toNat
  if 48 ≤ n ∧ n ≤ 57 then some (n - 48)
  else if 97 ≤ n ∧ n ≤ 102 then some (n - 87)
  else if 65 ≤ n ∧ n ≤ 70 then some (n - 55)
  else none

/-- The byte of a token (decoder/byte-fallback.go:43-49): six bytes long, beginning with `<0x` and
ending with `>`; other than hexadecimal digits panic. -/
def byteOf (t : Bytes) : Res (Option UInt8) :=
  match t with
  | [60, 48, 120, a, b, 62] =>
    match hexVal a, hexVal b with
    | some x, some y => .ok (some (16 * x + y).toUInt8)
    | _, _ => .panic
  | _ => .ok none

/-- What a run of bytes becomes (decoder/byte-fallback.go:54-63, 70-80). -/
def flushRun (run : Bytes) : List Bytes :=
  if run = [] then []
  else if validUtf8 run then [run]
  else run.map (fun _ => [0xEF, 0xBF, 0xBD])

/-- The loop of `ByteFallback.DecodeChain` (decoder/byte-fallback.go:39-82). -/
def byteFallbackLoop : List Bytes → List Bytes → Bytes → Res (List Bytes)
  | [], out, prev => .ok (out ++ flushRun prev)
  | t :: ts, out, prev =>
    match byteOf t with
    | .ok (some b) => byteFallbackLoop ts out (prev ++ [b])
    | .ok none => byteFallbackLoop ts (out ++ flushRun prev ++ [t]) []
    | .err => .err
    | .panic => .panic

/-- `ByteFallback.DecodeChain` (decoder/byte-fallback.go:33-85). -/
def byteFallbackChain (ts : List Bytes) : Res (List Bytes) := byteFallbackLoop ts [] []

end Tok
