import Verif.Utf8
import Verif.GoMap

/-!
# Byte-level pre-tokenizer (pretokenizer/bytelevel.go)

Strings are byte lists here.
-/

namespace Tok

/-- `encodeUTF8` (bytelevel.go:33-71). The rune is given as `uint32(r)`; for the
non-negative runes of the callers `byte(r >> k)` is the low byte of the shifted
unsigned value. -/
def encodeUTF8 (r : UInt32) : List UInt8 :=
  if r ≤ 127 then [r.toUInt8]
  else if r ≤ 2047 then
    [(0xC0 : UInt8) ||| (r >>> 6).toUInt8,
     (0x80 : UInt8) ||| (r.toUInt8 &&& 0x3F)]
  else if r ≤ 65535 then
    [(0xE0 : UInt8) ||| (r >>> 12).toUInt8,
     (0x80 : UInt8) ||| ((r >>> 6).toUInt8 &&& 0x3F),
     (0x80 : UInt8) ||| (r.toUInt8 &&& 0x3F)]
  else
    [(0xF0 : UInt8) ||| (r >>> 18).toUInt8,
     (0x80 : UInt8) ||| ((r >>> 12).toUInt8 &&& 0x3F),
     (0x80 : UInt8) ||| ((r >>> 6).toUInt8 &&& 0x3F),
     (0x80 : UInt8) ||| (r.toUInt8 &&& 0x3F)]

/-- The map `bc` under construction and the counter `n` (bytelevel.go:78-82). -/
abbrev BcState := List (UInt8 × List UInt8) × Nat

/-- One loop body: `bc[uint8(n)] = string(encodeUTF8(rune(i))); n++`. -/
def bcAdd (st : BcState) (i : Nat) : BcState :=
  (mset st.1 (UInt8.ofNat st.2) (encodeUTF8 (UInt32.ofNat i)), st.2 + 1)

/-- `for i := lo; i <= hi; i++ { ... }`. -/
def bcLoop (st : BcState) (lo hi : Nat) : BcState :=
  ((List.range (hi + 1 - lo)).map (lo + ·)).foldl bcAdd st

/-- `GenerateBytesChar` (bytelevel.go:77-132), final state. -/
def generateState : BcState :=
  let st := bcLoop ([], 0) 256 288
  let st := bcLoop st 33 126
  let st := bcLoop st 289 322
  let st := bcLoop st 161 172
  let st := if st.2 = 173 then bcAdd st 323 else st
  bcLoop st 174 255

/-- `BytesChar` (bytelevel.go:22). -/
def bytesCharMap : List (UInt8 × List UInt8) := generateState.1

/-- `BytesChar[b]`, `""` for a missing key. -/
def bytesChar (b : UInt8) : List UInt8 := (mget bytesCharMap b).getD []

/-- `CharBytes` (bytelevel.go:24-31); `order` is the order in which the loop visits
the map `bc`. -/
def charBytes (order : List (UInt8 × List UInt8)) : List (List UInt8 × UInt8) :=
  order.foldl (fun cb p => mset cb p.2 p.1) []

/-- The loop over `strings.Split(s, "")` (bytelevel.go:233-241, 249-255): characters
that are not in the map give byte 0. -/
def decodeChars (cb : List (List UInt8 × UInt8)) (s : List UInt8) : List UInt8 :=
  (explode s).map (fun p => (mget cb p.2).getD 0)

/-- `ByteLevel.Decode` (bytelevel.go:231-244). -/
def byteLevelDecode (cb : List (List UInt8 × UInt8)) (tokens : List (List UInt8)) : List UInt8 :=
  decodeChars cb tokens.flatten

/-- `ByteLevel.DecodeChain` (bytelevel.go:246-261). -/
def byteLevelDecodeChain (cb : List (List UInt8 × UInt8)) (tokens : List (List UInt8)) :
    List (List UInt8) :=
  tokens.map (decodeChars cb)

/-- The change map `PreTokenize` builds for a split (bytelevel.go:200-217): for
every byte of every character its replacement, with `Changes` 0 for the first
byte of a character and 1 for the others. -/
def byteLevelChanges (s : Str) : List (List UInt8 × Int) :=
  s.flatMap (fun c => (String.utf8EncodeChar c).zipIdx.map
    (fun p => (bytesChar p.1, if p.2 > 0 then 1 else 0)))

end Tok
