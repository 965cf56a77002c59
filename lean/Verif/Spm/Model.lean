import Verif.Utf8

/-!
# SentencePiece's compiled character map (spm/spm-precompiled.go)

Array units are natural numbers, below 2^32 as `Parse` makes them, so that the 64-bit operations of
the code do not overflow. Bytes are `UInt8`.
-/

namespace Tok.Spm

/-- `HasLeaf` (spm-precompiled.go:64-67). -/
def hasLeaf (u : Nat) : Bool := (u >>> 8) &&& 1 == 1

/-- `Value` (spm-precompiled.go:69-72). -/
def value (u : Nat) : Nat := u &&& ((1 <<< 31) - 1)

/-- `Label` (spm-precompiled.go:74-77). -/
def label (u : Nat) : Nat := u &&& ((1 <<< 31) ||| 0xFF)

/-- `Offset` (spm-precompiled.go:79-82). -/
def offset (u : Nat) : Nat := (u >>> 10) <<< ((u &&& (1 <<< 9)) >>> 6)

/-- `da.Array[i]`. -/
def unitAt (da : List Nat) (i : Nat) : Res Nat :=
  match da[i]? with
  | some u => .ok u
  | none => .panic

/-- The loop of `CommonPrefixSearch` (spm-precompiled.go:95-111). -/
def searchLoop (da : List Nat) : (pos : Nat) → (key : List UInt8) → Res (List Nat)
  | _, [] => .ok []
  | pos, c :: key =>
    if c = 0 then .ok []
    else
      match unitAt da (pos ^^^ c.toNat) with
      | .ok unit =>
        if label unit ≠ c.toNat then .ok []
        else
          let pos' := pos ^^^ c.toNat ^^^ offset unit
          if hasLeaf unit then
            match unitAt da pos' with
            | .ok leaf =>
              match searchLoop da pos' key with
              | .ok vs => .ok (value leaf :: vs)
              | .err => .err
              | .panic => .panic
            | .err => .err
            | .panic => .panic
          else searchLoop da pos' key
      | .err => .err
      | .panic => .panic

/-- `CommonPrefixSearch` (spm-precompiled.go:89-114). -/
def search (da : List Nat) (key : List UInt8) : Res (List Nat) :=
  match unitAt da 0 with
  | .ok unit => searchLoop da (offset unit) key
  | .err => .err
  | .panic => .panic

/-- `binary.LittleEndian.Uint32(b[:4])` and `b[4:]`; too short a slice panics. -/
def takeU32 : List UInt8 → Res (Nat × List UInt8)
  | a :: b :: c :: d :: rest => .ok (a.toNat + b.toNat * 256 + c.toNat * 65536 + d.toNat * 16777216, rest)
  | _ => .panic

/-- The loop of `Parse` (spm-precompiled.go:122-127). -/
def parseLoop : Nat → List UInt8 → Res (List UInt8 × List Nat)
  | 0, rest => .ok (rest, [])
  | n + 1, rest =>
    match takeU32 rest with
    | .ok (u, rest) =>
      match parseLoop n rest with
      | .ok (text, us) => .ok (text, u :: us)
      | .err => .err
      | .panic => .panic
    | .err => .err
    | .panic => .panic

/-- `Parse` (spm-precompiled.go:116-132). -/
def parse (blob : List UInt8) : Res (List UInt8 × List Nat) :=
  match takeU32 blob with
  | .ok (size, rest) => parseLoop (size / 4) rest
  | .err => .err
  | .panic => .panic

/-- `Transform` (spm-precompiled.go:147-165): the text at the first value, up to a zero byte. -/
def transform (da : List Nat) (text : List UInt8) (chunk : List UInt8) : Res (List UInt8) :=
  match search da chunk with
  | .ok [] => .ok []
  | .ok (i :: _) => if i ≤ text.length then .ok ((text.drop i).takeWhile (· ≠ 0)) else .panic
  | .err => .err
  | .panic => .panic

end Tok.Spm
