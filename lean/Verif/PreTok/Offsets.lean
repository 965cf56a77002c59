import Verif.Norm.Model

/-!
# Byte and character offsets (normalizer/normalized.go:1470-1564, pretokenizer.go:311-352)
-/

namespace Tok.PreTok

open Tok.Norm

/-- `BytesToChar` (normalizer/normalized.go:1477-1515): `range []rune(s)` yields rune indexes, which
the code uses as byte indexes. -/
def bytesToChar (s : List UInt8) (a b : Int) : Int × Int :=
  let init : Int × Int := if a = 0 ∧ b = 0 then (0, 0) else (-1, -1)
  let selected := (runes s).zipIdx.filter (fun p => decide ((p.2 : Int) ≥ a ∧ (p.2 : Int) ≤ b))
  selected.foldl (fun st p =>
    let start := if (p.2 : Int) = a then (p.2 : Int) else st.1
    let stop := if (p.2 : Int) = b then (p.2 : Int) else st.2
    let stop := if (p.2 : Int) + p.1.utf8Size = b then (p.2 : Int) + 1 else stop
    (start, stop)) init

/-- `CharToBytes` (normalizer/normalized.go:1518-1564), with the same confusion of indexes. -/
def charToBytes (s : List UInt8) (a b : Int) : Res (Int × Int) :=
  let init : Int × Int := if a = 0 ∧ b = 0 then (0, 0) else (-1, -1)
  let chars := (runes s).zipIdx
  if a = b then
    if 0 ≤ a ∧ a < chars.length then do
      let c ← idx chars (a + 1)
      .ok ((c.2 : Int), (c.2 : Int))
    else .ok init
  else
    let selected := chars.filter (fun p => decide ((p.2 : Int) > a ∧ (p.2 : Int) ≤ b))
    .ok (selected.foldl (fun st p =>
      (if st.1 = -1 then (p.2 : Int) else st.1, (p.2 : Int) + p.1.utf8Size)) init)

/-- The map of `NewBytesToCharOffsetConverter` (pretokenizer.go:319-335): its keys are the byte
indexes from 0 on, so it is the list of its values. -/
def b2cFrom : Str → Nat → List Nat
  | [], _ => []
  | c :: s, k => List.replicate c.utf8Size k ++ b2cFrom s (k + 1)

/-- `NewBytesToCharOffsetConverter` (pretokenizer.go:319-335). -/
def b2c (s : List UInt8) : List Nat := b2cFrom (runes s) 0

/-- Look up a byte index in the map. -/
def b2cGet (m : List Nat) (i : Int) : Option Nat := if i < 0 then none else m[i.toNat]?

/-- `BytesToCharOffsetConverter.Convert` (pretokenizer.go:338-352). -/
def convertOffsets (m : List Nat) (o : Int × Int) : Res (Int × Int) :=
  match b2cGet m o.1 with
  | none => .err
  | some a =>
    match b2cGet m o.2 with
    | none => .err
    | some b => .ok ((a : Int), (b : Int))

end Tok.PreTok
