import Verif.Norm.Pattern

/-!
# NormalizedString (normalizer/normalized.go)

Strings are byte lists.  The inner slices of `alignmentsOriginal` are shared between the bytes of a
character (`createAligns` appends the same slice several times) and some are changed in place, so
they are modelled as cells of a store with references to them.  The inner slices of `alignments`
are never written after their creation and are plain pairs.

Slicing a Go slice beyond its length but within its capacity succeeds in Go; the model treats it
as a panic.  No theorem that claims success depends on this: they show the bounds to hold.
-/

namespace Tok.Norm

/-- Go slicing `l[a:b]` (see the note above on capacity). -/
def slc (l : List α) (a b : Int) : Res (List α) :=
  if 0 ≤ a ∧ a ≤ b ∧ b ≤ l.length then .ok ((l.take b.toNat).drop a.toNat) else .panic

/-- `NormalizedString` (normalizer/normalized.go:137-152). -/
structure NStr where
  original : List UInt8
  normalized : List UInt8
  aligns : List (Int × Int)
  refs : List Nat
  cells : List (Int × Int)
  shift : Int
  deriving Repr, DecidableEq

/-- Reading an inner slice. -/
def cellAt (cells : List (Int × Int)) (r : Nat) : Int × Int := cells[r]?.getD (0, 0)

/-- `AlignmentsOriginal` (normalizer/normalized.go:221-223). -/
def NStr.alignsO (n : NStr) : List (Int × Int) := n.refs.map (cellAt n.cells)

/-- The runes of a Go string: `[]rune(s)` and `bytes.Runes`. -/
def runes (s : List UInt8) : Str := (explode s).map (fun p => runeOf p.1)

/-- `createAligns` (normalizer/normalized.go:175-193): the inner slice of each rune. -/
def alignCells : Str → Nat → List (Int × Int)
  | [], _ => []
  | c :: s, cur => ((cur : Int), (cur + c.utf8Size : Int)) :: alignCells s (cur + c.utf8Size)

/-- `createAligns` (normalizer/normalized.go:175-193): for each byte of a rune the number of
its inner slice. -/
def alignRefs : Str → Nat → List Nat
  | [], _ => []
  | c :: s, k => List.replicate c.utf8Size k ++ alignRefs s (k + 1)

/-- `NewNormalizedFrom` (normalizer/normalized.go:155-169). -/
def newNStr (s : List UInt8) : NStr where
  original := s
  normalized := s
  aligns := (alignRefs (runes s) 0).map (cellAt (alignCells (runes s) 0))
  refs := alignRefs (runes s) 0
  cells := alignCells (runes s) 0
  shift := 0

/-- `IndexOn` (normalizer/normalized.go:42-47). -/
inductive IndexOn where
  | original | normalized
  deriving Repr, DecidableEq

/-- `Range` (normalizer/normalized.go:51-55). -/
structure Rng where
  start : Int
  stop : Int
  on : IndexOn
  deriving Repr, DecidableEq

/-- `IntoFullRange` (normalizer/normalized.go:101-127). The Go code changes the range in place;
callers below continue with the changed range. -/
def Rng.full (r : Rng) (maxLen : Nat) : Rng :=
  { r with start := if r.start = -1 then 0 else r.start, stop := if r.stop > maxLen then maxLen else r.stop }

/-- `expandAlignments` (normalizer/normalized.go:1411-1419); `none` is nil. -/
def expand (l : List (Int × Int)) : Option (Int × Int) :=
  match l.head?, l.getLast? with
  | some a, some b => some (a.1, b.2)
  | _, _ => none

/-- `applySign` (normalizer/normalized.go:1423-1429). -/
def applySign (origin signed : Int) : Int := if origin + signed < 0 then 0 else origin + signed

/-- `ConvertOffset` (normalizer/normalized.go:239-286); `none` is nil. -/
def NStr.convert (n : NStr) (r : Rng) : Res (Option Rng) :=
  let target := match r.on with
    | .original => r.full n.original.length
    | .normalized => r.full n.normalized.length
  let al := match r.on with
    | .original => n.alignsO
    | .normalized => n.aligns
  let on' := match r.on with
    | .original => IndexOn.normalized
    | .normalized => IndexOn.original
  if target.start = target.stop then .ok (some target)
  else if target.start < 0 ∨ target.start > al.length ∨ target.stop < 0 ∨ target.stop > al.length then
    .ok none
  else do
    let seg ← slc al target.start target.stop
    match expand seg with
    | none => .panic
    | some p => .ok (some ⟨p.1, p.2, on'⟩)

/-- `Range` (normalizer/normalized.go:289-302): text of the normalized string. -/
def NStr.range (n : NStr) (r : Rng) : Res (List UInt8) :=
  match r.on with
  | .original => do
    match ← n.convert r with
    | none => .panic
    | some p => slc n.normalized p.start p.stop
  | .normalized => slc n.normalized (r.full n.normalized.length).start (r.full n.normalized.length).stop

/-- `RangeOriginal` (normalizer/normalized.go:305-320): text of the original string. -/
def NStr.rangeOriginal (n : NStr) (r : Rng) : Res (List UInt8) :=
  match r.on with
  | .normalized => do
    match ← n.convert r with
    | none => .panic
    | some p => slc n.original p.start p.stop
  | .original => slc n.original (r.full n.original.length).start (r.full n.original.length).stop

/-- `utf8.RuneStart`: not a continuation byte. -/
def runeStart (b : UInt8) : Bool := b &&& 0xC0 != 0x80

/-- The test of one bound in `validateRange` (normalizer/normalized.go:346-364): a bound equal to
`skip` is not tested. -/
def boundOk (s : List UInt8) (i skip : Int) : Res Bool :=
  if i = skip then .ok true else do
    let b ← idx s i
    .ok (runeStart b)

/-- `validateRange` (normalizer/normalized.go:324-367); the result is the range it was given,
made full by the call. `none` is nil. -/
def NStr.validate (n : NStr) (inp : Rng) : Res (Option Rng) :=
  let s := match inp.on with
    | .original => n.original
    | .normalized => n.normalized
  let r := inp.full s.length
  if r.start < 0 ∨ r.stop < 0 ∨ r.start > s.length ∨ r.stop > s.length then .ok none
  else if r.start = 0 ∧ r.stop = 0 then .ok (some r)
  else do
    let ok1 ← boundOk s r.start 0
    if ok1 = false then .ok none
    else do
      let ok2 ← boundOk s r.stop s.length
      if ok2 = false then .ok none else .ok (some r)

/-- `Slice` (normalizer/normalized.go:371-424); `none` is nil. -/
def NStr.slice (n : NStr) (inp : Rng) : Res (Option NStr) := do
  match ← n.validate inp with
  | none => .ok none
  | some full => do
    let conv ← n.convert full
    match conv with
    | none => .panic
    | some conv => do
      let nR := match full.on with | .original => conv | .normalized => full
      let oR := match full.on with | .original => full | .normalized => conv
      let nShift := oR.start
      let pre ← slc n.alignsO 0 nShift
      let oShift := match expand pre with | none => 0 | some p => p.2
      let sOriginal ← n.rangeOriginal full
      let sNormalized ← n.range full
      let al ← slc n.aligns nR.start nR.stop
      let alO ← slc n.alignsO oR.start oR.stop
      .ok (some
        { original := sOriginal
          normalized := sNormalized
          aligns := al.map (fun a => (a.1 - nShift, a.2 - nShift))
          refs := List.range alO.length
          cells := alO.map (fun a => (a.1 - oShift, a.2 - oShift))
          shift := n.shift + oR.start })

/-- `Split` (normalizer/normalized.go:1191-1290): pieces that are not on character boundaries
are skipped. -/
def NStr.splitAt (n : NStr) : List (Nat × Nat) → Res (List NStr)
  | [] => .ok []
  | p :: ps => do
    let piece ← n.slice ⟨p.1, p.2, .normalized⟩
    let rest ← n.splitAt ps
    match piece with
    | none => .ok rest
    | some x => .ok (x :: rest)

/-- `Split` (normalizer/normalized.go:1191-1290). -/
def NStr.split (n : NStr) (p : Pat) (b : Behavior) : Res (List NStr) := do
  let ms ← p.find n.normalized
  n.splitAt (keptSpans b ms)

/-! ### TransformRange -/

/-- Zeroing the original alignments of one character removed at the start
(normalizer/normalized.go:519-531); the state is the store and `endShiftStart`. -/
def clearCells (oShift : Int) : List Nat → List (Int × Int) → Int → List (Int × Int) × Int
  | [], cells, ess => (cells, ess)
  | r :: rs, cells, ess =>
    let o := cellAt cells r
    let e := applySign o.2 (-oShift)
    clearCells oShift rs (cells.set r (if o.1 > e then e else o.1, e)) (if o.2 > ess then o.2 else ess)

/-- The loop over the characters removed at the start (normalizer/normalized.go:508-540).
`alignmentsOriginal` keeps the same inner slices in the same places. -/
def clearChars (al : List (Int × Int)) (refs : List Nat) :
    List Char → Nat → Int → List (Int × Int) → Int → Res (List (Int × Int) × Int)
  | [], _, _, cells, ess => .ok (cells, ess)
  | c :: cs, offset, oShift, cells, ess => do
    let seg ← slc al offset (offset + c.utf8Size)
    match expand seg with
    | none => .panic
    | some o => do
      let rs ← slc refs o.1 o.2
      let st := clearCells (oShift + c.utf8Size) rs cells ess
      clearChars al refs cs (offset + c.utf8Size) (oShift + c.utf8Size) st.1 st.2

/-- Variables of the loop over the changes (normalizer/normalized.go:552-560). -/
structure TState where
  refs : List Nat
  cells : List (Int × Int)
  rest : List Char
  offset : Nat
  oShift : Int
  als : List (Int × Int)
  out : Str
  deriving Repr, DecidableEq

/-- Bytes of the next `k` characters to remove; a missing character counts as the NUL rune
(normalizer/normalized.go:621-630). -/
def removedSize : Nat → List Char → Nat
  | 0, _ => 0
  | k + 1, [] => 1 + removedSize k []
  | k + 1, c :: cs => c.utf8Size + removedSize k cs

/-- `replacedCharSize` (normalizer/normalized.go:600-608): 0 for the NUL rune and when there is
no character. -/
def replacedSize : Option Char → Nat
  | some c => if c = '\x00' then 0 else c.utf8Size
  | none => 0

/-- Replace the references from `a` to `b` by new ones. -/
def putRefs (refs : List Nat) (a b : Int) (new : List Nat) : List Nat :=
  refs.take a.toNat ++ new ++ refs.drop b.toNat

/-- The alignment of the current character (normalizer/normalized.go:581-597). -/
def pickAlign (al : List (Int × Int)) (changes : Int) (i : Nat) : Res (Int × Int) :=
  if changes > 0 then
    if i < 1 then .ok (0, 0) else idx al ((i : Int) - 1)
  else if i ≥ al.length then idx al ((al.length : Int) - 1) else idx al i

/-- Bytes removed from the original and from the normalized string
(normalizer/normalized.go:639-658). -/
def removing (al : List (Int × Int)) (i total : Nat) : Res (Nat × Int) :=
  if total > 0 ∧ i < al.length then do
    let s ← idx al i
    let e ← idx al ((if i + total ≥ al.length then al.length - 1 else i + total : Nat) : Int)
    .ok ((e.2 - s.2).toNat, (total : Int) - (e.2 - s.2).toNat)
  else .ok (0, 0)

/-- New original alignment of a byte of the current character
(normalizer/normalized.go:682-707). -/
def newOffsets (changes : Int) (len : Nat) (sizeChange sizeChangeO rfn oShift : Int) (o : Int × Int) :
    Int × Int :=
  if changes > 0 then (o.1, o.2 + len)
  else
    let e := applySign (applySign o.2 sizeChange) (-rfn)
    if changes < 0 ∨ sizeChange = sizeChangeO then (applySign o.1 oShift, applySign e oShift)
    else (o.1, e)

/-- Update of the original alignments for the current character
(normalizer/normalized.go:661-722). -/
def updateO (changes : Int) (len : Nat) (sizeChange rfn oShift : Int) (align : Int × Int)
    (refs : List Nat) (cells : List (Int × Int)) : Res (List Nat × List (Int × Int)) := do
  let seg ← slc refs align.1 align.2
  let vals := seg.map (cellAt cells)
  match expand vals with
  | none => .ok (refs, cells)
  | some o =>
    let new := vals.map (newOffsets changes len sizeChange ((len : Int) - (o.2 - o.1)) rfn oShift)
    .ok (putRefs refs align.1 align.2 ((List.range new.length).map (· + cells.length)), cells ++ new)

/-- Set all these inner slices in place. -/
def setCells (v : Int × Int) : List Nat → List (Int × Int) → List (Int × Int)
  | [], cells => cells
  | r :: rs, cells => setCells v rs (cells.set r v)

/-- Zeroing the original alignments of the removed characters
(normalizer/normalized.go:725-745). -/
def zeroO (al : List (Int × Int)) (i total rfo : Nat) (align : Int × Int) (refs : List Nat)
    (cells : List (Int × Int)) : Res (List (Int × Int)) :=
  if rfo > 0 then do
    let s ← idx al i
    let e ← idx al ((i + total : Nat) : Int)
    let r ← idx refs align.1
    let newIdx := (cellAt cells r).2
    let seg ← slc refs s.2 e.2
    .ok (setCells (newIdx, newIdx) seg cells)
  else .ok cells

/-- One change (normalizer/normalized.go:562-764). -/
def changeStep (al : List (Int × Int)) (item : Str × Int) (st : TState) : Res TState := do
  let i := st.offset
  let align ← pickAlign al item.2 i
  let replaced := if item.2 ≤ 0 then st.rest.head? else none
  let rest1 := if item.2 ≤ 0 then st.rest.tail else st.rest
  let size := replacedSize replaced
  let sizeChange : Int := (blen item.1 : Int) - size
  let k := if item.2 < 0 then (-item.2).toNat else 0
  let total := removedSize k rest1
  let rm ← removing al i total
  let up ← updateO item.2 (blen item.1) sizeChange rm.2 st.oShift align st.refs st.cells
  let cells ← zeroO al i total rm.1 align up.1 up.2
  .ok { refs := up.1
        cells := cells
        rest := rest1.drop k
        offset := i + size + total
        oShift := st.oShift + sizeChange - total
        als := st.als ++ List.replicate (blen item.1) align
        out := st.out ++ item.1 }

/-- The loop over the changes (normalizer/normalized.go:562-764). -/
def changeLoop (al : List (Int × Int)) : List (Str × Int) → TState → Res TState
  | [], st => .ok st
  | item :: items, st => do
    let st' ← changeStep al item st
    changeLoop al items st'

/-- The shift of the remaining original alignments (normalizer/normalized.go:767-797). -/
def shiftTail (al : List (Int × Int)) (ess oShift : Int) (refs : List Nat) (cells : List (Int × Int)) :
    Res (List Nat × List (Int × Int)) :=
  if oShift ≠ 0 then do
    let tail ← slc al ess al.length
    match expand tail with
    | none => .ok (refs, cells)
    | some e => do
      let seg ← slc refs e.1 e.2
      let new := seg.map (fun r => (applySign (cellAt cells r).1 oShift, applySign (cellAt cells r).2 oShift))
      .ok (putRefs refs e.1 e.2 ((List.range new.length).map (· + cells.length)), cells ++ new)
  else .ok (refs, cells)

/-- `TransformRange` (normalizer/normalized.go:440-828). -/
def NStr.transformRange (n : NStr) (inp : Rng) (items : List (Str × Int)) (initial : Nat) : Res NStr := do
  let nR ← match inp.on with
    | .normalized => .ok (inp.full n.normalized.length)
    | .original => do
      match ← n.convert inp with
      | none => .panic
      | some r => .ok r
  let stop := if nR.stop > n.aligns.length then (n.aligns.length : Int) else nR.stop
  let nBytes ← slc n.normalized nR.start stop
  let chars := runes nBytes
  if initial > chars.length then .panic
  else do
    let removed := chars.take initial
    let start := nR.start.toNat
    let cl ← clearChars n.aligns n.refs removed start 0 n.cells stop
    let st ← changeLoop n.aligns items
      { refs := n.refs, cells := cl.1, rest := chars, offset := blen removed + start,
        oShift := -(blen removed : Int), als := [], out := [] }
    let tl ← shiftTail n.aligns cl.2 st.oShift st.refs st.cells
    let before ← slc n.aligns 0 start
    let after ← slc n.aligns stop n.aligns.length
    let nBefore ← slc n.normalized 0 start
    let nAfter ← slc n.normalized stop n.normalized.length
    .ok { n with
      normalized := nBefore ++ encStr st.out ++ nAfter
      aligns := before ++ st.als ++ after
      refs := tl.1
      cells := tl.2 }

/-- `Transform` (normalizer/normalized.go:859-864). -/
def NStr.transform (n : NStr) (items : List (Str × Int)) (initial : Nat) : Res NStr :=
  n.transformRange ⟨0, n.original.length, .original⟩ items initial

/-- The loop of `Filter` over the reversed characters (normalizer/normalized.go:1040-1057), with
the number of characters removed since; the change list is built from its end. -/
def filterLoop (fn : Char → Bool) : List Char → Nat → List (Str × Int) → List (Str × Int) × Nat
  | [], removed, acc => (acc, removed)
  | c :: cs, removed, acc =>
    if fn c then
      if removed > 0 then filterLoop fn cs 0 (([c], -(removed : Int)) :: acc)
      else filterLoop fn cs removed (([c], 0) :: acc)
    else filterLoop fn cs (removed + 1) acc

/-- `Filter` (normalizer/normalized.go:1025-1070). -/
def NStr.filter (n : NStr) (fn : Char → Bool) : Res NStr :=
  let r := filterLoop fn (runes n.normalized).reverse 0 []
  n.transform r.1 r.2

/-- The changes of `Prepend` (normalizer/normalized.go:1080-1090). -/
def prependItems (s : Str) (next : Char) : List (Str × Int) :=
  match s with
  | [] => [([next], 1)]
  | c :: s => ([c], 0) :: (s.map (fun c => ([c], (1 : Int))) ++ [([next], 1)])

/-- `Prepend` (normalizer/normalized.go:1073-1094). -/
def NStr.prepend (n : NStr) (s : List UInt8) : Res NStr :=
  match runes n.normalized with
  | [] => .ok n
  | next :: _ => n.transformRange ⟨0, next.utf8Size, .normalized⟩ (prependItems (runes s) next) 0

/-- Byte index of the last rune of a string and the rune: the loop of `Append`
(normalizer/normalized.go:1102-1107). -/
def lastRune : List (Option Char × List UInt8) → Nat → Option (Nat × Char)
  | [], _ => none
  | [(o, _)], i => some (i, runeOf o)
  | (_, bs) :: p :: rest, i => lastRune (p :: rest) (i + bs.length)

/-- `Append` (normalizer/normalized.go:1097-1116). -/
def NStr.append (n : NStr) (s : List UInt8) : Res NStr :=
  match lastRune (explode n.normalized) 0 with
  | none => .ok n
  | some (i, c) =>
    n.transformRange ⟨i, n.normalized.length, .normalized⟩
      (([c], 0) :: (runes s).map (fun c => ([c], 1))) 0

/-- `Map` (normalizer/normalized.go:1123-1131): the function is not used. -/
def NStr.map (n : NStr) (_ : Char → Char) : Res NStr :=
  n.transform ((runes n.normalized).map (fun c => ([c], 0))) 0

/-- `ForEach` (normalizer/normalized.go:1135-1144). -/
def NStr.forEach (n : NStr) (fn : Char → Char) : NStr :=
  { n with normalized := encStr ((runes n.normalized).map fn) }

/-- `Lowercase` and `Uppercase` (normalizer/normalized.go:1154-1165): the standard library
function is a parameter; the alignments stay as they were. -/
def NStr.recase (n : NStr) (f : List UInt8 → List UInt8) : NStr := { n with normalized := f n.normalized }

/-- `Clear` (normalizer/normalized.go:1168-1171). -/
def NStr.clear (n : NStr) : Res NStr := n.transform [] n.normalized.length

/-- `lrstrip` (normalizer/normalized.go:1308-1361); `unicode.IsSpace` is a parameter. -/
def NStr.strip (n : NStr) (space : Char → Bool) (left right : Bool) : Res NStr :=
  let rs := runes n.normalized
  let lead := if left then (rs.takeWhile space).length else 0
  let trail := if right then (rs.reverse.takeWhile space).length else 0
  if lead > 0 ∨ trail > 0 then
    let items := (List.range rs.length).filterMap (fun i =>
      if i < lead ∨ (i : Int) ≥ (rs.length : Int) - trail then none
      else (rs[i]?).map (fun c =>
        ([c], if (i : Int) = (rs.length : Int) - trail - 1 then -(trail : Int) else 0)))
    n.transform items lead
  else .ok n

/-- The loop of `Replace` over the matches, with the shift of the offsets
(normalizer/normalized.go:1440-1465). -/
def replaceLoop (content : Str) : List Span → Int → NStr → Res NStr
  | [], _, n => .ok n
  | m :: ms, offset, n =>
    if m.isMatch then do
      let r0 := applySign m.start offset
      let r1 := applySign m.stop offset
      let gone ← slc n.normalized r0 r1
      let n' ← n.transformRange ⟨r0, r1, .normalized⟩ (content.map (fun c => ([c], 1))) (runes gone).length
      replaceLoop content ms (offset + (blen content : Int) - ((m.stop : Int) - m.start)) n'
    else replaceLoop content ms offset n

/-- `Replace` (normalizer/normalized.go:1431-1468). -/
def NStr.replace (n : NStr) (p : Pat) (content : List UInt8) : Res NStr := do
  let ms ← p.find n.normalized
  replaceLoop (runes content) ms 0 n

end Tok.Norm
