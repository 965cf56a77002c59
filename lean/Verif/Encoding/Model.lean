import Verif.Go

/-!
# Model of `encoding.go` and the encoding helpers of `util.go`

Slices are lists (values): the model of shared backing arrays is in
`Verif/Encoding/Heap.lean`.
-/

namespace Tok

/-- encoding.go:10-15 `PaddingDirection`. -/
inductive Direction where
  | left
  | right
  deriving Repr, DecidableEq

/-- util.go:184 `type Range []int`. -/
abbrev Range := List Int

/-- encoding.go:18-28 `type Encoding struct`.
Each `Offsets` entry is a two-element `[]int`, here a pair.
`ranges` is the Go map `SequenceRanges`: `none` is the nil map, otherwise the
entries in the (arbitrary) order in which `range` visits them. -/
structure Encoding where
  ids : List Int
  typeIds : List Int
  tokens : List Str
  offsets : List (Int × Int)
  specialMask : List Int
  attentionMask : List Int
  words : List Int
  overflowing : List Encoding
  ranges : Option (List (Int × Range))
  deriving Repr

namespace Encoding

/-- encoding.go:92-103 `DefaultEncoding`. -/
def default : Encoding :=
  { ids := [], typeIds := [], tokens := [], offsets := [], specialMask := [],
    attentionMask := [], words := [], overflowing := [], ranges := some [] }

/-- encoding.go:152-154 `Len`. -/
def len (e : Encoding) : Nat := e.ids.length

end Encoding

/-- tokenizer.go:29-33 `type Token struct`. -/
structure Token where
  id : Int
  value : Str
  offsets : Int × Int
  deriving Repr, DecidableEq

/-- encoding.go:106-134 `NewEncodingFromTokens`: type ids are all zero whatever
`typeId` is, words stay nil. -/
def newEncodingFromTokens (tokens : List Token) (_typeId : Int) : Encoding :=
  { ids := tokens.map (·.id)
    typeIds := List.replicate tokens.length 0
    tokens := tokens.map (·.value)
    offsets := tokens.map (·.offsets)
    specialMask := List.replicate tokens.length 0
    attentionMask := List.replicate tokens.length 1
    words := []
    overflowing := []
    ranges := some [] }

/-- `l[0:n]` and `l[n:len(l)]` (encoding.go:355-369).  Go panics when `n` exceeds
the capacity; without capacities the model panics when it exceeds the length. -/
def cut (l : List α) (n : Int) : Res (List α × List α) :=
  if 0 ≤ n ∧ n ≤ l.length then .ok (l.take n.toNat, l.drop n.toNat) else .panic

/-- encoding.go:671-694 `getCurrentPart`. -/
def getCurrentPart (previous current : List α) (size i stride : Int) : List α :=
  if size ≤ 0 ∨ i < 0 ∨ stride < 0 then []
  else
    let stride := if (previous.length : Int) < stride then (previous.length : Int) else stride
    let start := i * size
    let prev := previous.drop (previous.length - stride.toNat)
    if start ≥ current.length then prev
    else
      let stop := (i + 1) * size
      let stop := if stop > current.length then (current.length : Int) else stop
      prev ++ (current.take stop.toNat).drop start.toNat

/-- The overflowing slices `oIds, oTypeIds, …` of encoding.go:356-369, as the
seven arrays of an encoding. -/
def overflowPart (prev o : Encoding) (partSize partId stride : Int) : Encoding :=
  { ids := getCurrentPart prev.ids o.ids partSize partId stride
    typeIds := getCurrentPart prev.typeIds o.typeIds partSize partId stride
    tokens := getCurrentPart prev.tokens o.tokens partSize partId stride
    offsets := getCurrentPart prev.offsets o.offsets partSize partId stride
    specialMask := getCurrentPart prev.specialMask o.specialMask partSize partId stride
    attentionMask := getCurrentPart prev.attentionMask o.attentionMask partSize partId stride
    words := getCurrentPart prev.words o.words partSize partId stride
    overflowing := []
    ranges := none }

/-- encoding.go:386-401, the `for partSize*partId < len(oIds)` loop.  `fuel`
bounds the number of rounds; `len(oIds)` rounds always suffice because
`partSize ≥ 1` (`truncate_closed` in TruncateLemmas shows the count). -/
def truncateLoop (o : Encoding) (partSize stride : Int) :
    (fuel : Nat) → (partId : Int) → (prev : Encoding) → List Encoding
  | 0, _, _ => []
  | fuel + 1, partId, prev =>
    if partSize * partId < o.ids.length then
      let part := overflowPart prev o partSize partId stride
      part :: truncateLoop o partSize stride fuel (partId + 1) part
    else []

/-- encoding.go:343-406 `Truncate`. -/
def Encoding.truncate (e : Encoding) (maxLen stride : Int) : Res Encoding :=
  if stride ≥ maxLen ∨ maxLen = 0 then .err
  else if maxLen ≥ e.ids.length then .ok e
  else do
    let (newIds, oIds) ← cut e.ids maxLen
    let (newTypeIds, oTypeIds) ← cut e.typeIds maxLen
    let (newTokens, oTokens) ← cut e.tokens maxLen
    let (newOffsets, oOffsets) ← cut e.offsets maxLen
    let (newSpe, oSpe) ← cut e.specialMask maxLen
    let (newAtt, oAtt) ← cut e.attentionMask maxLen
    let (newWords, oWords) ← cut e.words maxLen
    let e' : Encoding :=
      { e with ids := newIds, typeIds := newTypeIds, tokens := newTokens, offsets := newOffsets,
               specialMask := newSpe, attentionMask := newAtt, words := newWords }
    let o : Encoding :=
      { ids := oIds, typeIds := oTypeIds, tokens := oTokens, offsets := oOffsets,
        specialMask := oSpe, attentionMask := oAtt, words := oWords,
        overflowing := [], ranges := none }
    .ok { e' with overflowing := truncateLoop o (maxLen - stride) stride oIds.length 0 e' }

/-- The effect of a call `e.Truncate(maxLen, stride)` on `e` when the caller
discards the returned error (util.go:117-120, 127): on error `e` is untouched
(encoding.go:345-347 returns before any write). -/
def Encoding.truncateMut (e : Encoding) (maxLen stride : Int) : Res Encoding :=
  match e.truncate maxLen stride with
  | .ok e' => .ok e'
  | .err => .ok e
  | .panic => .panic

/-- encoding.go:578-581 and the like: `for i := k; i < n; i++ { arr[i] = v }`. -/
def fillLoop (v : α) : (rounds k : Nat) → List α → Res (List α)
  | 0, _, arr => .ok arr
  | rounds + 1, k, arr =>
    if k < arr.length then fillLoop v rounds (k + 1) (arr.set k v) else .panic

/-- `make([]T, n)`: panics for a negative length. -/
def goMake (n : Int) (zero : α) : Res (List α) :=
  if n < 0 then .panic else .ok (List.replicate n.toNat zero)

/-- encoding.go:577-630, case `Left` of `pad`.  Line 589 appends `e.Ids` (already
replaced by the padded ids) to the type ids; line 617 loops to `len(newIds)`,
which already includes the original ids. -/
def Encoding.padLeft (e : Encoding) (padLength padId padTypeId : Int) (padToken : Str) :
    Res Encoding := do
  let a ← goMake padLength 0
  let a ← fillLoop padId a.length 0 a
  let newIds := a ++ e.ids
  let t ← goMake padLength 0
  let t ← fillLoop padTypeId t.length 0 t
  let newTypeIds := t ++ newIds
  let k ← goMake padLength []
  let k ← fillLoop padToken k.length 0 k
  let newTokens := k ++ e.tokens
  let s ← goMake padLength 0
  let s ← fillLoop 1 s.length 0 s
  let newSpe := s ++ e.specialMask
  let m ← goMake padLength 0
  let m ← fillLoop 0 m.length 0 m
  let newAtt := m ++ e.attentionMask
  let f ← goMake padLength (0, 0)
  let f ← fillLoop (0, 0) newIds.length 0 f
  let newOffsets := f ++ e.offsets
  let w ← goMake padLength 0
  let w ← fillLoop (-1) w.length 0 w
  let newWords := w ++ e.words
  .ok { e with ids := newIds, typeIds := newTypeIds, tokens := newTokens, offsets := newOffsets,
               specialMask := newSpe, attentionMask := newAtt, words := newWords }

/-- encoding.go:628-637, case `Right` of `pad`: `padLength` rounds of appends. -/
def Encoding.padRightLoop (padId padTypeId : Int) (padToken : Str) : Nat → Encoding → Encoding
  | 0, e => e
  | n + 1, e =>
    padRightLoop padId padTypeId padToken n
      { e with
        ids := e.ids ++ [padId]
        typeIds := e.typeIds ++ [padTypeId]
        tokens := e.tokens ++ [padToken]
        specialMask := e.specialMask ++ [1]
        attentionMask := e.attentionMask ++ [0]
        offsets := e.offsets ++ [(0, 0)]
        words := e.words ++ [-1] }

/-- encoding.go:573-640 `pad` (the unexported method). -/
def Encoding.pad1 (e : Encoding) (target padId padTypeId : Int) (padToken : Str)
    (dir : Direction) : Res Encoding :=
  let padLength := target - e.ids.length
  match dir with
  | .left => e.padLeft padLength padId padTypeId padToken
  | .right => .ok (padRightLoop padId padTypeId padToken padLength.toNat e)

/-- `for _, o := range xs { ys = append(ys, f(o)) }` with a failing body. -/
def mapRes (f : α → Res β) : List α → Res (List β)
  | [] => .ok []
  | a :: as => do
    let b ← f a
    let bs ← mapRes f as
    .ok (b :: bs)

/-- encoding.go:554-571 `Pad`. -/
def Encoding.pad (e : Encoding) (target padId padTypeId : Int) (padToken : Str)
    (dir : Direction) : Res Encoding := do
  let over ← mapRes (fun o => o.pad1 target padId padTypeId padToken dir) e.overflowing
  let e := { e with overflowing := over }
  if (e.ids.length : Int) ≥ target then .ok e
  else e.pad1 target padId padTypeId padToken dir

/-- util.go:186-201 `NewRange`. -/
def newRange (start stop : Int) : Res Range :=
  if start < 0 then .panic
  else if stop < 0 ∨ stop ≤ start then .panic
  else .ok ((List.range (stop - start).toNat).map (fun (i : Nat) => start + (i : Int)))

/-- Go map read. -/
def rangesGet (m : Option (List (Int × Range))) (k : Int) : Option Range :=
  match m with
  | none => none
  | some l => (l.find? (fun p => p.1 == k)).map (·.2)

/-- Insert or overwrite in an association list. -/
def assocSet (k : Int) (v : β) : List (Int × β) → List (Int × β)
  | [] => [(k, v)]
  | p :: l => if p.1 == k then (k, v) :: l else p :: assocSet k v l

/-- Go map write: panics on a nil map. -/
def rangesSet (m : Option (List (Int × Range))) (k : Int) (v : Range) :
    Res (Option (List (Int × Range))) :=
  match m with
  | none => .panic
  | some l => .ok (some (assocSet k v l))

/-- encoding.go:181-189 `SetSequenceIds`. -/
def Encoding.setSequenceIds (e : Encoding) (sequenceId : Int) : Res Encoding :=
  if e.ids.length > 0 then do
    let r ← newRange 0 e.ids.length
    let m := match e.ranges with | none => some [] | some l => some l
    let m ← rangesSet m sequenceId r
    .ok { e with ranges := m }
  else .ok e

/-- encoding.go:455-464, the loop over the pair's sequence ranges.
`util.DeepCopy(e.SequenceRanges[seqId], oldRange)` decodes into a non-pointer,
which gob rejects; the error is ignored and `oldRange` stays nil, so
`util.Merge(oldRange, newRange)` is `newRange`. -/
def mergeRanges (originalLen : Int) :
    List (Int × Range) → Option (List (Int × Range)) → Res (Option (List (Int × Range)))
  | [], m => .ok m
  | (seqId, r) :: rest, m => do
    let r0 ← idx r 0
    let rl ← idx r ((r.length : Int) - 1)
    let newR ← newRange (originalLen + r0) (originalLen + rl + 1)
    let m ← rangesSet m seqId newR
    mergeRanges originalLen rest m

/-- encoding.go:474-491, offsets of the merged encoding. -/
def mergeOffsets (own other : List (Int × Int)) (growing : Bool) : List (Int × Int) :=
  let starting : Int :=
    if growing then (match own.getLast? with | some last => last.2 | none => 0) else 0
  own ++ other.map (fun o => (o.1 + starting, o.2 + starting))

/-- encoding.go:453-494, the part of `MergeWith` after the overflow lists, on
encodings whose `Overflowing` field has already been replaced. -/
def Encoding.mergeSelf (e pair : Encoding) (over : List Encoding) (growing : Bool) :
    Res Encoding := do
  let m ← mergeRanges e.ids.length (pair.ranges.getD []) e.ranges
  .ok { ids := e.ids ++ pair.ids
        typeIds := e.typeIds ++ pair.typeIds
        tokens := e.tokens ++ pair.tokens
        offsets := mergeOffsets e.offsets pair.offsets growing
        specialMask := e.specialMask ++ pair.specialMask
        attentionMask := e.attentionMask ++ pair.attentionMask
        words := e.words ++ pair.words
        overflowing := over
        ranges := m }

/-- encoding.go:419-495 `MergeWith`.  `Clone` (encoding.go:136-144) is a gob
round trip, the identity on values (gob sends non-nil empty maps and drops empty
slices, which decode as nil: the same value here).  The `attach`es only serve
the termination proof. -/
def Encoding.mergeWith (e pair : Encoding) (growing : Bool) : Res Encoding := do
  -- 1. all our overflowings with the pair and all its overflowings
  let over1 ← mapRes (fun (o : {x // x ∈ e.overflowing}) => do
      let a ← Encoding.mergeWith o.1 pair growing
      let bs ← mapRes (fun (p : {x // x ∈ pair.overflowing}) => Encoding.mergeWith o.1 p.1 growing)
        pair.overflowing.attach
      Res.ok (a :: bs)) e.overflowing.attach
  -- 2. ourself with all the other overflowings
  let over2 ← mapRes (fun (p : {x // x ∈ pair.overflowing}) => Encoding.mergeWith e p.1 growing)
    pair.overflowing.attach
  e.mergeSelf pair (over1.flatten ++ over2) growing
termination_by sizeOf e + sizeOf pair
decreasing_by
  · have := o.2; have h := List.sizeOf_lt_of_mem this
    have : sizeOf e = 1 + sizeOf e.ids + sizeOf e.typeIds + sizeOf e.tokens + sizeOf e.offsets + sizeOf e.specialMask + sizeOf e.attentionMask + sizeOf e.words + sizeOf e.overflowing + sizeOf e.ranges := by cases e; simp
    omega
  · have h1 := List.sizeOf_lt_of_mem o.2
    have h2 := List.sizeOf_lt_of_mem p.2
    have e1 : sizeOf e = 1 + sizeOf e.ids + sizeOf e.typeIds + sizeOf e.tokens + sizeOf e.offsets + sizeOf e.specialMask + sizeOf e.attentionMask + sizeOf e.words + sizeOf e.overflowing + sizeOf e.ranges := by cases e; simp
    have e2 : sizeOf pair = 1 + sizeOf pair.ids + sizeOf pair.typeIds + sizeOf pair.tokens + sizeOf pair.offsets + sizeOf pair.specialMask + sizeOf pair.attentionMask + sizeOf pair.words + sizeOf pair.overflowing + sizeOf pair.ranges := by cases pair; simp
    omega
  · have h2 := List.sizeOf_lt_of_mem p.2
    have e2 : sizeOf pair = 1 + sizeOf pair.ids + sizeOf pair.typeIds + sizeOf pair.tokens + sizeOf pair.offsets + sizeOf pair.specialMask + sizeOf pair.attentionMask + sizeOf pair.words + sizeOf pair.overflowing + sizeOf pair.ranges := by cases pair; simp
    omega

/-- encoding.go:409-416 `Merge`. -/
def Encoding.merge (e : Encoding) (encodings : List Encoding) (growing : Bool) : Res Encoding :=
  match encodings with
  | [] => .ok e
  | x :: xs => do
    let e ← e.mergeWith x growing
    e.merge xs growing

/-- tokenizer.go:132-150 `MergeEncodings`; `none` is the nil pointer. -/
def mergeEncodings (encodings : List Encoding) (growing : Bool) : Res (Option Encoding) :=
  match encodings with
  | [] => .ok none
  | [a] => .ok (some a)
  | a :: rest => do
    let r ← a.merge rest growing
    .ok (some r)

end Tok
