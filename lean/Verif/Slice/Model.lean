import Verif.Go

/-!
# The functions of package util/slice (util/slice/int.go, string.go, generic.go)

The functions for ints and for strings are the same but for the bounds of `Cut`; the model has any element
type, with its zero value where the code uses one. A heap is a list of backing arrays; a slice is a window
of one, with a capacity. A nil slice is a slice of capacity 0, of any array. Integers do not overflow.
-/

namespace Tok.SliceUtil

/-- Backing arrays. -/
abbrev Heap (α : Type) := List (List α)

/-- A Go slice: backing array, offset, length and capacity. -/
structure Slice where
  arr : Nat
  off : Nat
  len : Nat
  cap : Nat
  deriving Repr, DecidableEq

/-- The backing array of a slice. -/
def arrayOf (h : Heap α) (s : Slice) : List α := h[s.arr]?.getD []

/-- The elements of a slice. -/
def read (h : Heap α) (s : Slice) : List α := ((arrayOf h s).drop s.off).take s.len

/-- The slice lies in its array, as every slice does. -/
def Valid (h : Heap α) (s : Slice) : Prop :=
  s.arr < h.length ∧ s.len ≤ s.cap ∧ s.off + s.cap ≤ (arrayOf h s).length

/-- Go's `copy` into an array. -/
def writeAt (l : List α) (i : Nat) (vs : List α) : List α := l.take i ++ vs ++ l.drop (i + vs.length)

/-- A slice literal or `make` with values. -/
def alloc (h : Heap α) (vs : List α) : Heap α × Slice := (h ++ [vs], ⟨h.length, 0, vs.length, vs.length⟩)

/-- Go's `append(s, vs...)`: in place if the capacity suffices, else into a new array. `spare` is the further
capacity the runtime gives, any list. The values are read before anything is written. -/
def append (spare : List α) (h : Heap α) (s : Slice) (vs : List α) : Heap α × Slice :=
  if s.len + vs.length ≤ s.cap then
    (h.set s.arr (writeAt (arrayOf h s) (s.off + s.len) vs), { s with len := s.len + vs.length })
  else
    (h ++ [read h s ++ vs ++ spare],
      ⟨h.length, 0, s.len + vs.length, s.len + vs.length + spare.length⟩)

/-- Go's `s[:b]`. -/
def Slice.upTo (s : Slice) (b : Int) : Res Slice :=
  if 0 ≤ b ∧ b ≤ s.cap then .ok { s with len := b.toNat } else .panic

/-- Go's `s[a:]`. -/
def Slice.from (s : Slice) (a : Int) : Res Slice :=
  if 0 ≤ a ∧ a ≤ s.len then .ok ⟨s.arr, s.off + a.toNat, s.len - a.toNat, s.cap - a.toNat⟩ else .panic

/-- Go's `s[i]`. -/
def get (h : Heap α) (s : Slice) (i : Nat) : Res α :=
  match (read h s)[i]? with
  | some v => .ok v
  | none => .panic

/-- Go's `s[i] = v`. -/
def put (h : Heap α) (s : Slice) (i : Nat) (v : α) : Res (Heap α) :=
  if i < s.len then .ok (h.set s.arr ((arrayOf h s).set (s.off + i) v)) else .panic

/-- Go's `s[i], s[j] = s[j], s[i]`. -/
def swap (h : Heap α) (s : Slice) (i j : Nat) : Res (Heap α) := do
  let x ← get h s j
  let y ← get h s i
  let h ← put h s i x
  put h s j y

/-! ### Functions -/

/-- `CopyInt` (int.go:13-17): the capacity of `a[:0:0]` is 0. -/
def copySlice (spare : List α) (h : Heap α) (a : Slice) : Heap α × Slice :=
  append spare h { a with len := 0, cap := 0 } (read h a)

/-- `CutInt` (int.go:21-39) with `least = -1`, `CutStr` (string.go:21-39) with `least = 0`. -/
def cut (least : Int) (spare : List α) (h : Heap α) (a : Slice) (start stop : Int) : Res (Heap α × Slice) :=
  if start < least ∨ start > a.len then .err
  else if stop < least ∨ stop > a.len then .err
  else if start > stop then .err
  else do
    let front ← a.upTo start
    let back ← a.from stop
    .ok (append spare h front (read h back))

/-- `DeleteInt` (int.go:42-50). -/
def delete (spare : List α) (h : Heap α) (a : Slice) (i : Int) : Res (Heap α × Slice) :=
  if i < 0 ∨ i > a.len then .err
  else do
    let front ← a.upTo i
    let back ← a.from (i + 1)
    .ok (append spare h front (read h back))

/-- `ExpandInt` (int.go:53-71); `spare'` is the further capacity of the inner `append`. -/
def expand (zero : α) (spare spare' : List α) (h : Heap α) (a : Slice) (start stop : Int) : Res (Heap α × Slice) :=
  if start < 0 ∨ start > a.len then .err
  else if stop < 0 ∨ stop > a.len then .err
  else if start > stop then .err
  else do
    let front ← a.upTo start
    let back ← a.from start
    let z := alloc h (List.replicate stop.toNat zero)
    let r := append spare' z.1 z.2 (read z.1 back)
    .ok (append spare r.1 front (read r.1 r.2))

/-- `ExtendInt` (int.go:74-81). -/
def extend (zero : α) (spare : List α) (h : Heap α) (a : Slice) (size : Int) : Res (Heap α × Slice) :=
  if size ≤ 0 then .err else .ok (append spare h a (List.replicate size.toNat zero))

/-- The loop of `FilterInt` (int.go:86-91), with `k` elements left; the next one is at `a.len - k`. -/
def filterLoop (f : α → Bool) (a : Slice) : (k : Nat) → (n : Nat) → Heap α → Res (Heap α × Nat)
  | 0, n, h => .ok (h, n)
  | k + 1, n, h => do
    let x ← get h a (a.len - (k + 1))
    if f x then (do
      let h ← put h a n x
      filterLoop f a k (n + 1) h)
    else filterLoop f a k n h

/-- `FilterInt` (int.go:84-93). -/
def filter (f : α → Bool) (h : Heap α) (a : Slice) : Res (Heap α × Slice) := do
  let r ← filterLoop f a a.len 0 h
  let s ← a.upTo r.2
  .ok (r.1, s)

/-- `InsertInt` (int.go:96-105). -/
def insert (spare spare' : List α) (h : Heap α) (a : Slice) (item : α) (i : Int) : Res (Heap α × Slice) :=
  if i < 0 ∨ i > a.len then .err
  else do
    let front ← a.upTo i
    let back ← a.from i
    let z := alloc h [item]
    let r := append spare' z.1 z.2 (read z.1 back)
    .ok (append spare r.1 front (read r.1 r.2))

/-- `InsertVecInt` (int.go:108-117): the inner `append` is to `b`. -/
def insertVec (spare spare' : List α) (h : Heap α) (a b : Slice) (i : Int) : Res (Heap α × Slice) :=
  if i < 0 ∨ i > a.len then .err
  else do
    let front ← a.upTo i
    let back ← a.from i
    let r := append spare' h b (read h back)
    .ok (append spare r.1 front (read r.1 r.2))

/-- `PushInt` (int.go:120-122). -/
def push (spare : List α) (h : Heap α) (a : Slice) (item : α) : Heap α × Slice := append spare h a [item]

/-- `PopInt` (int.go:125-127). -/
def pop (h : Heap α) (a : Slice) : Res (α × Slice) :=
  if a.len = 0 then .panic
  else do
    let x ← get h a (a.len - 1)
    let s ← a.upTo ((a.len : Int) - 1)
    .ok (x, s)

/-- `PushFrontInt` (int.go:130-132). -/
def pushFront (spare : List α) (h : Heap α) (a : Slice) (item : α) : Heap α × Slice :=
  let z := alloc h [item]
  append spare z.1 z.2 (read z.1 a)

/-- `PopFrontInt` (int.go:135-137). -/
def popFront (h : Heap α) (a : Slice) : Res (α × Slice) := do
  let x ← get h a 0
  let s ← a.from 1
  .ok (x, s)

/-- The first loop of `FilterIntNoAllocate` (int.go:145-149), with `k` elements left. -/
def reuseLoop (f : α → Bool) (spare : List α) (a : Slice) : (k : Nat) → Slice → Heap α → Res (Heap α × Slice)
  | 0, b, h => .ok (h, b)
  | k + 1, b, h => do
    let x ← get h a (a.len - (k + 1))
    if f x then
      let r := append spare h b [x]
      reuseLoop f spare a k r.2 r.1
    else reuseLoop f spare a k b h

/-- The second loop (int.go:152-154), with `k` elements left. -/
def zeroLoop (zero : α) (a : Slice) : (k : Nat) → Heap α → Res (Heap α)
  | 0, h => .ok h
  | k + 1, h => do
    let h ← put h a (a.len - (k + 1)) zero
    zeroLoop zero a k h

/-- `FilterIntNoAllocate` (int.go:143-157). -/
def filterReuse (zero : α) (f : α → Bool) (spare : List α) (h : Heap α) (a : Slice) : Res (Heap α × Slice) := do
  let b ← a.upTo 0
  let r ← reuseLoop f spare a a.len b h
  let h ← zeroLoop zero a (a.len - r.2.len) r.1
  .ok (h, r.2)

/-- The loop of `ReverseInt` (int.go:162-165): `k` is the index after the next one. -/
def reverseLoop (a : Slice) : (k : Nat) → Heap α → Res (Heap α)
  | 0, h => .ok h
  | k + 1, h => do
    let h ← swap h a k (a.len - 1 - k)
    reverseLoop a k h

/-- `ReverseInt` (int.go:161-168). -/
def reverse (h : Heap α) (a : Slice) : Res (Heap α × Slice) := do
  let h ← reverseLoop a (a.len / 2) h
  .ok (h, a)

/-- The loop of `ReverseLRInt` (int.go:172-174) and of `Reverse` (generic.go:19-21): the second index is
`right - 1`; `right` rounds suffice. -/
def reverseLRLoop (a : Slice) : (fuel : Nat) → (left right : Nat) → Heap α → Res (Heap α)
  | 0, _, _, h => .ok h
  | fuel + 1, left, right, h =>
    if left + 1 < right then do
      let h ← swap h a left (right - 1)
      reverseLRLoop a fuel (left + 1) (right - 1) h
    else .ok h

/-- `ReverseLRInt` (int.go:171-177). -/
def reverseLR (h : Heap α) (a : Slice) : Res (Heap α × Slice) := do
  let h ← reverseLRLoop a a.len 0 a.len h
  .ok (h, a)

/-- `Reverse` (generic.go:15-24): on a copy. -/
def reversed (h : Heap α) (a : Slice) : Res (Heap α × Slice) :=
  let r := alloc h (read h a)
  reverseLR r.1 r.2

/-- The loop of `ShuffleInt` (int.go:182-185) at index `k`; `random i` is the number that
`rand.Intn(i + 1)` gives. -/
def shuffleLoop (random : Nat → Nat) (a : Slice) : (k : Nat) → Heap α → Res (Heap α)
  | 0, h => .ok h
  | k + 1, h => do
    let h ← swap h a (k + 1) (random (k + 1))
    shuffleLoop random a k h

/-- `ShuffleInt` (int.go:181-188). -/
def shuffle (random : Nat → Nat) (h : Heap α) (a : Slice) : Res (Heap α × Slice) := do
  let h ← shuffleLoop random a (a.len - 1) h
  .ok (h, a)

/-- The loop of `BatchInt` (int.go:200-203); `a[0:size:size]` has its length as capacity. `fuel` rounds. -/
def batchLoop (size : Nat) : (fuel : Nat) → Slice → List Slice
  | 0, a => [a]
  | fuel + 1, a =>
    if size < a.len then
      ⟨a.arr, a.off, size, size⟩ :: batchLoop size fuel ⟨a.arr, a.off + size, a.len - size, a.cap - size⟩
    else [a]

/-- `BatchInt` (int.go:191-206): the capacity is divided by `size`. -/
def batch (a : Slice) (size : Int) : Res (List Slice) :=
  if size < 0 then .err
  else if size = 0 then .panic
  else .ok (batchLoop size.toNat a.len a)

/-- The loop of `DeduplicateInt` (int.go:212-221), with `k` elements left. -/
def dedupLoop [DecidableEq α] (a : Slice) : (k : Nat) → (j : Nat) → Heap α → Res (Heap α × Nat)
  | 0, j, h => .ok (h, j)
  | k + 1, j, h => do
    let x ← get h a j
    let y ← get h a (a.len - (k + 1))
    if x = y then dedupLoop a k j h
    else (do
      let h ← put h a (j + 1) y
      dedupLoop a k (j + 1) h)

/-- `DeduplicateInt` (int.go:209-224); `sort` is what `sort.Ints` makes of the elements. -/
def dedup [DecidableEq α] (sort : List α → List α) (h : Heap α) (a : Slice) : Res (Heap α × Slice) := do
  let h := h.set a.arr (writeAt (arrayOf h a) a.off (sort (read h a)))
  let r ← dedupLoop a (a.len - 1) 0 h
  let s ← a.upTo ((r.2 : Int) + 1)
  .ok (r.1, s)

/-- `Contain` (generic.go:4-11). -/
def contain [DecidableEq α] (item : α) : List α → Bool
  | [] => false
  | v :: vs => if v = item then true else contain item vs

end Tok.SliceUtil
