import Verif.Slice.Lemmas

/-!
# Iterators, ranges and other helpers of package util (util/iterator.go, rune-reader.go, util.go)

Integers do not overflow. The elements of iterators are read only when asked for; that a caller changes them
meanwhile is left out.
-/

namespace Tok.SliceUtil

/-! ### RuneIter -/

/-- `RuneIter` (iterator.go:4-7). -/
structure RuneIter where
  items : Str
  next : Int
  deriving Repr, DecidableEq

/-- `NewRuneIter` (iterator.go:10-20). -/
def newRuneIter (data : Str) : RuneIter := ⟨data, if data.length > 0 then 0 else -1⟩

/-- `RuneIter.Next` (iterator.go:23-37): `none` for `false`. -/
def RuneIter.step (it : RuneIter) : Res (Option Char × RuneIter) :=
  if it.next = -1 then .ok (none, it)
  else do
    let r ← idx it.items it.next
    if it.next + 1 ≥ it.items.length then .ok (some r, { it with next := -1 })
    else .ok (some r, { it with next := it.next + 1 })

/-- `RuneIter.Len` (iterator.go:40-42). -/
def RuneIter.len (it : RuneIter) : Nat := it.items.length

/-- `RuneIter.CurrentIndex` (iterator.go:45-51). -/
def RuneIter.currentIndex (it : RuneIter) : Int := if it.items.length = 0 then -1 else it.next - 1

/-- `RuneIter.Reset` (iterator.go:54-60). -/
def RuneIter.reset (it : RuneIter) : RuneIter := if it.items.length = 0 then { it with next := -1 } else { it with next := 0 }

/-- `k` calls of `Next`: what they gave, and the iterator. -/
def RuneIter.steps : (k : Nat) → RuneIter → Res (List (Option Char) × RuneIter)
  | 0, it => .ok ([], it)
  | k + 1, it => do
    let r ← it.step
    let rs ← RuneIter.steps k r.2
    .ok (r.1 :: rs.1, rs.2)

/-! ### Iter -/

/-- `Iter` (iterator.go:63-66). -/
structure Iter (α : Type) where
  items : List α
  next : Int

/-- `NewIter` (iterator.go:69-79). -/
def newIter (data : List α) : Iter α := ⟨data, if data.length > 0 then 0 else -1⟩

/-- `Iter.Next` (iterator.go:82-91). -/
def Iter.step (it : Iter α) : Res (Option α × Iter α) :=
  if it.next = -1 ∨ it.next ≥ it.items.length then .ok (none, it)
  else do
    let r ← idx it.items it.next
    .ok (some r, { it with next := it.next + 1 })

/-- `k` calls of `Next`. -/
def Iter.steps : (k : Nat) → Iter α → Res (List (Option α) × Iter α)
  | 0, it => .ok ([], it)
  | k + 1, it => do
    let r ← it.step
    let rs ← Iter.steps k r.2
    .ok (r.1 :: rs.1, rs.2)

/-! ### RuneReader -/

/-- `RuneReader` (rune-reader.go:31-34). -/
structure RuneReader where
  src : Str
  pos : Nat
  deriving Repr, DecidableEq

/-- `NewRuneReader` (rune-reader.go:37-41). -/
def newRuneReader (r : Str) : RuneReader := ⟨r, 0⟩

/-- `RuneReader.ReadRune` (rune-reader.go:44-53): `none` for `io.EOF`. -/
def RuneReader.readRune (r : RuneReader) : Option (Char × Nat) × RuneReader :=
  match r.src[r.pos]? with
  | none => (none, r)
  | some c => (some (c, 1), { r with pos := r.pos + 1 })

/-- `k` calls of `ReadRune`. -/
def RuneReader.reads : (k : Nat) → RuneReader → List (Option (Char × Nat)) × RuneReader
  | 0, r => ([], r)
  | k + 1, r =>
    let x := r.readRune
    let xs := RuneReader.reads k x.2
    (x.1 :: xs.1, xs.2)

/-! ### util.go -/

/-- The loop of `MakeRange` (util.go:37-39), with `k` rounds left: it appends `start`. -/
def makeRangeLoop (start : Int) : (k : Nat) → List Int → List Int
  | 0, r => r
  | k + 1, r => makeRangeLoop start k (r ++ [start])

/-- `MakeRange` (util.go:31-43). -/
def makeRange (start stop : Int) : List Int :=
  if stop = start then [] else makeRangeLoop start (stop - start).toNat []

/-- The loop of `MinMax` (util.go:98-105). -/
def minMaxLoop : List Int → (min max : Int) → Int × Int
  | [], min, max => (min, max)
  | v :: vs, min, max => minMaxLoop vs (if min > v then v else min) (if max < v then v else max)

/-- `MinMax` (util.go:95-107). -/
def minMax (array : List Int) : Res (Int × Int) :=
  match array with
  | [] => .panic
  | v :: _ => .ok (minMaxLoop array v v)

/-- `ReadAllLn` (util.go:131-153) of a file whose lines, as `bufio.Scanner` gives them, are `lines`. -/
def readAllLn (keepBreakLine : Bool) : List Str → List Str
  | [] => []
  | l :: ls => (if keepBreakLine then [l ++ ['\n']] else []) ++ l :: readAllLn keepBreakLine ls

/-- The loop of `Zip` (util.go:211-217) at index `i`, with `k` rounds left. -/
def zipLoop (a b : List α) : (k i : Nat) → List (α × α) → Res (List (α × α))
  | 0, _, c => .ok c
  | k + 1, i, c => do
    let x ← idx a i
    let y ← idx b i
    zipLoop a b k (i + 1) (c ++ [(x, y)])

/-- `Zip` (util.go:171-220) of slices of the same type, into a slice of pairs of it that has the pairs `c`. -/
def zip (a b : List α) (c : List (α × α)) : Res (List (α × α)) :=
  if a.length ≠ b.length then .err else zipLoop a b a.length 0 c

/-- The loop of `Repeat` (util.go:251-253), with `k` rounds left. -/
def repeatLoop (item : α) : (k : Nat) → List α → List α
  | 0, items => items
  | k + 1, items => repeatLoop item k (items ++ [item])

/-- `Repeat` (util.go:249-256). -/
def repeatItem (item : α) (length : Int) : List α := repeatLoop item length.toNat []

/-- `Merge` (util.go:261-275): `none` for nil. `zero` is the zero value of `make`, which `copy` overwrites. That
both are nil is a case of both being empty. -/
def merge (spare : List α) (zero : α) (h : Heap α) (a b : Slice) : Heap α × Option Slice :=
  let out := alloc h (writeAt (List.replicate (a.len + b.len) zero) 0 (read h a))
  let r := append spare out.1 { out.2 with len := a.len } (read out.1 b)
  if r.2.len = 0 then (r.1, none) else (r.1, some r.2)

/-- `CastSlice` (util.go:294-305); `cast` is `none` where the value has another type, and the assertion panics. -/
def castSlice (cast : β → Option α) : List β → Res (List α)
  | [] => .ok []
  | v :: vs =>
    match cast v with
    | none => .panic
    | some x => do
      let xs ← castSlice cast vs
      .ok (x :: xs)

end Tok.SliceUtil
