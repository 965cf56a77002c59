import Verif.Encoding.Model

/-!
# Shared backing arrays in `Truncate` and `Pad` (encoding.go:343-406, 554-640, 671-694)

The seven arrays of an encoding are treated alike and each has its own backing array, so the model
follows one of them, of any element type. Arrays are assumed equally long, so that `len(e.Ids)` is
the length of the array followed. A heap is a list of backing arrays; a slice is a window of one.
-/

namespace Tok.Heap

/-- Backing arrays, each of its full capacity. -/
abbrev Heap (α : Type) := List (List α)

/-- A Go slice: backing array, offset and length. Its capacity ends where the array ends. -/
structure Slice where
  arr : Nat
  off : Nat
  len : Nat
  deriving Repr, DecidableEq

/-- The backing array of a slice. -/
def arrayOf (h : Heap α) (s : Slice) : List α := h[s.arr]?.getD []

/-- The elements of a slice. -/
def read (h : Heap α) (s : Slice) : List α := ((arrayOf h s).drop s.off).take s.len

/-- Overwrite the elements of an array from `i` on. -/
def writeAt (l : List α) (i : Nat) : List α → List α
  | [] => l
  | v :: vs => writeAt (l.set i v) (i + 1) vs

/-- `append(s, vs...)`: in place if the capacity suffices, else into a new array. `spare` is the
further capacity the runtime gives, any list. -/
def append (spare : List α) (h : Heap α) (s : Slice) (vs : List α) : Heap α × Slice :=
  if s.off + s.len + vs.length ≤ (arrayOf h s).length then
    (h.set s.arr (writeAt (arrayOf h s) (s.off + s.len) vs), { s with len := s.len + vs.length })
  else
    (h ++ [read h s ++ vs ++ spare], ⟨h.length, 0, s.len + vs.length⟩)

/-- `s[a:b]` for `a ≤ b` within the length. -/
def sub (s : Slice) (a b : Nat) : Slice := ⟨s.arr, s.off + a, b - a⟩

/-- `getCurrentPart` (encoding.go:671-694) for `size > 0` and indexes that are not negative. -/
def part (spare : List α) (h : Heap α) (previous current : Slice) (size i stride : Nat) : Heap α × Slice :=
  let stride := if previous.len < stride then previous.len else stride
  let start := i * size
  if start ≥ current.len then (h, sub previous (previous.len - stride) previous.len)
  else
    let stop := if (i + 1) * size > current.len then current.len else (i + 1) * size
    append spare h (sub previous (previous.len - stride) previous.len) (read h (sub current start stop))

/-- The loop of `Truncate` (encoding.go:386-401); `len(oIds)` rounds suffice. -/
def truncateLoop (spare : List α) (o : Slice) (size stride : Nat) :
    (fuel : Nat) → (i : Nat) → (prev : Slice) → Heap α → Heap α × List Slice
  | 0, _, _, h => (h, [])
  | fuel + 1, i, prev, h =>
    if size * i < o.len then
      let r := part spare h prev o size i stride
      let rest := truncateLoop spare o size stride fuel (i + 1) r.2 r.1
      (rest.1, r.2 :: rest.2)
    else (h, [])

/-- `Truncate` (encoding.go:343-406) on one array longer than `maxLen`, with `stride < maxLen`:
heap, kept slice, overflowing slices. -/
def truncate (spare : List α) (h : Heap α) (s : Slice) (maxLen stride : Nat) : Heap α × Slice × List Slice :=
  let kept := sub s 0 maxLen
  let o := sub s maxLen s.len
  let r := truncateLoop spare o (maxLen - stride) stride o.len 0 kept h
  (r.1, kept, r.2)

/-- The loop of `pad` to the right (encoding.go:628-636). -/
def padLoop (spare : List α) (v : α) : Nat → Heap α → Slice → Heap α × Slice
  | 0, h, s => (h, s)
  | n + 1, h, s =>
    let r := append spare h s [v]
    padLoop spare v n r.1 r.2

/-- `pad` to the right (encoding.go:573-640). -/
def pad1 (spare : List α) (v : α) (target : Nat) (h : Heap α) (s : Slice) : Heap α × Slice :=
  padLoop spare v (target - s.len) h s

/-- The loop of `Pad` over the overflowing parts (encoding.go:557-560). -/
def padParts (spare : List α) (v : α) (target : Nat) : Heap α → List Slice → Heap α × List Slice
  | h, [] => (h, [])
  | h, s :: ss =>
    let r := pad1 spare v target h s
    let rest := padParts spare v target r.1 ss
    (rest.1, r.2 :: rest.2)

/-- `Pad` to the right (encoding.go:554-571): the parts first, then the encoding itself. -/
def padAll (spare : List α) (v : α) (target : Nat) (h : Heap α) (kept : Slice) (parts : List Slice) :
    Heap α × Slice × List Slice :=
  let r := padParts spare v target h parts
  if kept.len ≥ target then (r.1, kept, r.2)
  else
    let k := pad1 spare v target r.1 kept
    (k.1, k.2, r.2)

end Tok.Heap
