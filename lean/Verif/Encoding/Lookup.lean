import Verif.Encoding.Model

/-!
# Model of the lookup methods of `encoding.go`

A Go result `(value, ok)` whose value is meaningless when `ok` is false is an
`Option`.
-/

namespace Tok

/-- encoding.go:274-278: index of the first entry equal to `word`. -/
def firstIndex (word : Int) : Nat → List Int → Option Nat
  | _, [] => none
  | i, w :: ws => if w = word then some i else firstIndex word (i + 1) ws

/-- encoding.go:264-287 `Word2Tokens`, as the triple `(startTok, endTok, ok)`. -/
def Encoding.word2Tokens (e : Encoding) (word : Int) : Nat × Nat × Bool :=
  let inRange := e.words.filter (fun w => w ≤ word)
  match firstIndex word 0 inRange with
  | some start => (start, inRange.length, true)
  | none => (0, 0, false)

/-- encoding.go:291-300 `Word2Chars`. -/
def Encoding.word2Chars (e : Encoding) (word : Int) : Res (Option (Int × Int)) :=
  let (start, stop, _) := e.word2Tokens word
  if stop = 0 then .ok none
  else do
    let a ← idx e.offsets start
    let b ← idx e.offsets ((stop : Int) - 1)
    .ok (some (a.1, b.2))

/-- encoding.go:303-309 `Token2Chars`. -/
def Encoding.token2Chars (e : Encoding) (tokenIdx : Int) : Res (Option (Int × Int)) :=
  if tokenIdx < 0 ∨ tokenIdx > e.offsets.length then .ok none
  else do
    let o ← idx e.offsets tokenIdx
    .ok (some o)

/-- encoding.go:314-319, the loop of `Token2Word`. -/
def token2WordLoop (tokenIdx : Int) : Nat → List Int → Option Int
  | _, [] => none
  | i, w :: ws => if (i : Int) = tokenIdx then some w else token2WordLoop tokenIdx (i + 1) ws

/-- encoding.go:312-320 `Token2Word`. -/
def Encoding.token2Word (e : Encoding) (tokenIdx : Int) : Option Int :=
  token2WordLoop tokenIdx 0 e.words

/-- encoding.go:324-328, the loop of `Char2Token`. -/
def char2TokenLoop (pos : Int) : Nat → List (Int × Int) → Option Nat
  | _, [] => none
  | i, o :: os => if pos ≥ o.1 ∧ pos < o.2 then some i else char2TokenLoop pos (i + 1) os

/-- encoding.go:323-331 `Char2Token`. -/
def Encoding.char2Token (e : Encoding) (pos : Int) : Option Nat :=
  char2TokenLoop pos 0 e.offsets

/-- encoding.go:334-340 `Char2Word`. -/
def Encoding.char2Word (e : Encoding) (pos : Int) : Option Int :=
  match e.char2Token pos with
  | some i => e.token2Word i
  | none => none

/-- encoding.go:157-163 `NSequences`. -/
def Encoding.nSequences (e : Encoding) : Nat :=
  match e.ranges with
  | none => 1
  | some l => if l.length = 0 then 1 else l.length

/-- encoding.go:193-207, one round of `GetSequenceIds`.  `append(before, a...)`
writes in place, so `after` (which starts at the *last* position of the range)
sees the write.  Simplified: when the write would pass the length (never for
ranges inside the encoding) it is taken to reallocate. -/
def sequenceIdsStep (seqId : Int) (r : Range) (sequences : List Int) : Res (List Int) := do
  let start ← idx r 0
  let stop ← idx r ((r.length : Int) - 1)
  let a := List.replicate r.length seqId
  if start < 0 ∨ start > sequences.length ∨ stop < 0 ∨ stop > sequences.length then .panic
  else
    let before := sequences.take start.toNat
    let backing :=
      if start.toNat + r.length ≤ sequences.length then
        before ++ a ++ sequences.drop (start.toNat + r.length)
      else sequences
    .ok (before ++ a ++ backing.drop stop.toNat)

/-- encoding.go:193-207, the loop of `GetSequenceIds`, `n` rounds from `seqId`. -/
def sequenceIdsLoop (m : Option (List (Int × Range))) :
    (n : Nat) → (seqId : Int) → List Int → Res (List Int)
  | 0, _, sequences => .ok sequences
  | n + 1, seqId, sequences => do
    let sequences ← sequenceIdsStep seqId ((rangesGet m seqId).getD []) sequences
    sequenceIdsLoop m n (seqId + 1) sequences

/-- encoding.go:191-210 `GetSequenceIds`. -/
def Encoding.getSequenceIds (e : Encoding) : Res (List Int) :=
  sequenceIdsLoop e.ranges e.nSequences 0 (List.replicate e.ids.length 0)

/-- encoding.go:643-657 `Token2Sequence`; the list order of `ranges` is the
order in which the map is visited. -/
def Encoding.token2Sequence (e : Encoding) (token : Int) : Option Int :=
  if token > e.ids.length then none
  else match e.ranges with
    | none => some 0
    | some [] => some 0
    | some l => (l.find? (fun p => p.2.contains token)).map (·.1)

/-- encoding.go:661-669 `SequenceRange`.  `r[0:e.Len()]` may extend a slice into
its spare capacity: `spare` is what the backing array holds after `r`. -/
def Encoding.sequenceRange (e : Encoding) (sequenceId : Int) (spare : List Int) : Res Range :=
  match rangesGet e.ranges sequenceId with
  | none => .err
  | some r =>
    if e.ids.length ≤ (r ++ spare).length then .ok ((r ++ spare).take e.ids.length) else .panic

end Tok
