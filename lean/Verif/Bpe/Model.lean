import Verif.Go

/-!
# BPE words and merging (model/bpe/word.go, model/bpe/bpe.go)

The merge table and the vocabulary are Go maps that are only read here; they are
functions to `Option`.  The priority queue is `binaryheap` of the gods library,
which is not part of the repository: it is a parameter (`Heap`) with the laws of
a priority queue.  The comparator orders by `Rank` and then by `Time`
(word.go:267-279); `Time` is never set, so entries of equal rank compare equal and
the laws leave their order open.
-/

namespace Tok

/-- `PairVal` (word.go:161-164). -/
structure PairVal where
  rank : Int
  newId : Int
  deriving DecidableEq, Repr

/-- `map[Pair]PairVal`, read only. -/
abbrev MergeTable := Int → Int → Option PairVal

/-- `Symbol` (word.go:60-65). `Len` is a sum of byte lengths, hence `Nat`. -/
structure Symbol where
  c : Int
  prev : Int
  next : Int
  len : Nat
  deriving DecidableEq, Repr

/-- `Merge` (word.go:13-18) without `Time`, which is never set. -/
structure MergeE where
  pos : Nat
  rank : Int
  newId : Int
  deriving DecidableEq, Repr

/-- A priority queue on ranks, as used through `queue.Push` and `queue.Pop`. The
list is the internal array; `Ok` is the library's own invariant. -/
structure Heap where
  push : List MergeE → MergeE → List MergeE
  pop : List MergeE → Option (MergeE × List MergeE)
  Ok : List MergeE → Prop
  ok_nil : Ok []
  ok_push : ∀ q m, Ok q → Ok (push q m)
  push_perm : ∀ q m, Ok q → (push q m).Perm (m :: q)
  pop_none : ∀ q, Ok q → (pop q = none ↔ q = [])
  ok_pop : ∀ q m q', Ok q → pop q = some (m, q') → Ok q'
  pop_perm : ∀ q m q', Ok q → pop q = some (m, q') → q.Perm (m :: q')
  pop_min : ∀ q m q', Ok q → pop q = some (m, q') → ∀ e ∈ q, m.rank ≤ e.rank

/-- The loop of `Word.Add` over the old symbols (word.go:127-142): `i` counts up,
`n` is their number. -/
def relink (n i : Nat) : List Symbol → List Symbol
  | [] => []
  | s :: ss =>
    (if i = 0 then { s with next := 1, prev := -1 }
     else if i = n - 1 then { s with next := n, prev := (n : Int) - 2 }
     else s) :: relink n (i + 1) ss

/-- `Word.Add` (word.go:111-153). -/
def wordAdd (ss : List Symbol) (c : Int) (byteLen : Nat) : List Symbol :=
  if ss.length = 0 then [⟨c, -1, -1, byteLen⟩]
  else relink ss.length 0 ss ++ [⟨c, (ss.length : Int) - 1, -1, byteLen⟩]

/-- The symbol of the rune at index `i` of `n` runes (bpe.go:379-413): the prefix goes
on the first rune, the suffix on the rune whose index is the number of runes. -/
def runeText (pre suf : Option Str) (n i : Nat) (r : Char) : Str :=
  if i = 0 then pre.getD [] ++ [r]
  else if i = n then [r] ++ suf.getD []
  else [r]

/-- The loop of `MergeWord` that fills the word (bpe.go:379-413). A missing rune gives
the id of the unknown token, 0 if that is missing too; without an unknown token the
code panics. `Str` input: on invalid UTF-8 the code would count 3 bytes for one. -/
def fillWord (vocab : Str → Option Int) (unk pre suf : Option Str) (n : Nat) :
    Nat → Str → List Symbol → Res (List Symbol)
  | _, [], ss => .ok ss
  | i, r :: rs, ss =>
    match vocab (runeText pre suf n i r) with
    | some id => fillWord vocab unk pre suf n (i + 1) rs (wordAdd ss id r.utf8Size)
    | none =>
      match unk with
      | some u => fillWord vocab unk pre suf n (i + 1) rs
          (wordAdd ss ((vocab u).getD 0) r.utf8Size)
      | none => .panic

/-- Loading the queue (word.go:284-311): one entry per adjacent pair in the table.
`i` is the index of the first symbol. -/
def loadQueue (H : Heap) (merges : MergeTable) : Nat → List Symbol → List MergeE → List MergeE
  | i, a :: b :: ss, q =>
    let q' := match merges a.c b.c with
      | some m => H.push q ⟨i, m.rank, m.newId⟩
      | none => q
    loadQueue H merges (i + 1) (b :: ss) q'
  | _, _, q => q

/-- The push of the pair formed with the previous symbol (word.go:363-377). -/
def pushPrev (H : Heap) (merges : MergeTable) (syms : List Symbol) (cur : Symbol)
    (q : List MergeE) : Res (List MergeE) :=
  if cur.prev ≥ 0 then
    match syms[cur.prev.toNat]? with
    | none => .panic
    | some p =>
      match merges p.c cur.c with
      | some m => .ok (H.push q ⟨cur.prev.toNat, m.rank, m.newId⟩)
      | none => .ok q
  else .ok q

/-- The push of the pair formed with the next symbol (word.go:380-393). -/
def pushNext (H : Heap) (merges : MergeTable) (syms : List Symbol) (pos : Nat) (cur : Symbol)
    (q : List MergeE) : List MergeE :=
  if cur.next < syms.length ∧ cur.next > -1 then
    match syms[cur.next.toNat]? with
    | none => q
    | some n =>
      match merges cur.c n.c with
      | some m => H.push q ⟨pos, m.rank, m.newId⟩
      | none => q
  else q

/-- The body of the popping loop for an entry that is not dropped
(word.go:330-394): the new symbols and queue. Index panics are explicit. -/
def mergeAt (H : Heap) (merges : MergeTable) (syms : List Symbol) (q : List MergeE)
    (top : MergeE) : Res (List Symbol × List MergeE) :=
  match syms[top.pos]? with
  | none => .panic
  | some s =>
    if s.len = 0 then .ok (syms, q)
    else if s.next = -1 then .ok (syms, q)
    else
      match idx syms s.next with
      | .panic => .panic
      | .err => .err
      | .ok right =>
        match merges s.c right.c with
        | none => .ok (syms, q)
        | some m =>
          if m.newId ≠ top.newId then .ok (syms, q)
          else
            let s1 := syms.set top.pos
              { s with c := top.newId, len := s.len + right.len, next := right.next }
            let s2 := s1.modify s.next.toNat (fun t => { t with len := 0 })
            let s3 := if right.next > -1 ∧ right.next < syms.length
              then s2.modify right.next.toNat (fun t => { t with prev := (top.pos : Int) })
              else s2
            match s3[top.pos]? with
            | none => .panic
            | some cur =>
              match pushPrev H merges s3 cur q with
              | .ok q' => .ok (s3, pushNext H merges s3 top.pos cur q')
              | .err => .err
              | .panic => .panic

/-- The popping loop of `MergeAll` (word.go:317-396). `drop n` says whether the `n`-th
random draw is below the dropout probability. Dropped entries go to `skip`, which
is pushed back in full after every draw that is not dropped and is never cleared.
`none`: out of fuel. -/
def mergeLoop (H : Heap) (merges : MergeTable) (drop : Nat → Bool) :
    Nat → Nat → List Symbol → List MergeE → List MergeE → Res (Option (List Symbol))
  | 0, _, _, _, _ => .ok none
  | fuel + 1, n, syms, q, skip =>
    match H.pop q with
    | none => .ok (some syms)
    | some (top, q1) =>
      if drop n then mergeLoop H merges drop fuel (n + 1) syms q1 (skip ++ [top])
      else
        match mergeAt H merges syms (skip.foldl H.push q1) top with
        | .ok r => mergeLoop H merges drop fuel (n + 1) r.1 r.2 skip
        | .err => .err
        | .panic => .panic

/-- `removeSymbols` (word.go:403-411). -/
def removeSymbols (ss : List Symbol) : List Symbol := ss.filter (fun s => s.len ≠ 0)

/-- `MergeAll` (word.go:257-400), with a bound on the number of pops. -/
def mergeAll (H : Heap) (merges : MergeTable) (drop : Nat → Bool) (fuel : Nat)
    (ss : List Symbol) : Res (Option (List Symbol)) :=
  match mergeLoop H merges drop fuel 0 ss (loadQueue H merges 0 ss []) [] with
  | .ok (some r) => .ok (some (removeSymbols r))
  | .ok none => .ok none
  | .err => .err
  | .panic => .panic

/-- The fields of `BPE` that tokenization reads (bpe.go:177-207). -/
structure BpeModel where
  vocab : Str → Option Int
  vocabR : Int → Option Str
  merges : MergeTable
  unk : Option Str
  pre : Option Str
  suf : Option Str

/-- `MergeWord` (bpe.go:359-421). -/
def mergeWord (H : Heap) (b : BpeModel) (drop : Nat → Bool) (fuel : Nat) (w : Str) :
    Res (Option (List Symbol)) :=
  match fillWord b.vocab b.unk b.pre b.suf w.length 0 w [] with
  | .ok ss => mergeAll H b.merges drop fuel ss
  | .err => .err
  | .panic => .panic

/-- `GetOffsets` (word.go:421-433), from byte position `pos`. -/
def getOffsets : Nat → List Symbol → List (Nat × Nat)
  | _, [] => []
  | pos, s :: ss => (pos, pos + s.len) :: getOffsets (pos + s.len) ss

/-- A token of `WordToTokens` (bpe.go:424-451). -/
structure BpeToken where
  id : Int
  value : Str
  offsets : Nat × Nat
  deriving DecidableEq, Repr

/-- `WordToTokens` (bpe.go:424-451); a missing id has the value "". -/
def wordToTokens (b : BpeModel) (ss : List Symbol) : List BpeToken :=
  ((ss.map (·.c)).zip (getOffsets 0 ss)).map (fun p => ⟨p.1, (b.vocabR p.1).getD [], p.2⟩)

end Tok
