import Verif.Unigram.Model
import Verif.Concurrency.Star

/-!
# The Unigram model with its own map and its cache (model/unigram/unigram.go:246-518)

`Model.lean` looks tokens up in the vocabulary the model was built from. `GetVocab` gives the map
`tokenToIDs` itself away (unigram.go:153-155), so here the map is a parameter `ids`, and an id in it may
be out of the range of `vocab`.

The cache is `patrickmn/go-cache`, which is not part of the repository: `Get` finds an entry until its
time is over, `Set` stores with an end time, the janitor removes entries whose time is over. Times are in
nanoseconds.
-/

namespace Tok.Unigram

variable {K : Type} [AddCommGroup K] [LinearOrder K]

/-- One iteration over `j` (unigram.go:360-394) with the lookup `u.vocab[id]` (unigram.go:373). -/
def tryLenM (u : Unigram K) (ids : Bytes → Option Int) (rest : Bytes) (i : Nat) (base : K)
    (st : Lattice K × Bool) (l : Nat) : Res (Lattice K × Bool) :=
  match ids (rest.take l) with
  | none => .ok st
  | some id => do
    let ts ← idx u.vocab id
    .ok (relax st.1 i (i + l) (base + ts.2 + l • u.bonus) id, if l = charLen rest then true else st.2)

/-- The inner loop (unigram.go:360-394). -/
def tryLensM (u : Unigram K) (ids : Bytes → Option Int) (rest : Bytes) (i : Nat) (base : K) :
    List Nat → Lattice K × Bool → Res (Lattice K × Bool)
  | [], st => .ok st
  | l :: ls, st => do
    let st' ← tryLenM u ids rest i base st l
    tryLensM u ids rest i base ls st'

/-- The body of the loop over `i` (unigram.go:335-408). -/
def positionM (u : Unigram K) (ids : Bytes → Option Int) (seq : Bytes) (lat : Lattice K) (i : Nat) :
    Res (Lattice K) :=
  match lat i with
  | none => .ok lat
  | some c => do
    let n := seq.length
    let maxLen := if i + 20 > n then n - i else 20
    let rest := seq.drop i
    let st ← tryLensM u ids rest i c.1 (List.range' 1 maxLen) (lat, false)
    .ok (match st.2, u.unkId with
      | false, some uid =>
        if i + charLen rest ≤ n then relax st.1 i (i + charLen rest) (c.1 + u.unkScore) uid else st.1
      | _, _ => st.1)

/-- The loop over `i` (unigram.go:334-409). -/
def positionsM (u : Unigram K) (ids : Bytes → Option Int) (seq : Bytes) :
    List Nat → Lattice K → Res (Lattice K)
  | [], lat => .ok lat
  | i :: is, lat => do
    let lat' ← positionM u ids seq lat i
    positionsM u ids seq is lat'

/-- `tokenizeWithByteFallback` (unigram.go:490-518). -/
def byteFallbackM (u : Unigram K) (ids : Bytes → Option Int) (seq : Bytes) : List Bytes :=
  seq.map fun b =>
    match ids (byteToken b), u.unkId with
    | some _, _ => byteToken b
    | none, some uid => (u.idToToken uid).getD []
    | none, none => byteToken b

/-- `tokenizeWithViterbi` (unigram.go:304-487). -/
def viterbiM (u : Unigram K) (ids : Bytes → Option Int) (seq : Bytes) : Res (List Bytes) :=
  if seq.length = 0 then .ok []
  else do
    let lat ← positionsM u ids seq (List.range seq.length) initLattice
    match lat seq.length with
    | none =>
      if u.unkId.isSome then .ok [seq]
      else if u.bytesFallback then .ok (byteFallbackM u ids seq)
      else .err
    | some _ =>
      match u.fuseUnk, u.unkId with
      | true, some uid => backtrackFuse lat seq uid (seq.length + 1) seq.length [] []
      | _, _ => backtrack lat seq (seq.length + 1) seq.length []

/-- `tokensToTokenizer` (unigram.go:273-301), from byte `offset`. -/
def toTokensM (u : Unigram K) (ids : Bytes → Option Int) : Nat → List Bytes → List (Int × Bytes × Nat × Nat)
  | _, [] => []
  | offset, t :: ts =>
    match ids t, u.unkId with
    | some id, _ => (id, t, offset, offset + t.length) :: toTokensM u ids (offset + t.length) ts
    | none, some uid => (uid, t, offset, offset + t.length) :: toTokensM u ids (offset + t.length) ts
    | none, none => toTokensM u ids (offset + t.length) ts

/-- The texts of the pieces, which `Tokenize` keeps in the cache (unigram.go:255-267). -/
def piecesM (u : Unigram K) (ids : Bytes → Option Int) (seq : Bytes) : Res (List Bytes) :=
  if u.bytesFallback then .ok (byteFallbackM u ids seq) else viterbiM u ids seq

/-- `Tokenize` (unigram.go:246-270) for a text that is not in the cache. -/
def tokenizeM (u : Unigram K) (ids : Bytes → Option Int) (seq : Bytes) : Res (List (Int × Bytes × Nat × Nat)) := do
  let ts ← piecesM u ids seq
  .ok (toTokensM u ids 0 ts)

/-! ### The cache -/

/-- An entry of the cache: text, pieces, and when its time is over. -/
structure Item where
  text : Bytes
  pieces : List Bytes
  ends : Nat

/-- `Get` of the cache at the time `now` (unigram.go:248): an entry whose time is over is not found. -/
def cacheGet (items : List Item) (now : Nat) (seq : Bytes) : Option (List Bytes) :=
  match items.find? (fun e => e.text == seq) with
  | none => none
  | some e => if now > e.ends then none else some e.pieces

/-- `Set` of the cache (unigram.go:257, 267). -/
def cacheSet (items : List Item) (now : Nat) (seq : Bytes) (pieces : List Bytes) (time : Nat) : List Item :=
  ⟨seq, pieces, now + time⟩ :: items.filter (fun e => e.text != seq)

/-- The time `Tokenize` gives an entry: five minutes with byte fallback (unigram.go:257), and the plain
number 5, which is five nanoseconds, without (unigram.go:267). -/
def keepTime (u : Unigram K) : Nat := if u.bytesFallback then 5 * 60 * 1000000000 else 5

/-- `Tokenize` (unigram.go:246-270) at the time `now`, all in one step. -/
def tokenizeCached (u : Unigram K) (ids : Bytes → Option Int) (items : List Item) (now : Nat) (seq : Bytes) :
    Res (List (Int × Bytes × Nat × Nat)) × List Item :=
  match cacheGet items now seq with
  | some ts => (.ok (toTokensM u ids 0 ts), items)
  | none =>
    match piecesM u ids seq with
    | .ok ts => (.ok (toTokensM u ids 0 ts), cacheSet items now seq ts (keepTime u))
    | .err => (.err, items)
    | .panic => (.panic, items)

/-- The shared cache, the time, what each goroutine is computing after it found nothing in the cache, and
the calls that have returned, with their results. -/
structure TimedState where
  items : List Item
  now : Nat
  busy : Nat → Option Bytes
  log : List (Bytes × Res (List (Int × Bytes × Nat × Nat)))

/-- One atomic step: the `Get` of a call (found: it returns), the `Set` and return of a call that found
nothing or its error, time that goes by, and the janitor (unigram.go:246-270). -/
inductive TimedStep (u : Unigram K) (ids : Bytes → Option Int) : TimedState → TimedState → Prop
  | hit (s : TimedState) (t : Nat) (seq : Bytes) (ts : List Bytes) (hb : s.busy t = none)
      (h : cacheGet s.items s.now seq = some ts) :
      TimedStep u ids s { s with log := (seq, .ok (toTokensM u ids 0 ts)) :: s.log }
  | miss (s : TimedState) (t : Nat) (seq : Bytes) (hb : s.busy t = none)
      (h : cacheGet s.items s.now seq = none) :
      TimedStep u ids s { s with busy := fun v => if v = t then some seq else s.busy v }
  | finish (s : TimedState) (t : Nat) (seq : Bytes) (ts : List Bytes) (hb : s.busy t = some seq)
      (h : piecesM u ids seq = .ok ts) :
      TimedStep u ids s
        { s with
          items := cacheSet s.items s.now seq ts (keepTime u)
          busy := fun v => if v = t then none else s.busy v
          log := (seq, .ok (toTokensM u ids 0 ts)) :: s.log }
  | fail (s : TimedState) (t : Nat) (seq : Bytes) (hb : s.busy t = some seq) (h : piecesM u ids seq = .err) :
      TimedStep u ids s
        { s with busy := fun v => if v = t then none else s.busy v, log := (seq, .err) :: s.log }
  | tick (s : TimedState) (d : Nat) : TimedStep u ids s { s with now := s.now + d }
  | clean (s : TimedState) : TimedStep u ids s { s with items := s.items.filter (fun e => s.now ≤ e.ends) }

end Tok.Unigram
