import Verif.Utf8
import Verif.Encoding.Model
import Mathlib.Algebra.Order.Group.Defs

/-!
# The Unigram model (model/unigram/unigram.go)

Strings are byte lists.  Scores are `float64` in the code; here they are any linearly ordered
commutative group, so rounding, NaN and infinite scores in the vocabulary are not modelled.
The lattice array is a function from positions; all indices used are between 0 and `n`.
The time-limited result cache (go-cache) is in Cache.lean.
-/

namespace Tok

abbrev Bytes := List UInt8

/-- The fields of `Unigram` (unigram.go:39-47), with the constants 0.1 (`lengthBonus` per
byte, unigram.go:378) and 10.0 (`kUnkPenalty`, unigram.go:330) as `bonus` and `penalty`. -/
structure Unigram (K : Type) where
  vocab : List (Bytes × K)
  unkId : Option Int
  bytesFallback : Bool
  fuseUnk : Bool
  bonus : K
  penalty : K

namespace Unigram

variable {K : Type} [AddCommGroup K] [LinearOrder K]

/-- `TokenToId` (unigram.go:163-166) on the map made by `Build` (unigram.go:94-97), where a later
entry overwrites an earlier one: the last index with this token. -/
def tokenToId (u : Unigram K) (t : Bytes) : Option Nat :=
  (u.vocab.zipIdx.reverse.find? (fun p => p.1.1 == t)).map (·.2)

/-- `IdToToken` (unigram.go:186-191). -/
def idToToken (u : Unigram K) (id : Int) : Option Bytes :=
  if id < 0 then none else (u.vocab[id.toNat]?).map (·.1)

/-- `u.vocab[id].Score`; the ids come from `tokenToId` and are in range. -/
def scoreOf (u : Unigram K) (id : Nat) : K := ((u.vocab[id]?).map (·.2)).getD 0

/-- `getMinScore` (unigram.go:170-182). -/
def minScore (u : Unigram K) : K :=
  match u.vocab with
  | [] => 0
  | x :: _ => u.vocab.foldl (fun m ts => if ts.2 < m then ts.2 else m) x.2

/-- `unkScore` (unigram.go:330-331). -/
def unkScore (u : Unigram K) : K := u.minScore - u.penalty

/-- A lattice node: best score, where its last piece begins, id of that piece; `none` is the
score of minus infinity. -/
abbrev Lattice (K : Type) := Nat → Option (K × Nat × Int)

/-- The update `if newScore > lattice[j].bestScore` (unigram.go:384-388, 402-406). -/
def relax (lat : Lattice K) (i j : Nat) (s : K) (id : Int) : Lattice K :=
  match lat j with
  | none => fun k => if k = j then some (s, i, id) else lat k
  | some c => if c.1 < s then fun k => if k = j then some (s, i, id) else lat k else lat

/-- `charLen` (unigram.go:351-355): `utf8.RuneLen` of the decoded rune, 3 for an invalid one. -/
def charLen (rest : Bytes) : Nat :=
  match decodeRune rest with
  | some c => c.utf8Size
  | none => 3

/-- One iteration over `j = i + l` (unigram.go:360-394); the state also carries
`hasSingleNode`. `lattice[i]` is not changed by these updates, so it is read once. -/
def tryLen (u : Unigram K) (rest : Bytes) (i : Nat) (base : K) (st : Lattice K × Bool) (l : Nat) :
    Lattice K × Bool :=
  match u.tokenToId (rest.take l) with
  | none => st
  | some id =>
    (relax st.1 i (i + l) (base + u.scoreOf id + l • u.bonus) id,
      if l = charLen rest then true else st.2)

/-- The body of the loop over `i` (unigram.go:335-408). -/
def position (u : Unigram K) (seq : Bytes) (lat : Lattice K) (i : Nat) : Lattice K :=
  match lat i with
  | none => lat
  | some c =>
    let n := seq.length
    let maxLen := if i + 20 > n then n - i else 20
    let rest := seq.drop i
    let st := (List.range' 1 maxLen).foldl (tryLen u rest i c.1) (lat, false)
    match st.2, u.unkId with
    | false, some uid =>
      if i + charLen rest ≤ n then relax st.1 i (i + charLen rest) (c.1 + u.unkScore) uid else st.1
    | _, _ => st.1

/-- The lattice before the loop (unigram.go:319-327). -/
def initLattice : Lattice K := fun k => if k = 0 then some (0, 0, -1) else none

/-- The lattice after the loop over `i` (unigram.go:334-409). -/
def lattice (u : Unigram K) (seq : Bytes) : Lattice K :=
  (List.range seq.length).foldl (position u seq) initLattice

/-- Backtracking without fusing (unigram.go:468-486); `err` is the "invalid backtracking index".
The first argument bounds the iterations. -/
def backtrack (lat : Lattice K) (seq : Bytes) : Nat → Nat → List Bytes → Res (List Bytes)
  | 0, _, _ => .err
  | fuel + 1, pos, tokens =>
    if pos > 0 then
      match lat pos with
      | none => .err
      | some c => backtrack lat seq fuel c.2.1 ((seq.take pos).drop c.2.1 :: tokens)
    else .ok tokens

/-- Backtracking with fusing (unigram.go:427-467). -/
def backtrackFuse (lat : Lattice K) (seq : Bytes) (uid : Int) :
    Nat → Nat → List Bytes → List Bytes → Res (List Bytes)
  | 0, _, _, _ => .err
  | fuel + 1, pos, tokens, unks =>
    if pos > 0 then
      match lat pos with
      | none => .err
      | some c =>
        if c.2.2 = uid then
          backtrackFuse lat seq uid fuel c.2.1 tokens ((seq.take pos).drop c.2.1 :: unks)
        else
          let tokens' := if unks.length > 0 then unks.flatten :: tokens else tokens
          backtrackFuse lat seq uid fuel c.2.1 ((seq.take pos).drop c.2.1 :: tokens') []
    else .ok (if unks.length > 0 then unks.flatten :: tokens else tokens)

/-- The byte token `<0xHH>` (unigram.go:499): upper-case hexadecimal. -/
def byteToken (b : UInt8) : Bytes :=
  let hex := fun d : Nat => (if d < 10 then 48 + d else 55 + d).toUInt8
  [60, 48, 120, hex (b.toNat / 16), hex (b.toNat % 16), 62]

/-- `tokenizeWithByteFallback` (unigram.go:490-518). -/
def byteFallback (u : Unigram K) (seq : Bytes) : List Bytes :=
  seq.map fun b =>
    match u.tokenToId (byteToken b), u.unkId with
    | some _, _ => byteToken b
    | none, some uid => (u.idToToken uid).getD []
    | none, none => byteToken b

/-- `tokenizeWithViterbi` (unigram.go:304-487). -/
def viterbi (u : Unigram K) (seq : Bytes) : Res (List Bytes) :=
  if seq.length = 0 then .ok []
  else
    let lat := u.lattice seq
    match lat seq.length with
    | none =>
      if u.unkId.isSome then .ok [seq]
      else if u.bytesFallback then .ok (u.byteFallback seq)
      else .err
    | some _ =>
      match u.fuseUnk, u.unkId with
      | true, some uid => backtrackFuse lat seq uid (seq.length + 1) seq.length [] []
      | _, _ => backtrack lat seq (seq.length + 1) seq.length []

/-- `tokensToTokenizer` (unigram.go:273-301), from byte `offset`. -/
def tokensToTokenizer (u : Unigram K) : Nat → List Bytes → List (Int × Bytes × Nat × Nat)
  | _, [] => []
  | offset, t :: ts =>
    match u.tokenToId t, u.unkId with
    | some id, _ => ((id : Int), t, offset, offset + t.length) :: tokensToTokenizer u (offset + t.length) ts
    | none, some uid => (uid, t, offset, offset + t.length) :: tokensToTokenizer u (offset + t.length) ts
    | none, none => tokensToTokenizer u (offset + t.length) ts

/-- `Tokenize` (unigram.go:246-270) without its cache. -/
def tokenize (u : Unigram K) (seq : Bytes) : Res (List (Int × Bytes × Nat × Nat)) :=
  if u.bytesFallback then .ok (u.tokensToTokenizer 0 (u.byteFallback seq))
  else
    match u.viterbi seq with
    | .ok ts => .ok (u.tokensToTokenizer 0 ts)
    | .err => .err
    | .panic => .panic

end Unigram

end Tok
