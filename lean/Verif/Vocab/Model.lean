import Verif.Go
import Verif.GoMap

/-!
# Added vocabulary and vocabulary queries

Mirrors `added-vocabulary.go` and the vocabulary part of `tokenizer.go`.
-/

namespace Tok

/-- `AddedToken` (added-vocabulary.go:21-32). -/
structure AddedToken where
  content : Str
  singleWord : Bool := false
  lstrip : Bool := false
  rstrip : Bool := false
  normalized : Bool := true
  deriving DecidableEq, Repr

/-- A tokenizer's vocabulary state: the fields of `AddedVocabulary`
(added-vocabulary.go:200-218) and what it reads of the model.

The model is seen through `GetVocab` (the map `vocab`, handed out by reference:
bpe.go, wordpiece.go, wordlevel.go, unigram.go `GetVocab`), `IdToToken`
(`vocabR`, a different map or list) and `GetVocabSize`: `len(vocab)` for BPE,
WordPiece and WordLevel (`fixedSize = none`), the length of another list for
Unigram (`fixedSize = some n`).

`specialSet` is the key set of `specialTokensSet`.  The two `matchingSet`s are
kept as the list of (token, id) behind each pattern; the expressions
(`GetPattern`) are modelled apart, in Added/Model.lean. -/
structure VocabState where
  vocab : List (Str × Int)
  vocabR : Int → Option Str
  fixedSize : Option Nat
  added : List (Str × Int) := []
  addedR : List (Int × Str) := []
  addedTokens : List AddedToken := []
  specialTokens : List AddedToken := []
  specialSet : List Str := []
  splitRe : List (AddedToken × Int) := []
  splitNormalizedRe : List (AddedToken × Int) := []

namespace VocabState

/-- `model.GetVocabSize()`. -/
def modelSize (T : VocabState) : Nat := T.fixedSize.getD T.vocab.length

/-- `Tokenizer.GetVocabSize` (tokenizer.go:359-365). -/
def getVocabSize (T : VocabState) (withAdded : Bool) : Nat :=
  if withAdded then T.modelSize + T.added.length else T.modelSize

/-- `AddedVocabulary.TokenToId` (added-vocabulary.go:245-253), also
`Tokenizer.TokenToId` (tokenizer.go:378-381). -/
def tokenToId (T : VocabState) (c : Str) : Option Int :=
  match mget T.added c with
  | some i => some i
  | none => mget T.vocab c

/-- `AddedVocabulary.IdToToken` (added-vocabulary.go:256-263), also
`Tokenizer.IdToToken` (tokenizer.go:384-387). -/
def idToToken (T : VocabState) (i : Int) : Option Str :=
  match mget T.addedR i with
  | some c => some c
  | none => T.vocabR i

/-- `IsSpecialToken` (added-vocabulary.go:266-270). -/
def isSpecial (T : VocabState) (c : Str) : Bool := T.specialSet.contains c

/-- The loop body of `AddTokens` (added-vocabulary.go:291-311); the second
component is `ignored`. -/
def addOne (T : VocabState) (ignored : Nat) (t : AddedToken) : VocabState × Nat :=
  if t.content = [] then (T, ignored + 1)
  else
    match T.tokenToId t.content with
    | some i => ({ T with addedR := mset T.addedR i t.content }, ignored + 1)
    | none =>
      let id : Int := T.modelSize + T.added.length
      ({ T with
          added := mset T.added t.content id
          addedTokens := if T.isSpecial t.content then T.addedTokens else T.addedTokens ++ [t]
          addedR := mset T.addedR id t.content }, ignored)

/-- The loop of `AddTokens` (added-vocabulary.go:291-311). -/
def addLoop (T : VocabState) (ignored : Nat) : List AddedToken → VocabState × Nat
  | [] => (T, ignored)
  | t :: ts => let (T', k) := T.addOne ignored t; addLoop T' k ts

/-- The loop of `refreshAddedTokens` (added-vocabulary.go:333-347): the id of
every registered token; `log.Fatal` when one is missing. -/
def refreshIds (T : VocabState) : List AddedToken → Res (List (AddedToken × Int))
  | [] => .ok []
  | t :: ts =>
    match T.tokenToId t.content with
    | none => .panic
    | some i => do
      let rest ← refreshIds T ts
      pure ((t, i) :: rest)

/-- `refreshAddedTokens` (added-vocabulary.go:329-360). The compilation of the
patterns (always quoted text) is assumed to succeed. -/
def refresh (T : VocabState) : Res VocabState := do
  let l ← T.refreshIds (T.specialTokens ++ T.addedTokens)
  pure { T with
    splitNormalizedRe := l.filter (·.1.normalized)
    splitRe := l.filter (fun p => !p.1.normalized) }

/-- `AddTokens` (added-vocabulary.go:288-318): the new state and the count. -/
def addTokens (T : VocabState) (ts : List AddedToken) : Res (VocabState × Int) := do
  let (T', ignored) := T.addLoop 0 ts
  let T'' ← T'.refresh
  pure (T'', (ts.length : Int) - ignored)

/-- The registration loop of `AddSpecialTokens` (added-vocabulary.go:274-280). -/
def registerSpecial (T : VocabState) : List AddedToken → VocabState
  | [] => T
  | t :: ts =>
    if t.content ≠ [] ∧ T.isSpecial t.content = false then
      registerSpecial { T with specialTokens := T.specialTokens ++ [t]
                               specialSet := T.specialSet ++ [t.content] } ts
    else registerSpecial T ts

/-- `AddSpecialTokens` (added-vocabulary.go:272-284). -/
def addSpecialTokens (T : VocabState) (ts : List AddedToken) : Res (VocabState × Int) :=
  (T.registerSpecial ts).addTokens ts

/-- `Tokenizer.GetSpecialTokens` (tokenizer.go:368-375); `order` is the order in which the loop visits the
set. -/
def getSpecialTokens (_T : VocabState) (order : List Str) : List Str := order

/-- `for k, v := range addedVocab { finalVocab[k] = v }` in the given order. -/
def writeAll (m : List (Str × Int)) : List (Str × Int) → List (Str × Int)
  | [] => m
  | p :: ps => writeAll (mset m p.1 p.2) ps

/-- `Tokenizer.GetVocab` (tokenizer.go:344-356): the returned map *is* the
model's map, so the state changes.  `order` is the order in which the loop
visits the added map. -/
def getVocab (T : VocabState) (withAdded : Bool) (order : List (Str × Int)) :
    VocabState × List (Str × Int) :=
  if withAdded then
    let m := writeAll T.vocab order
    ({ T with vocab := m }, m)
  else (T, T.vocab)

/-- The tokens `Tokenizer.Decode` keeps (tokenizer.go:516-523). -/
def decodeTokens (T : VocabState) (skip : Bool) : List Int → List Str
  | [] => []
  | i :: is =>
    match T.idToToken i with
    | some tok => if !skip || !T.isSpecial tok then tok :: decodeTokens T skip is
                  else decodeTokens T skip is
    | none => decodeTokens T skip is

/-- `strings.Join`. -/
def joinStr (sep : Str) : List Str → Str
  | [] => []
  | [a] => a
  | a :: b :: l => a ++ sep ++ joinStr sep (b :: l)

/-- `Tokenizer.Decode` (tokenizer.go:515-530); `decoder = none` is the nil
decoder. -/
def decode (T : VocabState) (decoder : Option (List Str → Res Str)) (ids : List Int) (skip : Bool) :
    Res Str :=
  let tokens := T.decodeTokens skip ids
  match decoder with
  | some d => d tokens
  | none => .ok (joinStr [' '] tokens)

end VocabState
end Tok
