import Verif.Unigram.Model
import Verif.GoMap

/-!
# Building a Unigram model (model/unigram/unigram.go)
-/

namespace Tok

namespace Unigram

variable {K : Type} [AddCommGroup K] [LinearOrder K]

/-- `Build` (unigram.go:92-114): the only test is that the unknown id is below the size. The map
`tokenToIDs` is `getVocab` below. -/
def build (vocab : List (Bytes × K)) (unkId : Option Int) (bytesFallback fuseUnk : Bool)
    (bonus penalty : K) : Res (Unigram K) :=
  let u : Unigram K := ⟨vocab, unkId, bytesFallback, fuseUnk, bonus, penalty⟩
  match unkId with
  | some i => if i ≥ (vocab.length : Int) then .err else .ok u
  | none => .ok u

/-- `Config` (unigram.go:29-36) without its cache, which `Build` does not use. -/
structure UgConfig (K : Type) where
  vocab : List (Bytes × K)
  unkId : Option Int
  bytesFallback : Bool
  fuseUnk : Bool

/-- The methods of `UnigramBuilder` (unigram.go:68-89). -/
inductive UgCall (K : Type) where
  | vocab (v : List (Bytes × K))
  | unkId (i : Int)
  | bytesFallback (b : Bool)
  | fuseUnk (b : Bool)

/-- `NewUnigramBuilder` (unigram.go:55-65). -/
def newUnigramBuilder : UgConfig K := ⟨[], none, false, true⟩

/-- What a method does to the configuration (unigram.go:68-89). -/
def ugCall (c : UgConfig K) : UgCall K → UgConfig K
  | .vocab v => { c with vocab := v }
  | .unkId i => { c with unkId := some i }
  | .bytesFallback b => { c with bytesFallback := b }
  | .fuseUnk b => { c with fuseUnk := b }

/-- `Build` (unigram.go:92-114) on the configuration of a builder. -/
def ugBuild (c : UgConfig K) (bonus penalty : K) : Res (Unigram K) :=
  build c.vocab c.unkId c.bytesFallback c.fuseUnk bonus penalty

/-- The loop filling `tokenToIDs` (unigram.go:94-97), from index `i`. -/
def vocabLoop : Nat → List (Bytes × K) → List (Bytes × Nat) → List (Bytes × Nat)
  | _, [], m => m
  | i, ts :: rest, m => vocabLoop (i + 1) rest (mset m ts.1 i)

/-- `GetVocab` (unigram.go:153-155): the map `tokenToIDs`. -/
def getVocab (u : Unigram K) : List (Bytes × Nat) := vocabLoop 0 u.vocab []

/-- `GetVocabSize` (unigram.go:158-160). -/
def getVocabSize (u : Unigram K) : Nat := u.vocab.length

end Unigram

end Tok
