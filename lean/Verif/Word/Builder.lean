import Verif.Go
import Verif.GoMap
import Verif.Word.Model

/-!
# The builders of WordLevel and WordPiece (wordlevel.go:13-64, wordpiece.go:25-110)

A map is an association list in which every key is once, `none` is the nil map. Iteration is in an
arbitrary order, which the functions take as a list.
-/

namespace Tok

/-- The loop that inverts a vocabulary (wordlevel.go:54-57, wordpiece.go:98-101), in the order of the
iteration. -/
def invertVocab (order : List (Str × Int)) : List (Int × Str) :=
  order.foldl (fun r p => mset r p.2 p.1) []

/-- The configuration of `WordLevelBuilder` (wordlevel.go:13-16). -/
structure WlConfig where
  vocab : Option (List (Str × Int))
  unk : Str

/-- The calls on a `WordLevelBuilder` (wordlevel.go:42, 47). -/
inductive WlCall where
  | vocab (v : Option (List (Str × Int)))
  | unkToken (u : Str)

/-- `NewWordLevelBuilder` (wordlevel.go:24-39). -/
def newWlBuilder : WlConfig := ⟨some [("<unk>".toList, 0)], "<unk>".toList⟩

/-- `Vocab` (wordlevel.go:42-44) and `UnkToken` (wordlevel.go:47-50), which writes into the map; writing
into a nil map panics. -/
def wlCall (c : WlConfig) : WlCall → Res WlConfig
  | .vocab v => .ok { c with vocab := v }
  | .unkToken u =>
    match c.vocab with
    | none => .panic
    | some v => .ok ⟨some (mset v u v.length), u⟩

/-- Calls one after another on the same builder, whose methods have pointer receivers (wordlevel.go:42, 47). -/
def wlCalls (c : WlConfig) : List WlCall → Res WlConfig
  | [] => .ok c
  | k :: ks => do
    let c' ← wlCall c k
    wlCalls c' ks

/-- The entries of the map of a configuration; a nil map has none (wordlevel.go:55). -/
def WlConfig.entries (c : WlConfig) : List (Str × Int) := c.vocab.getD []

/-- A WordLevel model (wordlevel.go:69-73). -/
structure WlModel where
  vocab : List (Str × Int)
  vocabR : List (Int × Str)
  unk : Str

/-- `Build` (wordlevel.go:53-64); `order` is the order of the iteration. -/
def wlBuild (c : WlConfig) (order : List (Str × Int)) : WlModel := ⟨c.entries, invertVocab order, c.unk⟩

/-- `NewWordLevel` (wordlevel.go:113-126). -/
def newWordLevel : WlModel := ⟨[("<unk>".toList, 0)], [(0, "<unk>".toList)], "<unk>".toList⟩

/-- `TokenToId` (wordlevel.go:170-173). -/
def WlModel.tokenToId (m : WlModel) (t : Str) : Option Int := mget m.vocab t

/-- `IdToToken` (wordlevel.go:176-179). -/
def WlModel.idToToken (m : WlModel) (i : Int) : Option Str := mget m.vocabR i

/-- `Tokenize` (wordlevel.go:142-167). -/
def WlModel.tokenize (m : WlModel) (w : Str) : Res (List Token) := wordLevelTokenize (mget m.vocab) m.unk w

end Tok
