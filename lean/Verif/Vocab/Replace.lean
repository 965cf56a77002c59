import Verif.Vocab.Model
import Verif.Train.Model

/-!
# Replacing the model of a tokenizer (tokenizer.go: WithModel and the end of Train)
-/

namespace Tok

/-- What a tokenizer's vocabulary queries see of a model: `GetVocab`, `IdToToken` and
`GetVocabSize` of the interface `Model` (tokenizer.go:46-62), as in `VocabState`. -/
structure ModelView where
  vocab : List (Str × Int)
  vocabR : Int → Option Str
  fixedSize : Option Nat

/-- `GetVocabSize` (wordlevel.go:137-139, bpe.go:505-507 take the length of the map). -/
def ModelView.size (m : ModelView) : Nat := m.fixedSize.getD m.vocab.length

/-- A trained BPE model (bpe.go:344-346, 500-507). -/
def bpeView (r : Train.Trained) : ModelView := ⟨r.vocab, r.model.vocabR, none⟩

namespace VocabState

/-- `WithModel` (tokenizer.go:319-321): only the field `model` is replaced. -/
def withModel (T : VocabState) (m : ModelView) : VocabState :=
  { T with vocab := m.vocab, vocabR := m.vocabR, fixedSize := m.fixedSize }

/-- `NewTokenizer` (tokenizer.go:274-285). -/
def newTokenizer (m : ModelView) : VocabState := ⟨m.vocab, m.vocabR, m.fixedSize, [], [], [], [], [], [], []⟩

/-- The end of `Tokenizer.Train` (tokenizer.go:845-850): the trained model replaces the model, and
the special tokens that the trainer returned are added. -/
def afterTrain (T : VocabState) (m : ModelView) (specials : List AddedToken) : Res VocabState := do
  let r ← (T.withModel m).addSpecialTokens specials
  pure r.1

end VocabState
end Tok
