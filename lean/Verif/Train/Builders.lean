import Verif.Train.Model

/-!
# The builders of trainers (model/bpe/trainer.go:32-120, model/wordpiece/trainer.go:10-96)

A `BpeTrainerBuilder` is used through a pointer. A `WordPieceTrainerBuilder` is a value, but it holds a
`BpeTrainerBuilder`, which holds a pointer to its configuration (trainer.go:48-50): copies of it share the
configuration. So a WordPiece builder is the place of its configuration in a store. Whether progress is
shown has no effect on the model and is left out of the configuration, as in `Cfg`.
-/

namespace Tok.Train

/-- The methods of the builders (model/bpe/trainer.go:69-106, model/wordpiece/trainer.go:25-78). -/
inductive TCall where
  | minFrequency (n : Int)
  | vocabSize (n : Int)
  | showProgress (b : Bool)
  | specialTokens (l : List Str)
  | limitAlphabet (n : Nat)
  | initialAlphabet (l : List Str)
  | continuingSubwordPrefix (s : Str)
  | endOfWordSuffix (s : Str)

/-- `NewBPETrainerBuilder` (model/bpe/trainer.go:52-66). -/
def newTrainerBuilder : Cfg := ⟨0, 30000, [], none, [], none, none⟩

/-- What a method does to the configuration (model/bpe/trainer.go:69-106). -/
def tCall (c : Cfg) : TCall → Cfg
  | .minFrequency n => { c with minFrequency := n }
  | .vocabSize n => { c with vocabSize := n }
  | .showProgress _ => c
  | .specialTokens l => { c with specialTokens := l }
  | .limitAlphabet n => { c with limitAlphabet := some n }
  | .initialAlphabet l => { c with initialAlphabet := l }
  | .continuingSubwordPrefix s => { c with pre := some s }
  | .endOfWordSuffix s => { c with suf := some s }

/-- `BpeTrainerBuilder.Build` (model/bpe/trainer.go:109-120): the trainer has a copy of the settings. -/
def trainerBuild (c : Cfg) : Cfg :=
  ⟨c.minFrequency, c.vocabSize, c.specialTokens, c.limitAlphabet, c.initialAlphabet, c.pre, c.suf⟩

/-! ### WordPiece -/

/-- The configurations that builders point to, in the order in which they were made. -/
abbrev Store := List Cfg

/-- `NewWordPieceTrainerBuilder` (model/wordpiece/trainer.go:15-22): a new configuration with the prefix
`##`; the builder is its place. -/
def newWpTrainerBuilder (st : Store) : Store × Nat :=
  (st ++ [tCall newTrainerBuilder (.continuingSubwordPrefix "##".toList)], st.length)

/-- A method of a WordPiece builder (model/wordpiece/trainer.go:25-78): the receiver is a copy, its
configuration is the same, and the copy is returned. -/
def wpTrainerCall (st : Store) (b : Nat) (k : TCall) : Store × Nat := (st.modify b (tCall · k), b)

/-- Methods called one after another, each on what the one before returned
(model/wordpiece/trainer.go:25-78). -/
def wpTrainerCalls (st : Store) (b : Nat) : List TCall → Store × Nat
  | [] => (st, b)
  | k :: ks => wpTrainerCalls (wpTrainerCall st b k).1 (wpTrainerCall st b k).2 ks

/-- `WordPieceTrainerBuilder.Build` (model/wordpiece/trainer.go:81-86); a builder that was not made with
`NewWordPieceTrainerBuilder` has no configuration, which is a panic. -/
def wpTrainerBuild (st : Store) (b : Nat) : Res Cfg :=
  match st[b]? with
  | none => .panic
  | some c => .ok (trainerBuild c)

/-- `WordPieceTrainer.Builder` (model/wordpiece/trainer.go:94-96): a new builder. -/
def wpTrainerBuilder (_trainer : Cfg) (st : Store) : Store × Nat := newWpTrainerBuilder st

end Tok.Train
