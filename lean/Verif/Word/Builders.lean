import Verif.Word.Builder
import Verif.Bpe.Cache
import Verif.Bpe.Model
import Verif.Files.Model

/-!
# The builders of BPE and WordPiece (bpe.go:25-241, wordpiece.go:18-245)

Maps are association lists as in `Verif.Word.Builder`; that builder, model and caller share the map is
not modelled. What is in the files is a function of their names.
-/

namespace Tok

open Tok.Files (Merges)

/-- `Config` of `BpeBuilder` (bpe.go:25-39); the pointers to vocabulary and merges are never nil. -/
structure BpeConfig where
  files : Option (Str × Str)
  vocab : List (Str × Int)
  merges : Merges
  capacity : Int
  dropout : Option Rat
  unk : Option Str
  pre : Option Str
  suf : Option Str

/-- `NewBpeBuilder` (bpe.go:47-64), with `DefaultCacheCapacity` (word.go:12). -/
def newBpeBuilder : BpeConfig := ⟨none, [], [], 10000, none, none, none, none⟩

/-- The calls on a `BpeBuilder` that set something (bpe.go:67-101). -/
inductive BpeCall where
  | files (vocab merges : Str)
  | vocabAndMerges (v : List (Str × Int)) (m : Merges)
  | cacheCapacity (n : Int)
  | dropout (p : Rat)
  | unkToken (s : Str)
  | continuingSubwordPrefix (s : Str)
  | endOfWordSuffix (s : Str)

/-- The setters (bpe.go:67-101); they have pointer receivers. -/
def bpeCall (c : BpeConfig) : BpeCall → BpeConfig
  | .files v m => { c with files := some (v, m) }
  | .vocabAndMerges v m => { c with vocab := v, merges := m }
  | .cacheCapacity n => { c with capacity := n }
  | .dropout p => { c with dropout := some p }
  | .unkToken s => { c with unk := some s }
  | .continuingSubwordPrefix s => { c with pre := some s }
  | .endOfWordSuffix s => { c with suf := some s }

/-- A `BPE` as `Build` makes it (bpe.go:166-197); `V` is what the cache stores. -/
structure Bpe (V : Type) where
  vocab : List (Str × Int)
  vocabR : List (Int × Str)
  merges : Merges
  cache : Option (Cache V)
  dropout : Option Rat
  unk : Option Str
  pre : Option Str
  suf : Option Str

/-- `TokenToId` (bpe.go:495-498). -/
def Bpe.tokenToId (b : Bpe V) (t : Str) : Option Int := mget b.vocab t
/-- `IdToToken` (bpe.go:500-503). -/
def Bpe.idToToken (b : Bpe V) (i : Int) : Option Str := mget b.vocabR i

/-- The vocabulary and merges of `Build` (bpe.go:113-136): those of the files if there are any. `read`
is `ReadFiles` (bpe.go:244-333). -/
def bpeSource (read : Str → Str → Res (List (Str × Int) × Merges)) (c : BpeConfig) : Res (List (Str × Int) × Merges) :=
  match c.files with
  | none => .ok (c.vocab, c.merges)
  | some (v, m) => read v m

/-- `Build` (bpe.go:104-162): the model, and the builder as it is left. `order` is the order in which the
vocabulary is iterated. -/
def bpeBuild (V : Type) (read : Str → Str → Res (List (Str × Int) × Merges)) (order : List (Str × Int) → List (Str × Int))
    (c : BpeConfig) : Res (Bpe V × BpeConfig) :=
  if c.dropout.any (fun p => decide (p ≤ 0 ∨ p > 1)) then .err
  else do
    let s ← bpeSource read c
    .ok (⟨s.1, invertVocab (order s.1), s.2, buildCache V c.capacity, c.dropout, c.unk, c.pre, c.suf⟩,
      { c with vocab := s.1, merges := s.2 })

/-- `NewBpeFromFiles` (bpe.go:213-218). -/
def newBpeFromFiles (V : Type) (read : Str → Str → Res (List (Str × Int) × Merges))
    (order : List (Str × Int) → List (Str × Int)) (v m : Str) : Res (Bpe V × BpeConfig) :=
  bpeBuild V read order (bpeCall newBpeBuilder (.files v m))

/-- `NewBPE` (bpe.go:221-238): a default model, and the fields are set afterwards. -/
def newBpe (V : Type) (read : Str → Str → Res (List (Str × Int) × Merges))
    (order : List (Str × Int) → List (Str × Int)) (v : List (Str × Int)) (m : Merges) : Res (Bpe V) :=
  match bpeBuild V read order newBpeBuilder with
  | .ok (b, _) => .ok { b with vocab := v, vocabR := invertVocab (order v), merges := m }
  | _ => .panic

/-- `Tokenize` (bpe.go:464-477); `dropped` is `MergeWord` with dropout. -/
def Bpe.tokenize (b : Bpe V) (merge dropped : Str → Res V) (toTokens : V → R) (empty : R) (w : Str) :
    Res (R × Option (Cache V)) :=
  if w.length = 0 then .ok (empty, b.cache)
  else
    match b.dropout with
    | none => tokenizeWithCache merge toTokens b.cache w
    | some _ => do
      let v ← dropped w
      .ok (toTokens v, b.cache)

/-! ### WordPiece -/

/-- `config` of `WordPieceBuilder` (wordpiece.go:18-24); `none` is a nil pointer, a nil map is an empty
list. -/
structure WpConfig where
  files : Str
  vocab : Option (List (Str × Int))
  unk : Str
  pre : Str
  max : Int

/-- `NewWordPieceBuilder` (wordpiece.go:32-43), which is also `Builder` of a model (wordpiece.go:137-139). -/
def newWpBuilder : WpConfig := ⟨[], some [], "[UNK]".toList, "##".toList, 100⟩

/-- The calls on a `WordPieceBuilder` (wordpiece.go:46-78). -/
inductive WpCall where
  | files (s : Str)
  | vocab (v : Option (List (Str × Int)))
  | unkToken (s : Str)
  | continuingSubwordPrefix (s : Str)
  | maxInputCharsPerWord (n : Int)

/-- The setters (wordpiece.go:46-78); they return the builder with the setting. -/
def wpCall (c : WpConfig) : WpCall → WpConfig
  | .files s => { c with files := s }
  | .vocab v => { c with vocab := v }
  | .unkToken s => { c with unk := s }
  | .continuingSubwordPrefix s => { c with pre := s }
  | .maxInputCharsPerWord n => { c with max := n }

/-- A `WordPiece` (wordpiece.go:117-123). -/
structure Wp where
  vocab : List (Str × Int)
  vocabR : List (Int × Str)
  unk : Str
  pre : Str
  max : Int

/-- `TokenToId` (wordpiece.go:334-337). -/
def Wp.tokenToId (w : Wp) (t : Str) : Option Int := mget w.vocab t
/-- `IdToToken` (wordpiece.go:339-342). -/
def Wp.idToToken (w : Wp) (i : Int) : Option Str := mget w.vocabR i
/-- What `Tokenize` reads (wordpiece.go:254-332). -/
def Wp.model (w : Wp) : WordPiece := ⟨mget w.vocab, w.unk, w.pre, w.max⟩

/-- `NewWordPiece` (wordpiece.go:126-134). -/
def newWp : Wp := ⟨[], [], "[UNK]".toList, "##".toList, 100⟩

/-- `Builder` (wordpiece.go:137-139). -/
def Wp.builder (_ : Wp) : WpConfig := newWpBuilder

/-- The vocabulary of `Build` (wordpiece.go:85-92): that of the file if its name is not empty. `read` is
`ReadFiles` (wordpiece.go:142-173), which ends the program if it fails. -/
def wpSource (read : Str → Option (List (Str × Int))) (c : WpConfig) : Res (Option (List (Str × Int))) :=
  if c.files ≠ [] then
    match read c.files with
    | some v => .ok (some v)
    | none => .panic
  else .ok c.vocab

/-- `Build` (wordpiece.go:81-112). A nil pointer is dereferenced. -/
def wpBuild (read : Str → Option (List (Str × Int))) (order : List (Str × Int) → List (Str × Int)) (c : WpConfig) : Res Wp := do
  match ← wpSource read c with
  | none => .panic
  | some v => .ok ⟨v, invertVocab (order v), c.unk, c.pre, c.max⟩

/-- `NewWordPieceBuilderFromFile` (wordpiece.go:175-180). -/
def newWpBuilderFromFile (f : Str) : WpConfig := wpCall newWp.builder (.files f)

/-- `NewWordPieceFromFile` (wordpiece.go:183-224). -/
def newWpFromFile (read : Str → Option (List (Str × Int))) (order : List (Str × Int) → List (Str × Int)) (f unk : Str)
    (max : List Int) : Res Wp :=
  match read f with
  | none => .err
  | some v =>
    let c := wpCall (wpCall newWp.builder (.vocab (some v))) (.unkToken unk)
    wpBuild read order (match max with | [] => c | n :: _ => wpCall c (.maxInputCharsPerWord n))

/-- `NewWordPieceFromBPE` (wordpiece.go:227-245). -/
def newWpFromBpe (read : Str → Option (List (Str × Int))) (order : List (Str × Int) → List (Str × Int)) (b : Bpe V) : Res Wp := do
  let w ← wpBuild read order { newWpBuilder with vocab := some b.vocab }
  .ok { w with unk := b.unk.getD w.unk, pre := b.pre.getD w.pre }

end Tok
