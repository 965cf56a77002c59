import Verif.Concurrency.Star
import Verif.Go
import Verif.GoMap

/-!
# Word counting in `Train` as a state machine (tokenizer.go:742-939)

A file is its bytes.  `wordsOf line` is the list of pre-tokens of a line
(`doNormalize`, `doPreTokenize`, `GetSplits`, tokenizer.go:897-913), a parameter.
-/

namespace Tok

/-- `trainer.ProcessTokens` (model/bpe/trainer.go:590-596, used by the WordPiece
trainer too): counts the tokens into the map. -/
def processTokens (words : List (Str × Nat)) : List Str → List (Str × Nat)
  | [] => words
  | t :: ts => processTokens (mset words t ((mget words t).getD 0 + 1)) ts

/-- `dropCR` of `bufio.ScanLines`. -/
def dropCR (l : List UInt8) : List UInt8 :=
  if l.getLast? = some 13 then l.dropLast else l

/-- The lines `bufio.Scanner` delivers for the rest of a file: split at byte 10,
one final carriage return dropped, no empty last line.  `cur` is the line read so
far, reversed. -/
def scanLines (cur : List UInt8) : List UInt8 → List (List UInt8)
  | [] => if cur = [] then [] else [dropCR cur.reverse]
  | b :: bs => if b = 10 then dropCR cur.reverse :: scanLines [] bs else scanLines (b :: cur) bs

/-- The loop of `processChunk` (tokenizer.go:876-935): the lines sent and the
`cummulativeSize` returned. -/
def chunkLines (limit cum : Nat) : List (List UInt8) → List (List UInt8) × Nat
  | [] => ([], cum)
  | l :: ls =>
    if cum + l.length > limit then ([], cum + l.length)
    else let r := chunkLines limit (cum + l.length) ls
         (l :: r.1, r.2)

/-- `processChunk` (tokenizer.go:862-939): the maps it sends, in order, and the
value it returns. `Seek` past the end leaves nothing to scan. -/
def processChunk (wordsOf : List UInt8 → List Str) (offset limit : Nat) (file : List UInt8) :
    List (List (Str × Nat)) × Nat :=
  let r := chunkLines limit 0 (scanLines [] (file.drop offset))
  (r.1.map (fun l => processTokens [] (wordsOf l)), r.2)

/-- `math.Ceil(fsize / limit)` (tokenizer.go:790). -/
def chunkNum (size limit : Nat) : Nat := (size + limit - 1) / limit

/-- Where a chunk goroutine for file number `f` stands (tokenizer.go:796-801). -/
inductive ChunkPc where
  /-- before reading `current` -/
  | start (f : Nat)
  /-- inside `processChunk`: messages still to send, value to return -/
  | sending (f : Nat) (msgs : List (List (Str × Nat))) (ret : Nat)
  /-- after `scanWG.Done()` -/
  | done (f : Nat)

/-- The file a goroutine works on. -/
def ChunkPc.file : ChunkPc → Nat
  | .start f => f
  | .sending f _ _ => f
  | .done f => f

/-- State of `Train`'s counting phase: the goroutines, the variable `current` of
each file (shared by its goroutines, tokenizer.go:779, 798), the entries of the
message the aggregator is working on, the dictionary, whether `wChan` is closed
and whether `doneChan` was signalled. -/
structure TrainSt where
  pcs : List ChunkPc
  current : List Nat
  inflight : List (Str × Nat)
  dict : List (Str × Nat)
  closed : Bool
  finished : Bool

/-- The goroutines started for files numbered from `f` on (tokenizer.go:772-803). -/
def startWorkers (limit : Nat) : Nat → List (List UInt8) → List ChunkPc
  | _, [] => []
  | f, file :: files =>
    List.replicate (chunkNum file.length limit) (.start f) ++ startWorkers limit (f + 1) files

/-- State when the goroutines start. -/
def TrainSt.init (limit : Nat) (files : List (List UInt8)) : TrainSt :=
  { pcs := startWorkers limit 0 files
    current := List.replicate files.length 0
    inflight := []
    dict := []
    closed := false
    finished := false }

/-- `dict[w] = count + c` or `dict[w] = c` (tokenizer.go:812-819). -/
def dictAdd (dict : List (Str × Nat)) (w : Str) (c : Nat) : List (Str × Nat) :=
  match mget dict w with
  | some count => mset dict w (count + c)
  | none => mset dict w c

/-- One step of a goroutine, of the aggregator or of the main thread. -/
inductive TrainStep (wordsOf : List UInt8 → List Str) (limit : Nat) (files : List (List UInt8)) :
    TrainSt → TrainSt → Prop
  /-- a chunk goroutine reads `current` and starts scanning -/
  | begin (i f cur : Nat) (file : List UInt8) : s.pcs[i]? = some (.start f) →
      s.current[f]? = some cur → files[f]? = some file →
      TrainStep wordsOf limit files s
        { s with pcs := s.pcs.set i (.sending f (processChunk wordsOf cur limit file).1
                                      (processChunk wordsOf cur limit file).2) }
  /-- rendezvous on the unbuffered channel; the aggregator will visit the
  entries of the map in any order -/
  | send (i f : Nat) (m order : List (Str × Nat)) (ms : List (List (Str × Nat))) (ret : Nat) :
      s.pcs[i]? = some (.sending f (m :: ms) ret) → s.inflight = [] → s.closed = false →
      m.Perm order →
      TrainStep wordsOf limit files s
        { s with pcs := s.pcs.set i (.sending f ms ret), inflight := order }
  /-- the aggregator adds one entry -/
  | add (w : Str) (c : Nat) (rest : List (Str × Nat)) : s.inflight = (w, c) :: rest →
      TrainStep wordsOf limit files s { s with inflight := rest, dict := dictAdd s.dict w c }
  /-- `processChunk` returns, `current` is assigned, `scanWG.Done()` -/
  | finish (i f ret : Nat) : s.pcs[i]? = some (.sending f [] ret) →
      TrainStep wordsOf limit files s
        { s with pcs := s.pcs.set i (.done f), current := s.current.set f ret }
  /-- `scanWG.Wait()` returns and `wChan` is closed -/
  | close : (∀ pc ∈ s.pcs, ∃ f, pc = .done f) → s.closed = false →
      TrainStep wordsOf limit files s { s with closed := true }
  /-- the aggregator's range loop ends; `doneChan <- true` -/
  | signal : s.closed = true → s.inflight = [] → s.finished = false →
      TrainStep wordsOf limit files s { s with finished := true }

end Tok
