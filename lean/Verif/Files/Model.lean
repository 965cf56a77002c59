import Verif.Encoding.Model
import Verif.GoMap

/-!
# Vocabulary and merge files (model/wordpiece/wordpiece.go, model/wordlevel/wordlevel.go,
model/bpe/bpe.go)

A file is its text, valid UTF-8, so that splitting at bytes 10 and 32 is splitting at characters.
Opening, creating and flushing files is taken to succeed. `vocab.json` is written and read by
`encoding/json`, which is not modelled: the vocabulary of a BPE model is taken to survive it.
-/

namespace Tok.Files

/-- A vocabulary, `map[string]int`; the order of the list is the order of iteration. -/
abbrev Vocab := List (Str × Int)

/-- The pieces of a text between line feeds; nothing after the last one. -/
def rawLines : Str → Str → List Str
  | [], acc => if acc = [] then [] else [acc]
  | c :: s, acc => if c = '\n' then acc :: rawLines s [] else rawLines s (acc ++ [c])

/-- `dropCR` of package bufio. -/
def dropCR (l : Str) : Str := if l.getLast? = some '\r' then l.dropLast else l

/-- `bufio.Scanner` with lines: `none` if `Err` is set, that is for a line of 64 KiB or more. The
lines before it are then of no interest, all callers fail. -/
def scan (s : Str) : Option (List Str) :=
  if (rawLines s []).all (fun l => blen l < 65536) then some ((rawLines s []).map dropCR) else none

/-- The loop that writes lines (wordpiece.go:391-394, wordlevel.go:228-231, bpe.go:576-579). -/
def writeLines (ls : List Str) : Str := ls.flatMap (fun l => l ++ ['\n'])

/-- `Save` of WordPiece and WordLevel (wordpiece.go:344-397, wordlevel.go:182-235): the keys by
increasing id. For equal ids, which the theorems exclude, the order is up to `sort.Slice`. -/
def saveVocab (m : Vocab) : Str := writeLines ((m.mergeSort (fun a b => decide (a.2 ≤ b.2))).map (·.1))

/-- The loop that reads a vocabulary (wordpiece.go:162-166, 205-209, wordlevel.go:94-98). -/
def readLoop : List Str → Nat → Vocab → Vocab
  | [], _, m => m
  | l :: ls, i, m => readLoop ls (i + 1) (mset m l (i : Int))

/-- `ReadFiles` (wordpiece.go:142-173; failure is `log.Fatal`), `NewWordPieceFromFile`
(wordpiece.go:184-214) and `NewWorldLevelFromFile` (wordlevel.go:76-110; failure is an error). -/
def readVocab (s : Str) : Option Vocab := (scan s).map (fun ls => readLoop ls 0 [])

/-- `strings.Split(line, " ")`. -/
def splitSpace : Str → Str → List Str
  | [], acc => [acc]
  | c :: s, acc => if c = ' ' then acc :: splitSpace s [] else splitSpace s (acc ++ [c])

/-- `Merges`, `map[Pair]PairVal`: pairs of ids to rank and new id. -/
abbrev Merges := List ((Int × Int) × (Int × Int))

/-- The loop over merge lines (bpe.go:608-643 of `CreateMerges`, 283-326 of `ReadFiles`). -/
def mergesLoop (vocab : Str → Option Int) : List Str → Nat → Merges → Res Merges
  | [], _, m => .ok m
  | line :: ls, n, m =>
    match splitSpace line [] with
    | [p, q] =>
      match vocab p with
      | none => mergesLoop vocab ls n m
      | some a =>
        match vocab q with
        | none => mergesLoop vocab ls n m
        | some b =>
          match vocab (p ++ q) with
          | none => .err
          | some id => mergesLoop vocab ls (n + 1) (mset m (a, b) ((n : Int), id))
    | _ => .err

/-- `CreateMerges` (bpe.go:603-646). -/
def createMerges (vocab : Str → Option Int) (lines : List Str) : Res Merges := mergesLoop vocab lines 0 []

/-- `regexp.MustCompile("#version").MatchString(line)`. -/
def hasVersion : Str → Bool
  | [] => false
  | c :: s => "#version".toList.isPrefixOf (c :: s) || hasVersion s

/-- The merges part of `ReadFiles` (bpe.go:266-331). -/
def readMerges (vocab : Str → Option Int) (s : Str) : Res Merges :=
  match scan s with
  | none => .err
  | some ls => mergesLoop vocab (ls.filter (fun l => !hasVersion l)) 0 []

/-- The merges part of `Save` (bpe.go:539-580): lines by increasing rank; a missing token is "". -/
def saveMerges (vocabR : Int → Option Str) (m : Merges) : Str :=
  writeLines ((m.mergeSort (fun a b => decide (a.2.1 ≤ b.2.1))).map
    (fun e => (vocabR e.1.1).getD [] ++ ' ' :: (vocabR e.1.2).getD []))

end Tok.Files
