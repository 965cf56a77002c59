import Verif.Bpe.WordMerge
import Verif.GoMap
import Verif.Concurrency.Star

/-!
# Training a BPE model (model/bpe/trainer.go)

Go leaves the order of map iteration open, and the priority queue (gods `binaryheap`, not
part of the repository) leaves the order of equal entries open.  These choices are arguments
of the model: `Pops` lets the queue give out any entry of highest count (the code orders
equal counts by `Time`, which is left out, so the model allows more orders than the code),
`order` is the order in which a set is iterated, `arrival` the order in which the workers
deliver.  Theorems hold for every choice.  Integers do not overflow.  Progress bars and
printing are left out.
-/

namespace Tok.Train

/-- `Pair` (word.go:155-158). -/
abbrev Pair := Int × Int

/-- `BpeTrainer` (trainer.go:135-154) without `ShowProgress`. Of the special tokens only the
content is used. The alphabet limit is not negative here (with a negative limit the code
slices beyond the length, trainer.go:267). -/
structure Cfg where
  minFrequency : Int
  vocabSize : Int
  specialTokens : List Str
  limitAlphabet : Option Nat
  initialAlphabet : List Str
  pre : Option Str
  suf : Option Str

/-- `NewBpeTrainer` (trainer.go:156-165) with the defaults of `NewBPETrainerBuilder`
(trainer.go:51-66). -/
def newBpeTrainer (minFreq vocabSize : Int) : Cfg :=
  ⟨minFreq, vocabSize, [], none, [], none, none⟩

/-! ### The alphabet -/

/-- Comparison of `sort.Strings`. Go compares bytes, which for UTF-8 is the order of the code
points. -/
def strLe : Str → Str → Bool
  | [], _ => true
  | _ :: _, [] => false
  | a :: s, b :: t => a.toNat < b.toNat || (a.toNat == b.toNat && strLe s t)

/-- Insertion into a sorted list. -/
def insertStr (a : Str) : List Str → List Str
  | [] => [a]
  | b :: l => if strLe a b then a :: b :: l else b :: insertStr a l

/-- `sort.Strings`. -/
def sortStrs : List Str → List Str
  | [] => []
  | a :: l => insertStr a (sortStrs l)

/-- Entering a text that is not yet there (trainer.go:192-195, 284-287). -/
def addNew (s : List (Str × Int) × List Str) (t : Str) : List (Str × Int) × List Str :=
  match mget s.1 t with
  | some _ => s
  | none => (mset s.1 t (s.2.length : Int), s.2 ++ [t])

/-- `addSpecialTokens` (trainer.go:190-197): gives the map and the slice as the function
leaves them; the slice is local to the function. -/
def addSpecialTokens (toks : List Str) (w2id : List (Str × Int)) (id2w : List Str) :
    List (Str × Int) × List Str :=
  toks.foldl addNew (w2id, id2w)

/-- Counting one character of a word (trainer.go:212-221): a character not yet seen is
entered with 0. -/
def countChar (count : Int) (alphabet : List (Str × Int)) (c : Char) : List (Str × Int) :=
  match mget alphabet [c] with
  | some n => mset alphabet [c] (n + count)
  | none => mset alphabet [c] 0

/-- The characters of the words and of the initial alphabet with their counts
(trainer.go:209-229). -/
def alphabetCounts (cfg : Cfg) (wc : List (Str × Int)) : List (Str × Int) :=
  cfg.initialAlphabet.foldl (fun m s => mset m s 4294967295)
    (wc.foldl (fun m e => e.1.foldl (countChar e.2) m) [])

/-- How many characters are to be removed (trainer.go:250-257). -/
def toRemove (cfg : Cfg) (len : Nat) : Nat :=
  match cfg.limitAlphabet with
  | none => 0
  | some limit => if len > limit then len - limit else 0

/-- The characters kept, sorted (trainer.go:231-281). Sorting again what is sorted
(264-266, 279-281) is left out. -/
def keptChars (cfg : Cfg) (wc : List (Str × Int)) : List Str :=
  let keys := sortStrs ((alphabetCounts cfg wc).map (·.1))
  if toRemove cfg (alphabetCounts cfg wc).length > 0 then
    keys.take (toRemove cfg (alphabetCounts cfg wc).length)
  else keys

/-- Numbering the characters kept (trainer.go:283-288). -/
def numberChars (kept : List Str) : List (Str × Int) × List Str :=
  kept.foldl addNew ([], [])

/-- `computeAlphabet` (trainer.go:200-295). -/
def computeAlphabet (cfg : Cfg) (wc : List (Str × Int)) : List (Str × Int) × List Str :=
  numberChars (keptChars cfg wc)

/-! ### The words -/

/-- `sortedKeys` (trainer.go:891-900). -/
def sortedKeys (wc : List (Str × Int)) : List Str := sortStrs (wc.map (·.1))

/-- The text of the character at index `i` of `n` (trainer.go:324-345). With a prefix or a
suffix, `fmt.Sprintf("%v%v", &prefix, c)` prints the address of the local variable: `addr`. -/
def charText (cfg : Cfg) (addr : Str) (n i : Nat) (c : Char) : Str :=
  if i + 1 = n then (match cfg.suf with | some _ => addr ++ [c] | none => [c])
  else if i = 0 then (match cfg.pre with | some _ => addr ++ [c] | none => [c])
  else [c]

/-- What `tokenizeWords` builds up. -/
structure Tab where
  w2id : List (Str × Int)
  id2w : List Str

/-- The loop over the characters of a word of `n` characters, from index `i`
(trainer.go:320-356). `addr i` is the address printed at index `i`. -/
def fillChars (cfg : Cfg) (addr : Nat → Str) (n : Nat) : Nat → Str → Tab → List Symbol →
    Tab × List Symbol
  | _, [], t, ss => (t, ss)
  | i, c :: cs, t, ss =>
    match mget t.w2id [c] with
    | none => fillChars cfg addr n (i + 1) cs t ss
    | some _ =>
      let s := charText cfg (addr i) n i c
      match mget t.w2id s with
      | some id => fillChars cfg addr n (i + 1) cs t (wordAdd ss id (blen s))
      | none =>
        fillChars cfg addr n (i + 1) cs ⟨mset t.w2id s (t.id2w.length : Int), t.id2w ++ [s]⟩
          (wordAdd ss (t.id2w.length : Int) (blen s))

/-- The loop over the sorted words (trainer.go:308-361). `addr k i` is the address printed
for word `k` at index `i`. -/
def fillWords (cfg : Cfg) (addr : Nat → Nat → Str) : Nat → List Str → Tab → List (List Symbol) →
    Tab × List (List Symbol)
  | _, [], t, ws => (t, ws)
  | k, w :: l, t, ws =>
    let r := fillChars cfg (addr k) w.length 0 w t []
    fillWords cfg addr (k + 1) l r.1 (ws ++ [r.2])

/-- The counts in the order of the sorted words (trainer.go:312-316). -/
def wordCounts (wc : List (Str × Int)) : List Int :=
  (sortedKeys wc).map fun w => (mget wc w).getD 0

/-- `tokenizeWords` (trainer.go:298-370), without the counts. -/
def tokenizeWords (cfg : Cfg) (addr : Nat → Nat → Str) (wc : List (Str × Int)) (t : Tab) :
    Tab × List (List Symbol) :=
  fillWords cfg addr 0 (sortedKeys wc) t []

/-! ### Counting pairs -/

/-- The number of words a worker gets (trainer.go:389-400). -/
def chunkSize (n : Nat) : Nat :=
  let size := n / (if n < 10000 then 1 else 4)
  if size < 1 then 1 else size

/-- The ranges given to the workers (trainer.go:407-412): from `i`, at most `fuel` of them. -/
def chunksFrom (n size : Nat) : Nat → Nat → Nat → List (Nat × Nat)
  | 0, _, _ => []
  | fuel + 1, i, j =>
    if i < n then
      let j' := if j > n then n else j
      (i, j') :: chunksFrom n size fuel j' (j' + size)
    else []

/-- The ranges given to the workers (trainer.go:407-412). -/
def chunks (n : Nat) : List (Nat × Nat) := chunksFrom n (chunkSize n) n 0 (chunkSize n)

/-- The pairs a worker sees in a word (trainer.go:430-443). The loop condition compares `i`,
the first index of the worker's range, with the number `n` of symbols. -/
def windows (i n : Nat) : List Symbol → List Pair
  | a :: b :: v => if (i : Int) < (n : Int) - 1 then (a.c, b.c) :: windows i n (b :: v) else []
  | _ => []

/-- Counts and places of pairs: `map[Pair]int` and `map[Pair]UintSet`. -/
structure Counts where
  pc : List (Pair × Int)
  wt : List (Pair × List Nat)

/-- Insertion into a set of indices. -/
def setInsert (l : List Nat) (k : Nat) : List Nat := if k ∈ l then l else l ++ [k]

/-- Counting one pair of word `k` (trainer.go:445-466). -/
def countPair (count : Int) (k : Nat) (r : Counts) (p : Pair) : Counts :=
  ⟨mset r.pc p (count + (mget r.pc p).getD 0), mset r.wt p (setInsert ((mget r.wt p).getD []) k)⟩

/-- Counting the words from `k` on, `m` of them, for the worker whose range begins at `i`
(trainer.go:421-472). -/
def countWords (words : List (List Symbol)) (counts : List Int) (i : Nat) :
    Nat → Nat → Counts → Res Counts
  | _, 0, r => .ok r
  | k, m + 1, r =>
    match words[k]?, counts[k]? with
    | some w, some c => countWords words counts i (k + 1) m ((windows i w.length w).foldl (countPair c k) r)
    | _, _ => .panic

/-- A worker (trainer.go:416-477). -/
def worker (words : List (List Symbol)) (counts : List Int) (ij : Nat × Nat) : Res Counts :=
  countWords words counts ij.1 ij.1 (ij.2 - ij.1) ⟨[], []⟩

/-- Adding a worker's count of a pair (trainer.go:484-489). -/
def addCount (m : List (Pair × Int)) (e : Pair × Int) : List (Pair × Int) :=
  match mget m e.1 with
  | none => mset m e.1 e.2
  | some c => mset m e.1 (c + e.2)

/-- Adding a worker's result (trainer.go:483-495). -/
def aggregate (r : Counts) (res : Counts) : Counts :=
  ⟨res.pc.foldl addCount r.pc, res.wt.foldl (fun m e => mset m e.1 e.2) r.wt⟩

/-- `countPairs` (trainer.go:372-507), with the workers' results added in the order
`arrival` of their ranges. -/
def countPairs (words : List (List Symbol)) (counts : List Int) :
    List (Nat × Nat) → Counts → Res Counts
  | [], r => .ok r
  | ij :: l, r => do
    let res ← worker words counts ij
    countPairs words counts l (aggregate r res)

/-! ### The merge loop -/

/-- `TMerge` (trainer.go:27-32) without `Time`. -/
structure TMerge where
  pair : Pair
  count : Int
  pos : List Nat
  deriving DecidableEq

/-- The variables of the loop (trainer.go:703-851). -/
structure State where
  w2id : List (Str × Int)
  id2w : List Str
  words : List (List Symbol)
  pc : List (Pair × Int)
  queue : List TMerge
  merges : List (Pair × Int)

/-- The entries first put into the queue (trainer.go:660-675). -/
def firstQueue (r : Counts) : List TMerge :=
  r.wt.filterMap fun e => (mget r.pc e.1).map fun c => ⟨e.1, c, e.2⟩

/-- The state before the loop (trainer.go:598-702). The maps filled with the special tokens
are replaced by those of the alphabet (trainer.go:612, 619). -/
def start (cfg : Cfg) (addr : Nat → Nat → Str) (wc : List (Str × Int))
    (arrival : List (Nat × Nat)) : Res State :=
  let _ := addSpecialTokens cfg.specialTokens [] []
  let a := computeAlphabet cfg wc
  let t := tokenizeWords cfg addr wc ⟨a.1, a.2⟩
  match countPairs t.2 (wordCounts wc) arrival ⟨[], []⟩ with
  | .ok r => .ok ⟨t.1.w2id, t.1.id2w, t.2, r.pc, firstQueue r, []⟩
  | .err => .err
  | .panic => .panic

/-- Does the pair occur in the word (trainer.go:745-750)? -/
def hasPair (c1 c2 : Int) : List Symbol → Bool
  | a :: b :: v => (a.c = c1 ∧ b.c = c2) || hasPair c1 c2 (b :: v)
  | _ => false

/-- Does the pair occur in one of the words (trainer.go:739-751)? -/
def occursIn (words : List (List Symbol)) (c1 c2 : Int) : List Nat → Res Bool
  | [] => .ok false
  | p :: l =>
    match words[p]? with
    | none => .panic
    | some w => do
      let b ← occursIn words c1 c2 l
      return hasPair c1 c2 w || b

/-- The text of the new token (trainer.go:758-769). -/
def newToken (cfg : Cfg) (partA partB : Str) : Str :=
  match cfg.pre with
  | none => partA ++ partB
  | some p => partA ++ (if p.isPrefixOf partB then partB.drop p.length else partB)

/-- Merging the pair in the words (trainer.go:783-799). An error of `Word.Merge` would only be
printed; there is none (`C33_replaces`). -/
def mergeWords (c1 c2 r : Int) : List Nat → List (List Symbol) → List (WChange × Nat) →
    Res (List (List Symbol) × List (WChange × Nat))
  | [], words, ch => .ok (words, ch)
  | i :: l, words, ch =>
    match words[i]? with
    | none => .panic
    | some w => do
      let res ← wordMerge c1 c2 r w
      mergeWords c1 c2 r l (words.set i res.1) (ch ++ res.2.map fun x => (x, i))

/-- Entering one change (trainer.go:805-832). -/
def enterChange (counts : List Int) (r : Counts) (tc : WChange × Nat) : Res Counts :=
  if tc.1.change > 0 then
    match counts[tc.2]? with
    | none => .panic
    | some c => .ok
      ⟨mset r.pc (tc.1.c1, tc.1.c2) ((mget r.pc (tc.1.c1, tc.1.c2)).getD 0 + tc.1.change * c),
        mset r.wt (tc.1.c1, tc.1.c2) (setInsert ((mget r.wt (tc.1.c1, tc.1.c2)).getD []) tc.2)⟩
  else .ok r

/-- Entering all changes (trainer.go:804-833). -/
def enterChanges (counts : List Int) : List (WChange × Nat) → Counts → Res Counts
  | [], r => .ok r
  | tc :: l, r => do
    let r' ← enterChange counts r tc
    enterChanges counts l r'

/-- The entries put into the queue after a merge (trainer.go:838-848). -/
def newEntries (r : Counts) : List TMerge :=
  r.wt.filterMap fun e =>
    let c := (mget r.pc e.1).getD 0
    if c > 0 then some ⟨e.1, c, e.2⟩ else none

/-- Merging the pair of the entry `top` (trainer.go:758-848). -/
def mergeTop (cfg : Cfg) (counts : List Int) (s : State) (top : TMerge) (rest : List TMerge)
    (order : List Nat) : Res State := do
  let partA ← idx s.id2w top.pair.1
  let partB ← idx s.id2w top.pair.2
  let t := newToken cfg partA partB
  let id : Int := s.id2w.length
  let m ← mergeWords top.pair.1 top.pair.2 id order s.words []
  let r ← enterChanges counts m.2 ⟨s.pc, []⟩
  return ⟨mset s.w2id t id, s.id2w ++ [t], m.1, r.pc, rest ++ newEntries r,
    s.merges ++ [(top.pair, id)]⟩

/-- The rest of an iteration after `top` was taken from the queue, leaving `rest`
(trainer.go:722-851). `none`: the loop ends. -/
def iteration (cfg : Cfg) (counts : List Int) (s : State) (top : TMerge) (rest : List TMerge)
    (order : List Nat) : Res (Option State) :=
  if top.count ≠ (mget s.pc top.pair).getD 0 then
    .ok (some { s with pc := mset s.pc top.pair top.count, queue := top :: rest })
  else if top.count < 1 ∨ top.count < cfg.minFrequency then .ok none
  else do
    let found ← occursIn s.words top.pair.1 top.pair.2 top.pos
    if found then do
      let s' ← mergeTop cfg counts s top rest order
      return some s'
    else return some { s with queue := rest }

/-- `queue.Pop` gives an entry of highest count (trainer.go:643-658, 719). -/
def Pops (q : List TMerge) (top : TMerge) (rest : List TMerge) : Prop :=
  q.Perm (top :: rest) ∧ ∀ e ∈ q, e.count ≤ top.count

/-- The loop ends before taking an entry (trainer.go:706-717). -/
def Full (cfg : Cfg) (s : State) : Prop :=
  (s.w2id.length : Int) ≥ cfg.vocabSize ∨ s.queue = []

/-- One round of the loop goes from `s` to the outcome `o`. -/
def Round (cfg : Cfg) (counts : List Int) (s : State) (o : Res (Option State)) : Prop :=
  ¬ Full cfg s ∧ ∃ top rest order, Pops s.queue top rest ∧ order.Perm top.pos ∧
    iteration cfg counts s top rest order = o

/-- A round that goes on. -/
def Step (cfg : Cfg) (counts : List Int) (s s' : State) : Prop :=
  Round cfg counts s (.ok (some s'))

/-- The loop ends in `s`. -/
def Stops (cfg : Cfg) (counts : List Int) (s : State) : Prop :=
  Full cfg s ∨ Round cfg counts s (.ok none)

/-- The loop can reach `s`. -/
def Reaches (cfg : Cfg) (addr : Nat → Nat → Str) (wc : List (Str × Int)) (s : State) : Prop :=
  ∃ arrival s0, arrival.Perm (chunks wc.length) ∧ start cfg addr wc arrival = .ok s0 ∧
    Star (Step cfg (wordCounts wc)) s0 s

/-- The merges of the model with their ranks (trainer.go:860-866). -/
def rankMerges : Nat → List (Pair × Int) → List (Pair × PairVal) → List (Pair × PairVal)
  | _, [], m => m
  | i, e :: l, m => rankMerges (i + 1) l (mset m e.1 ⟨(i : Int), e.2⟩)

/-- The model of `BpeBuilder.Build` (bpe.go:104-161) from the vocabulary and merges. -/
def buildModel (vocab : List (Str × Int)) (merges : List (Pair × PairVal)) (pre suf : Option Str) :
    BpeModel :=
  let r := vocab.foldl (fun m e => mset m e.2 e.1) ([] : List (Int × Str))
  ⟨mget vocab, mget r, fun a b => mget merges (a, b), none, pre, suf⟩

/-- The result of `Train` (trainer.go:853-884): the vocabulary, the merges and the special
tokens. -/
structure Trained where
  vocab : List (Str × Int)
  merges : List (Pair × PairVal)
  model : BpeModel
  specialTokens : List Str

/-- What `Train` makes of the last state (trainer.go:853-884). -/
def finish (cfg : Cfg) (s : State) : Trained :=
  let m := rankMerges 0 s.merges []
  ⟨s.w2id, m, buildModel s.w2id m cfg.pre cfg.suf, cfg.specialTokens⟩

/-- `Train` (trainer.go:570-577, 595-884) can return `r`. -/
def Trains (cfg : Cfg) (addr : Nat → Nat → Str) (wc : List (Str × Int)) (r : Trained) : Prop :=
  ∃ s, Reaches cfg addr wc s ∧ Stops cfg (wordCounts wc) s ∧ r = finish cfg s

end Tok.Train
