import Verif.Go
import Verif.Concurrency.Star

/-!
# The word cache (model/bpe/cache.go) and tokenization through it (model/bpe/bpe.go)

Each method holds the mutex for its whole body, so it is one atomic step.  `V` stands for
`Word`, `R` for the tokens made of it; `merge` is `MergeWord` without dropout, a function
of the word.
-/

namespace Tok

/-- `Cache` (cache.go:11-16). The Go map is a list of pairs, without order meaning. -/
structure Cache (V : Type) where
  cmap : List (Str × V)
  capacity : Int

namespace Cache

variable {V : Type}

/-- `NewCache` (cache.go:26-32). -/
def new (capacity : Int) : Cache V := ⟨[], capacity⟩

/-- `Clear` (cache.go:35-41). -/
def clear (c : Cache V) : Cache V := ⟨[], c.capacity⟩

/-- Look up in the map. -/
def find (m : List (Str × V)) (k : Str) : Option V := (m.find? (fun p => p.1 == k)).map (·.2)

/-- Assignment to a map entry. -/
def put (m : List (Str × V)) (k : Str) (v : V) : List (Str × V) :=
  (k, v) :: m.filter (fun p => p.1 != k)

/-- `Get` (cache.go:44-50). -/
def get (c : Cache V) (k : Str) : Option V := find c.cmap k

/-- `GetValues` (cache.go:53-65): the zero value for a missing key. -/
def getValues (c : Cache V) (zero : V) (ks : List Str) : List V := ks.map fun k => (c.get k).getD zero

/-- The loop of `SetValues` (cache.go:84-89), `i` counts the items. -/
def setLoop (remaining : Int) : Nat → List (Str × V) → List (Str × V) → List (Str × V)
  | _, [], m => m
  | i, v :: vs, m => if (i : Int) ≥ remaining then m else setLoop remaining (i + 1) vs (put m v.1 v.2)

/-- `SetValues` (cache.go:68-90). -/
def setValues (c : Cache V) (values : List (Str × V)) : Cache V :=
  if (c.cmap.length : Int) ≥ c.capacity then c
  else
    let remaining := c.capacity - (c.cmap.length : Int)
    if remaining ≤ 0 then c else { c with cmap := setLoop remaining 0 values c.cmap }

/-- `GetSize` (cache.go:93-97). -/
def size (c : Cache V) : Nat := c.cmap.length

/-- `IsFull` (cache.go:100-104). -/
def isFull (c : Cache V) : Bool := (c.cmap.length : Int) ≥ c.capacity

end Cache

/-- The cache `Build` gives the model (bpe.go:137-141): none for capacity 0. -/
def buildCache (V : Type) (capacity : Int) : Option (Cache V) :=
  if capacity ≠ 0 then some (Cache.new capacity) else none

/-- `TokenizeWithCache` (bpe.go:479-493): `Get` on the nil cache dereferences nil. -/
def tokenizeWithCache (merge : Str → Res V) (toTokens : V → R) (c : Option (Cache V)) (w : Str) :
    Res (R × Option (Cache V)) :=
  match c with
  | none => .panic
  | some c =>
    match c.get w with
    | some hit => .ok (toTokens hit, some c)
    | none =>
      match merge w with
      | .ok v => .ok (toTokens v, some (c.setValues [(w, v)]))
      | .err => .err
      | .panic => .panic

/-- `Tokenize` (bpe.go:462-477) for a model without dropout; `empty` is the empty token list. -/
def bpeTokenize (merge : Str → Res V) (toTokens : V → R) (empty : R) (c : Option (Cache V)) (w : Str) :
    Res (R × Option (Cache V)) :=
  if w.length = 0 then .ok (empty, c) else tokenizeWithCache merge toTokens c w

/-! ### Several goroutines -/

/-- The shared cache, what each goroutine is computing after a miss, and the calls that have
returned, with their results. -/
structure CacheState (V R : Type) where
  cache : Cache V
  busy : Nat → Option Str
  log : List (Str × R)

/-- One atomic step: the `Get` of a call (a hit returns at once), the `SetValues` and return of
a call that missed, or a `ClearCache`. -/
inductive CacheStep (merge : Str → Res V) (toTokens : V → R) : CacheState V R → CacheState V R → Prop
  | hit (s : CacheState V R) (t : Nat) (w : Str) (v : V) (hb : s.busy t = none)
      (h : s.cache.get w = some v) :
      CacheStep merge toTokens s { s with log := (w, toTokens v) :: s.log }
  | miss (s : CacheState V R) (t : Nat) (w : Str) (hb : s.busy t = none) (h : s.cache.get w = none) :
      CacheStep merge toTokens s { s with busy := fun u => if u = t then some w else s.busy u }
  | finish (s : CacheState V R) (t : Nat) (w : Str) (v : V) (hb : s.busy t = some w)
      (h : merge w = .ok v) :
      CacheStep merge toTokens s
        { cache := s.cache.setValues [(w, v)]
          busy := fun u => if u = t then none else s.busy u
          log := (w, toTokens v) :: s.log }
  | clear (s : CacheState V R) : CacheStep merge toTokens s { s with cache := s.cache.clear }

end Tok
