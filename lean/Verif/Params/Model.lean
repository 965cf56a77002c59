import Verif.Go
import Verif.GoMap

/-!
# Parameters (util/param.go)

A heap is the list of the maps that exist. A `*Params` is the number of its map: the struct holds nothing else
and its map never changes for another one, so two of them with the same map are not told apart. The order of a
map is the order of iteration.
-/

namespace Tok.Params

/-- A value of type `interface{}`, as far as the code tells values apart. -/
inductive Val where
  /-- nil -/
  | nil
  /-- a nil pointer, map, channel or slice, with its type -/
  | typedNil
  /-- an array -/
  | array (n : Int)
  /-- any other value, without reference to maps -/
  | data (n : Int)
  /-- a map -/
  | map (i : Nat)
  /-- a `*Params` -/
  | params (p : Nat)
  deriving Repr, DecidableEq

/-- `map[string]interface{}`. -/
abbrev PMap := List (Str × Val)

/-- The maps that exist. -/
abbrev PHeap := List PMap

/-- `Values` (param.go:164-166). -/
def values (h : PHeap) (p : Nat) : PMap := h[p]?.getD []

/-- Go's `delete`. -/
def mdel (m : PMap) (k : Str) : PMap := m.filter (fun e => e.1 != k)

/-- `IsNil` (param.go:205-216): `reflect.Value.IsNil` panics for arrays. -/
def isNil : Val → Res Bool
  | .nil => .ok true
  | .typedNil => .ok true
  | .array _ => .panic
  | _ => .ok false

/-- `NewParams(nil)` (param.go:15-20). With a map that is not nil, the Params is that map. -/
def newParams (h : PHeap) : PHeap × Nat := (h ++ [[]], h.length)

/-- `Set` (param.go:174-176), and the function that `WithParam` gives (param.go:181-185). -/
def set (h : PHeap) (p : Nat) (k : Str) (v : Val) : PHeap := h.set p (mset (values h p) k v)

/-- `Pop` (param.go:24-31). -/
def pop (h : PHeap) (p : Nat) (k : Str) : PHeap × Val :=
  match mget (values h p) k with
  | some v => (h.set p (mdel (values h p) k), v)
  | none => (h, .nil)

/-- `Param` (param.go:35-41). -/
def param (h : PHeap) (p : Nat) (k : Str) : Val := (mget (values h p) k).getD .nil

/-- `Has` (param.go:44-55). -/
def has (h : PHeap) (p : Nat) (k : Str) : Res Bool :=
  match mget (values h p) k with
  | none => .ok false
  | some v => do
    let b ← isNil v
    .ok (!b)

/-- `Get` (param.go:59-73); the default is nil if there is none. -/
def get (h : PHeap) (p : Nat) (k : Str) (d : Val) : Res Val :=
  match mget (values h p) k with
  | none => .ok d
  | some v => do
    let b ← isNil v
    .ok (if b then d else v)

/-- `Copy` (param.go:76-83), with the key of the copy. -/
def copy (h : PHeap) (p q : Nat) (k newKey : Str) : Res PHeap := do
  let v ← get h q k .nil
  .ok (set h p newKey v)

/-- The loops of `Clone` (param.go:99-102) and `deepCopy` (param.go:116-119): every parameter of `q` is copied
to `o`. -/
def copyAll (step : PHeap → Nat → Str → Res (PHeap × Val)) (q o : Nat) : List Str → PHeap → Res PHeap
  | [], h => .ok h
  | k :: ks, h => do
    let r ← step h q k
    copyAll step q o ks (set r.1 o k r.2)

/-- `deepCopy` (param.go:107-124). The first argument bounds the nesting; when it does not suffice the stack
overflows, which ends the program. -/
def deepCopy : Nat → PHeap → Nat → Str → Res (PHeap × Val)
  | 0, _, _, _ => .panic
  | fuel + 1, h, p, k => do
    let v ← get h p k .nil
    match v with
    | .params q => do
      let h' ← copyAll (deepCopy fuel) q (newParams h).2 ((values h q).map (·.1)) (newParams h).1
      .ok (h', .params (newParams h).2)
    | v => .ok (h, v)

/-- `DeepCopy` (param.go:86-94), with the key of the copy. -/
def deepCopyTo (fuel : Nat) (h : PHeap) (p q : Nat) (k newKey : Str) : Res PHeap := do
  let r ← deepCopy fuel h q k
  .ok (set r.1 p newKey r.2)

/-- `Clone` (param.go:97-105). -/
def clone (fuel : Nat) (h : PHeap) (p : Nat) : Res (PHeap × Nat) := do
  let h' ← copyAll (deepCopy fuel) p (newParams h).2 ((values h p).map (·.1)) (newParams h).1
  .ok (h', (newParams h).2)

/-- The loop of `Select` (param.go:129-132). -/
def selectLoop (p o : Nat) : List Str → PHeap → Res PHeap
  | [], h => .ok h
  | k :: ks, h => do
    let v ← get h p k .nil
    selectLoop p o ks (set h o k v)

/-- `Select` (param.go:127-135). -/
def select (h : PHeap) (p : Nat) (ks : List Str) : Res (PHeap × Nat) := do
  let h' ← selectLoop p (newParams h).2 ks (newParams h).1
  .ok (h', (newParams h).2)

/-- `Keys` (param.go:138-145). -/
def keys (h : PHeap) (p : Nat) : List Str := (values h p).map (·.1)

/-- `Len` (param.go:169-171). -/
def len (h : PHeap) (p : Nat) : Nat := (values h p).length

/-- `Delete` (param.go:147-155). -/
def delete (h : PHeap) (p : Nat) (k : Str) : Res PHeap := do
  let _ ← get h p k .nil
  .ok (h.set p (mdel (values h p) k))

/-- The loop of `DeleteAll` (param.go:158-160). -/
def deleteLoop (p : Nat) : List Str → PHeap → Res PHeap
  | [], h => .ok h
  | k :: ks, h => do
    let h' ← delete h p k
    deleteLoop p ks h'

/-- `DeleteAll` (param.go:157-161): the keys are deleted as they are visited, none comes anew. -/
def deleteAll (h : PHeap) (p : Nat) : Res PHeap := deleteLoop p (keys h p) h

/-- `WithParams` (param.go:187-196) with its options applied to `q`, in the order of iteration. -/
def withParams (h : PHeap) (p q : Nat) : PHeap := (values h p).foldl (fun h e => set h q e.1 e.2) h

end Tok.Params
