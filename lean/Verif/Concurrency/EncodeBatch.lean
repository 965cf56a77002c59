import Verif.Concurrency.Star
import Verif.Encoding.Budget

/-!
# `EncodeBatch` as a state machine (tokenizer.go:640-671)

One goroutine per input.  `enc i` is what `t.Encode(inputs[i], …)` returns: the
call reads the tokenizer only, so it is a function of the input (the BPE cache
it may touch does not change results).  A panic inside `Encode` ends the whole
program and is not a state of this machine.
-/

namespace Tok

/-- Where goroutine `i` of `EncodeBatch` stands (tokenizer.go:648-659). -/
inductive EncPc where
  /-- before `t.Encode` returns (650) -/
  | encoding
  /-- `Encode` returned `e`; before `mu.Lock()` (654) -/
  | encoded (e : Encoding)
  /-- holding the mutex, before the write (655) -/
  | locked (e : Encoding)
  /-- after the write, before `mu.Unlock()` (656) -/
  | written
  /-- returned -/
  | done

/-- The shared state: program counters, the slice `encodings`, the mutex (who
holds it) and the error kept by the `errgroup` (the first one returned). -/
structure EncSt where
  pcs : List EncPc
  slots : List Encoding
  lock : Option Nat
  err : Option Nat

/-- State before the goroutines start (tokenizer.go:641-645): `n` zero encodings. -/
def EncSt.init (n : Nat) : EncSt :=
  { pcs := List.replicate n .encoding
    slots := List.replicate n { Encoding.default with ranges := none }
    lock := none
    err := none }

/-- One step of one goroutine.  `enc i = none` is a returned error. -/
inductive EncStep (enc : Nat → Option Encoding) : EncSt → EncSt → Prop
  | encodeOk (i : Nat) (e : Encoding) : s.pcs[i]? = some .encoding → enc i = some e →
      EncStep enc s { s with pcs := s.pcs.set i (.encoded e) }
  /-- `return err`: `errgroup` keeps the first error. -/
  | encodeErr (i : Nat) : s.pcs[i]? = some .encoding → enc i = none →
      EncStep enc s { s with pcs := s.pcs.set i .done,
                             err := if s.err.isSome then s.err else some i }
  | lock (i : Nat) (e : Encoding) : s.pcs[i]? = some (.encoded e) → s.lock = none →
      EncStep enc s { s with pcs := s.pcs.set i (.locked e), lock := some i }
  | write (i : Nat) (e : Encoding) : s.pcs[i]? = some (.locked e) →
      EncStep enc s { s with pcs := s.pcs.set i .written, slots := s.slots.set i e }
  | unlock (i : Nat) : s.pcs[i]? = some .written →
      EncStep enc s { s with pcs := s.pcs.set i .done, lock := none }

/-- `eg.Wait()` returns: all goroutines have returned. -/
def EncSt.finished (s : EncSt) : Prop := ∀ pc ∈ s.pcs, pc = .done

/-- What `EncodeBatch` returns from a finished state (tokenizer.go:661-670):
`Sum.inl i` is the error of input `i`. -/
def EncSt.result (s : EncSt) (padding : Option PadParams) : Res (Nat ⊕ List Encoding) :=
  match s.err with
  | some i => .ok (.inl i)
  | none =>
    match padding with
    | none => .ok (.inr s.slots)
    | some p => do
      let es ← padEncodings s.slots p
      .ok (.inr es)

end Tok
