import Verif.Concurrency.Star
import Verif.Go

/-!
# `DecodeBatch` as a state machine (tokenizer.go:674-693)

One goroutine per sentence; `dec i` is `t.Decode(sentences[i], …)`.  The
goroutines share the variable `decodings` without synchronisation:
`decodings = append(decodings, s)` reads the slice and later assigns it.
Simplified: the slice is a value (a read sees the elements as they are then);
the possibility of two goroutines writing one backing slot, which only adds
further outcomes, is not modelled.
-/

namespace Tok

/-- Where goroutine `i` stands (tokenizer.go:682-687). -/
inductive DecPc where
  /-- before reading `decodings` -/
  | start
  /-- has read `decodings` -/
  | read (old : List Str)
  /-- returned -/
  | done

/-- Program counters and the shared slice. -/
structure DecSt where
  pcs : List DecPc
  decodings : List Str

/-- tokenizer.go:675-678. -/
def DecSt.init (n : Nat) : DecSt := ⟨List.replicate n .start, []⟩

/-- One step of one goroutine. -/
inductive DecStep (dec : Nat → Str) : DecSt → DecSt → Prop
  | read (i : Nat) : s.pcs[i]? = some .start →
      DecStep dec s { s with pcs := s.pcs.set i (.read s.decodings) }
  | store (i : Nat) (old : List Str) : s.pcs[i]? = some (.read old) →
      DecStep dec s { s with pcs := s.pcs.set i .done, decodings := old ++ [dec i] }

/-- `wg.Wait()` returns. -/
def DecSt.finished (s : DecSt) : Prop := ∀ pc ∈ s.pcs, pc = .done

end Tok
