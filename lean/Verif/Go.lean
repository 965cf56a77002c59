/-!
# Outcomes of Go calls

`Res α` is the result of a modelled Go function: a value, a returned error, or
an abnormal end (run-time panic, explicit `panic`, `log.Fatal`, nil
dereference).  Panics are values of the model, so no definition hides a failing
index behind a default.
-/

namespace Tok

/-- Outcome of a Go call. `panic` also stands for `log.Fatal`. -/
inductive Res (α : Type u) where
  | ok (a : α)
  | err
  | panic
  deriving Repr, DecidableEq

namespace Res

/-- Sequencing: errors are returned to the caller, panics unwind. -/
@[inline] def bind (x : Res α) (f : α → Res β) : Res β :=
  match x with
  | ok a => f a
  | err => err
  | panic => panic

instance : Monad Res where
  pure := Res.ok
  bind := Res.bind

@[simp] theorem pure_eq (a : α) : (pure a : Res α) = .ok a := rfl
@[simp] theorem bind_ok (a : α) (f : α → Res β) : (Res.ok a >>= f) = f a := rfl
@[simp] theorem bind_err (f : α → Res β) : ((Res.err : Res α) >>= f) = .err := rfl
@[simp] theorem bind_panic (f : α → Res β) : ((Res.panic : Res α) >>= f) = .panic := rfl

theorem bind_eq_ok {x : Res α} {f : α → Res β} {b : β} :
    (x >>= f) = .ok b ↔ ∃ a, x = .ok a ∧ f a = .ok b := by
  cases x <;> simp

/-- The call neither panics nor exits. -/
def NoPanic (x : Res α) : Prop := x ≠ .panic

end Res

/-- Go text: valid UTF-8 seen as its characters. -/
abbrev Str := List Char

/-- Length in bytes of a text, Go's `len(s)`. -/
def blen (s : Str) : Nat := (s.map Char.utf8Size).sum

@[simp] theorem blen_nil : blen [] = 0 := rfl
@[simp] theorem blen_cons (c : Char) (s : Str) : blen (c :: s) = c.utf8Size + blen s := by
  simp [blen]
@[simp] theorem blen_append (s t : Str) : blen (s ++ t) = blen s + blen t := by
  simp [blen]

/-- Go indexing `l[i]`: panics outside `0 ≤ i < len`. -/
def idx (l : List α) (i : Int) : Res α :=
  if i < 0 then .panic
  else match l[i.toNat]? with
    | some a => .ok a
    | none => .panic

end Tok
