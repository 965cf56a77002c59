/-! Reflexive-transitive closure of a step relation. -/

namespace Tok

/-- Any number of steps. -/
inductive Star (step : σ → σ → Prop) : σ → σ → Prop
  | refl : Star step s s
  | tail : Star step s t → step t u → Star step s u

theorem Star.invariant {step : σ → σ → Prop} {P : σ → Prop} (hP : ∀ s t, P s → step s t → P t)
    {s t : σ} (h : Star step s t) (hs : P s) : P t := by
  induction h with
  | refl => exact hs
  | tail _ hst ih => exact hP _ _ ih hst

theorem Star.trans {step : σ → σ → Prop} {s t u : σ} (h : Star step s t) (h' : Star step t u) :
    Star step s u := by
  induction h' with
  | refl => exact h
  | tail _ hst ih => exact .tail ih hst

theorem Star.single {step : σ → σ → Prop} {s t : σ} (h : step s t) : Star step s t :=
  .tail .refl h

end Tok
