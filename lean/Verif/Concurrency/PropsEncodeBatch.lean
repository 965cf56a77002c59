import Verif.Concurrency.EncodeBatch

/-!
# C20: batch encoding is order-preserving under every schedule
-/

namespace Tok

/-- The invariant of the machine. -/
structure EncInv (enc : Nat → Option Encoding) (n : Nat) (s : EncSt) : Prop where
  len : s.pcs.length = n
  slen : s.slots.length = n
  value : ∀ i e, (s.pcs[i]? = some (.encoded e) ∨ s.pcs[i]? = some (.locked e)) → enc i = some e
  out : ∀ i e, (s.pcs[i]? = some .written ∨ s.pcs[i]? = some .done) → enc i = some e →
    s.slots[i]? = some e
  ok : ∀ i, s.pcs[i]? = some .written → (enc i).isSome
  err : ∀ i, s.pcs[i]? = some .done → enc i = none → s.err.isSome
  errOk : ∀ i, s.err = some i → i < n ∧ enc i = none
  holder : ∀ i, s.lock = some i ↔
    ((∃ e, s.pcs[i]? = some (.locked e)) ∨ s.pcs[i]? = some .written)

theorem getElem?_set_cases {l : List α} {i j : Nat} {a b : α} (h : (l.set i a)[j]? = some b) :
    (i = j ∧ a = b) ∨ (i ≠ j ∧ l[j]? = some b) := by
  rw [List.getElem?_set] at h
  split at h
  · next e =>
    split at h
    · exact Or.inl ⟨e, Option.some.inj h⟩
    · cases h
  · next e => exact Or.inr ⟨e, h⟩

theorem getElem?_set_of_some {l : List α} {i : Nat} {a b : α} (h : l[i]? = some b) (j : Nat) :
    (l.set i a)[j]? = if i = j then some a else l[j]? := by
  have : i < l.length := (List.getElem?_eq_some_iff.1 h).1
  rw [List.getElem?_set]
  simp [this]

theorem EncInv.init (enc : Nat → Option Encoding) (n : Nat) : EncInv enc n (EncSt.init n) := by
  have hpc : ∀ (i : Nat) (pc : EncPc), (EncSt.init n).pcs[i]? = some pc → pc = EncPc.encoding := by
    intro i pc h
    simp only [EncSt.init, List.getElem?_replicate] at h
    split at h
    · exact (Option.some.inj h).symm
    · cases h
  constructor
  · simp [EncSt.init]
  · simp [EncSt.init]
  · rintro i e (h | h) <;> cases hpc _ _ h
  · rintro i e (h | h) <;> cases hpc _ _ h
  · intro i h; cases hpc _ _ h
  · intro i h; cases hpc _ _ h
  · intro i h; cases h
  · intro i
    constructor
    · intro h; cases h
    · rintro (⟨e, h⟩ | h) <;> cases hpc _ _ h

theorem EncInv.step {enc : Nat → Option Encoding} {n : Nat} (s t : EncSt) (h : EncInv enc n s)
    (hs : EncStep enc s t) : EncInv enc n t := by
  cases hs with
  | encodeOk i e hpc he =>
    have hg := fun j => getElem?_set_of_some (a := EncPc.encoded e) hpc j
    constructor
    · simp [h.len]
    · exact h.slen
    · intro j e'
      simp only [hg]
      split
      · next ej =>
        subst ej
        rintro (hh | hh) <;> simp_all
      · exact h.value j e'
    · intro j e'
      simp only [hg]
      split
      · rintro (hh | hh) <;> cases hh
      · exact h.out j e'
    · intro j
      simp only [hg]
      split
      · intro hh; cases hh
      · exact h.ok j
    · intro j
      simp only [hg]
      split
      · intro hh; cases hh
      · exact h.err j
    · exact h.errOk
    · intro j
      simp only [hg]
      rw [h.holder j]
      split
      · next ej => subst ej; simp [hpc]
      · rfl
  | encodeErr i hpc he =>
    have hi : i < n := h.len ▸ (List.getElem?_eq_some_iff.1 hpc).1
    have hg := fun j => getElem?_set_of_some (a := EncPc.done) hpc j
    constructor
    · simp [h.len]
    · exact h.slen
    · intro j e'
      simp only [hg]
      split
      · rintro (hh | hh) <;> cases hh
      · exact h.value j e'
    · intro j e'
      simp only [hg]
      split
      · next ej => subst ej; intro _ h2; rw [he] at h2; cases h2
      · exact h.out j e'
    · intro j
      simp only [hg]
      split
      · intro hh; cases hh
      · exact h.ok j
    · intro j _ _
      simp only
      split <;> simp_all
    · intro j
      simp only
      split
      · exact h.errOk j
      · intro hh; cases hh; exact ⟨hi, he⟩
    · intro j
      simp only [hg]
      rw [h.holder j]
      split
      · next ej => subst ej; simp [hpc]
      · rfl
  | lock i e hpc hl =>
    have hg := fun j => getElem?_set_of_some (a := EncPc.locked e) hpc j
    constructor
    · simp [h.len]
    · exact h.slen
    · intro j e'
      simp only [hg]
      split
      · next ej =>
        subst ej
        rintro (hh | hh)
        · cases hh
        · cases hh; exact h.value i e (Or.inl hpc)
      · exact h.value j e'
    · intro j e'
      simp only [hg]
      split
      · rintro (hh | hh) <;> cases hh
      · exact h.out j e'
    · intro j
      simp only [hg]
      split
      · intro hh; cases hh
      · exact h.ok j
    · intro j
      simp only [hg]
      split
      · intro hh; cases hh
      · exact h.err j
    · exact h.errOk
    · intro j
      simp only [hg]
      split
      · next ej => subst ej; simp
      · next ej =>
        have := h.holder j
        rw [hl] at this
        simp only [Option.some.injEq, ej, false_iff]
        intro hc
        exact absurd (this.2 hc) (by simp)
  | write i e hpc =>
    have hi : i < n := h.len ▸ (List.getElem?_eq_some_iff.1 hpc).1
    have hv := h.value i e (Or.inr hpc)
    have hg := fun j => getElem?_set_of_some (a := EncPc.written) hpc j
    constructor
    · simp [h.len]
    · simp [h.slen]
    · intro j e'
      simp only [hg]
      split
      · rintro (hh | hh) <;> cases hh
      · exact h.value j e'
    · intro j e'
      simp only [hg]
      rw [List.getElem?_set]
      split
      · next ej =>
        subst ej
        intro _ h2
        rw [hv] at h2
        rw [if_pos (by rw [h.slen]; exact hi), h2]
      · exact h.out j e'
    · intro j
      simp only [hg]
      split
      · next ej => subst ej; intro _; rw [hv]; rfl
      · exact h.ok j
    · intro j
      simp only [hg]
      split
      · intro hh; cases hh
      · exact h.err j
    · exact h.errOk
    · intro j
      simp only [hg]
      rw [h.holder j]
      split
      · next ej => subst ej; simp [hpc]
      · rfl
  | unlock i hpc =>
    have hg := fun j => getElem?_set_of_some (a := EncPc.done) hpc j
    have hlock := (h.holder i).2 (Or.inr hpc)
    constructor
    · simp [h.len]
    · exact h.slen
    · intro j e'
      simp only [hg]
      split
      · rintro (hh | hh) <;> cases hh
      · exact h.value j e'
    · intro j e'
      simp only [hg]
      split
      · next ej => subst ej; intro _; exact h.out i e' (Or.inl hpc)
      · exact h.out j e'
    · intro j
      simp only [hg]
      split
      · intro hh; cases hh
      · exact h.ok j
    · intro j
      simp only [hg]
      split
      · next ej =>
        subst ej
        intro _ hn
        have := h.ok i hpc
        rw [hn] at this; cases this
      · exact h.err j
    · exact h.errOk
    · intro j
      simp only [hg]
      split
      · next ej => subst ej; simp
      · next ej =>
        rw [← h.holder j, hlock]
        simp [ej]

theorem EncInv.reach {enc : Nat → Option Encoding} {n : Nat} {s : EncSt}
    (h : Star (EncStep enc) (EncSt.init n) s) : EncInv enc n s :=
  h.invariant (fun s t => EncInv.step s t) (EncInv.init enc n)

/-- C20: under every schedule that runs to the end, if all inputs encode, the
slice holds the encoding of input `i` at position `i`, for every `i`, and that
list (batch-padded when padding is set) is returned. -/
theorem C20_batch_order (enc : Nat → Option Encoding) (es : List Encoding)
    (hok : ∀ i (h : i < es.length), enc i = some es[i]) (padding : Option PadParams) (s : EncSt)
    (h : Star (EncStep enc) (EncSt.init es.length) s) (hfin : s.finished) :
    s.result padding =
      match padding with
      | none => .ok (.inr es)
      | some p => (padEncodings es p) >>= fun r => .ok (.inr r) := by
  have hI := EncInv.reach h
  have herr : s.err = none := by
    cases he : s.err with
    | none => rfl
    | some i =>
      obtain ⟨h1, h2⟩ := hI.errOk i he
      rw [hok i h1] at h2; cases h2
  have hslots : s.slots = es := by
    apply List.ext_getElem?
    intro i
    by_cases hi : i < es.length
    · have hpc : s.pcs[i]? = some .done := by
        have hl : i < s.pcs.length := by rw [hI.len]; exact hi
        rw [List.getElem?_eq_getElem hl]
        exact congrArg some (hfin _ (List.getElem_mem hl))
      rw [hI.out i es[i] (Or.inr hpc) (hok i hi)]
      simp [hi]
    · rw [List.getElem?_eq_none (by rw [hI.slen]; omega), List.getElem?_eq_none (by omega)]
  unfold EncSt.result
  rw [herr, hslots]
  cases padding <;> rfl

/-- C20: under every schedule that runs to the end, if some input fails, the
error returned is that of an input that fails. -/
theorem C20_batch_error (enc : Nat → Option Encoding) (n : Nat) (i : Nat) (hi : i < n)
    (hbad : enc i = none) (padding : Option PadParams) (s : EncSt)
    (h : Star (EncStep enc) (EncSt.init n) s) (hfin : s.finished) :
    ∃ j, j < n ∧ enc j = none ∧ s.result padding = .ok (.inl j) := by
  have hI := EncInv.reach h
  have hl : i < s.pcs.length := by rw [hI.len]; exact hi
  have hpc : s.pcs[i]? = some .done := by
    rw [List.getElem?_eq_getElem hl]
    exact congrArg some (hfin _ (List.getElem_mem hl))
  obtain ⟨j, hj⟩ := Option.isSome_iff_exists.1 (hI.err i hpc hbad)
  obtain ⟨h1, h2⟩ := hI.errOk j hj
  exact ⟨j, h1, h2, by unfold EncSt.result; rw [hj]⟩

/-- C20: no deadlock — in every reachable state some goroutine can move, or all
have returned. -/
theorem C20_batch_progress (enc : Nat → Option Encoding) (n : Nat) (s : EncSt)
    (h : Star (EncStep enc) (EncSt.init n) s) : s.finished ∨ ∃ t, EncStep enc s t := by
  have hI := EncInv.reach h
  cases hl : s.lock with
  | some i =>
    right
    rcases (hI.holder i).1 hl with ⟨e, hpc⟩ | hpc
    · exact ⟨_, .write i e hpc⟩
    · exact ⟨_, .unlock i hpc⟩
  | none =>
    by_cases hf : s.finished
    · exact Or.inl hf
    · right
      unfold EncSt.finished at hf
      obtain ⟨pc, hpc⟩ := Classical.not_forall.1 hf
      obtain ⟨hm, hne⟩ := Classical.not_imp.1 hpc
      obtain ⟨i, hi, hpe⟩ := List.getElem_of_mem hm
      have hpc : s.pcs[i]? = some pc := by rw [List.getElem?_eq_getElem hi, hpe]
      clear hpe
      cases pc with
      | encoding =>
        cases he : enc i with
        | some e => exact ⟨_, .encodeOk i e hpc he⟩
        | none => exact ⟨_, .encodeErr i hpc he⟩
      | encoded e => exact ⟨_, .lock i e hpc hl⟩
      | locked e => exact ⟨_, .write i e hpc⟩
      | written => exact ⟨_, .unlock i hpc⟩
      | done => exact absurd rfl hne

/-- Steps a goroutine still has to take. -/
def EncPc.todo : EncPc → Nat
  | .encoding => 4
  | .encoded _ => 3
  | .locked _ => 2
  | .written => 1
  | .done => 0

theorem sum_set_lt {l : List EncPc} {i : Nat} {a b : EncPc} (h : l[i]? = some a)
    (hlt : b.todo < a.todo) : ((l.set i b).map EncPc.todo).sum < (l.map EncPc.todo).sum := by
  induction l generalizing i with
  | nil => cases h
  | cons c l ih =>
    cases i with
    | zero => simp at h; subst h; simp; omega
    | succ i =>
      simp only [List.getElem?_cons_succ] at h
      have := ih h
      simp only [List.set_cons_succ, List.map_cons, List.sum_cons]
      omega

/-- C20: every schedule ends: each step decreases the work left, at most `4 n`
steps in all. -/
theorem C20_batch_terminates (enc : Nat → Option Encoding) (s t : EncSt) (h : EncStep enc s t) :
    (t.pcs.map EncPc.todo).sum < (s.pcs.map EncPc.todo).sum := by
  cases h with
  | encodeOk i e hpc _ => exact sum_set_lt hpc (by simp [EncPc.todo])
  | encodeErr i hpc _ => exact sum_set_lt hpc (by simp [EncPc.todo])
  | lock i e hpc _ => exact sum_set_lt hpc (by simp [EncPc.todo])
  | write i e hpc => exact sum_set_lt hpc (by simp [EncPc.todo])
  | unlock i hpc => exact sum_set_lt hpc (by simp [EncPc.todo])

/-- Non-vacuity: two inputs, the second overtakes the first. -/
example : ∃ s, Star (EncStep (fun _ => some Encoding.default)) (EncSt.init 2) s ∧ s.finished := by
  refine ⟨_, .tail (.tail (.tail (.tail (.tail (.tail (.tail (.tail .refl
    (.encodeOk 1 _ rfl rfl)) (.encodeOk 0 _ rfl rfl)) (.lock 1 _ rfl rfl)) (.write 1 _ rfl))
    (.unlock 1 rfl)) (.lock 0 _ rfl rfl)) (.write 0 _ rfl)) (.unlock 0 rfl), ?_⟩
  intro pc hpc
  simp [EncSt.init] at hpc
  exact hpc

end Tok
