import Verif.Processor.PropsAligned

/-!
# C54: the sequence post-processor
-/

namespace Tok

/-- C54.  The announced number of added tokens is the sum over the processors. -/
theorem C54_added_sum (ps : List PostProcessor) (isPair : Bool) :
    (sequenceProcessor ps).addedTokens isPair = (ps.map (fun p => p.addedTokens isPair)).sum := by
  induction ps with
  | nil => rfl
  | cons p ps ih =>
    simp only [List.map_cons, List.sum_cons, ← ih]
    rfl

/-- The processor adds exactly the announced tokens to a single sequence and
leaves something the next processor can work on. -/
def AddsExactlySingle (p : PostProcessor) : Prop :=
  ∀ e : Encoding, Usable e → ∃ r, p.process e none true = .ok (some r) ∧ Usable r ∧
    r.ids.length = e.ids.length + p.addedTokens false

/-- C54, partial: one sequence only (pairs break the claim, see
`C54_pair_violated`).  The processors run one after the other and the result is
longer by exactly the announced number of tokens. -/
theorem C54_single_partial (ps : List PostProcessor) (h : ∀ p ∈ ps, AddsExactlySingle p) :
    AddsExactlySingle (sequenceProcessor ps) := by
  induction ps with
  | nil => intro e he; exact ⟨e, rfl, he, rfl⟩
  | cons p ps ih =>
    intro e he
    obtain ⟨r, h1, h2, h3⟩ := h p (by simp) e he
    obtain ⟨r', k1, k2, k3⟩ := ih (fun q hq => h q (by simp [hq])) r h2
    refine ⟨r', ?_, k2, ?_⟩
    · simp only [sequenceProcessor, sequenceProcess] at k1 ⊢
      rw [h1]
      exact k1
    · have : (sequenceProcessor (p :: ps)).addedTokens false
          = p.addedTokens false + (sequenceProcessor ps).addedTokens false := rfl
      rw [this, k3, h3]; omega

/-- C54.  The result for one sequence is the left-to-right composition. -/
theorem C54_single_compose (ps qs : List PostProcessor) (e r : Encoding) (pair : Option Encoding)
    (special : Bool) (h : sequenceProcess ps e pair special = .ok (some r)) :
    sequenceProcess (ps ++ qs) e pair special = sequenceProcess qs r pair special := by
  induction ps generalizing e with
  | nil => cases h; rfl
  | cons p ps ih =>
    simp only [List.cons_append, sequenceProcess, Res.bind_eq_ok] at h ⊢
    obtain ⟨x, h1, h2⟩ := h
    rw [h1]
    cases x with
    | none => simp only at h2; split at h2 <;> cases h2
    | some y => exact ih y h2

theorem usable_of_leaf {r : Encoding} (h1 : DeepAligned r) (h2 : RangesOk r)
    (h3 : ∀ o ∈ r.overflowing, o.overflowing = []) : Usable r := by
  refine ⟨h1.aligned, fun o ho => (h1.over o ho).aligned, h2.ranges, ?_⟩
  intro o ho
  exact ⟨by rw [h3 o ho]; simp, Or.inl (h2.over o ho).ranges⟩

/-- BERT processing satisfies the hypothesis of `C54_single_partial`, provided
the overflowing parts carry nothing of their own. -/
theorem C54_bert_adds (bp : Bert) (e : Encoding) (he : Usable e) :
    ∃ r, bp.process e none true = .ok (some r) ∧ Usable r ∧
      r.ids.length = e.ids.length + bp.addedTokens false := by
  obtain ⟨r, h1, h2, h3, h4⟩ := C22_bert_single bp e
  refine ⟨r, h1, ?_, h4⟩
  unfold Bert.process at h1
  cases h1
  refine ⟨?_, ?_, ⟨[], rfl, by intro p hp; cases hp⟩, ?_⟩
  · intro f
    have := bert_special_aligned bp e he.1 f
    cases f <;> exact this
  · intro o ho
    obtain ⟨x, hx, rfl⟩ := List.mem_map.1 ho
    exact bert_special_aligned bp x (he.2.1 x hx)
  · intro o ho
    obtain ⟨x, hx, rfl⟩ := List.mem_map.1 ho
    exact ⟨by simp [Bert.addSpecialToken, newEncoding],
      Or.inl ⟨[], rfl, by intro p hp; cases hp⟩⟩

/-- A sequence of two BERT processors meets the hypotheses. -/
example (bp : Bert) : ∀ p ∈ [bp.toProcessor, bp.toProcessor], AddsExactlySingle p := by
  intro p hp
  have : p = bp.toProcessor := by simpa using hp
  subst this
  exact C54_bert_adds bp

/-- C54 is violated by every pair: each processor receives the same pair again,
so with two processors the second sequence is in the result twice. -/
theorem C54_pair_violated (bp bp' : Bert) (e p : Encoding) :
    ∃ r, sequenceProcess [bp.toProcessor, bp'.toProcessor] e (some p) true = .ok (some r) ∧
      (∃ pre mid post, r.ids = pre ++ p.ids ++ mid ++ p.ids ++ post) ∧
      r.ids.length = e.ids.length + 2 * p.ids.length +
        (sequenceProcessor [bp.toProcessor, bp'.toProcessor]).addedTokens true := by
  obtain ⟨r1, h1, h2, -, -, h3⟩ := C22_bert_pair bp e p
  obtain ⟨r2, k1, k2, -, -, k3⟩ := C22_bert_pair bp' r1 p
  refine ⟨r2, ?_, ?_, ?_⟩
  · simp only [sequenceProcess, Bert.toProcessor, h1, k1, Res.bind_ok]
  · have a := h2 .ids
    have b := k2 .ids
    simp only [Encoding.arr, bertSingle, bertPair, plainArr, specialEntry] at a b
    refine ⟨[bp'.cls.id, bp.cls.id] ++ e.ids ++ [bp.sep.id], [bp.sep.id, bp'.sep.id],
      [bp'.sep.id], ?_⟩
    rw [b, a]
    simp
  · rw [k3, h3]
    have e1 : bp.addedTokens true = 3 := rfl
    have e2 : bp'.addedTokens true = 3 := rfl
    have : (sequenceProcessor [bp.toProcessor, bp'.toProcessor]).addedTokens true = 6 := rfl
    rw [this, e1, e2]
    omega

end Tok
