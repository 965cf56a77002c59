import Verif.Processor.PropsTemplate
import Verif.Processor.PropsBert

/-!
# C102: byte-level post-processing
-/

namespace Tok

/-! ### Specification -/

/-- The place of a token without the space markers at its ends: the start moves right by the number of markers in
front (but not by the only marker in front of the first token if a space was put there), the end moves left by the
number of markers behind; the place does not become less than empty. -/
def trimmedPlace (a : Bool) (i : Nat) (tok : Str) (o : Int × Int) : Int × Int :=
  let front := (tok.takeWhile (· == 'Ġ')).length
  let behind := (tok.reverse.takeWhile (· == 'Ġ')).length
  let s := min (o.1 + (if i = 0 ∧ a = true ∧ front = 1 then 0 else front)) o.2
  (s, if (behind : Int) ≤ o.2 then max (o.2 - behind) s else o.2)

/-- The offsets of `r` are those of `e`, trimmed if wanted. -/
def TrimmedIf (trim a : Bool) (e r : Encoding) : Prop :=
  r.offsets.length = e.offsets.length ∧
    if trim = true then
      ∀ (k : Nat) (tok : Str) (o : Int × Int), e.tokens[k]? = some tok → e.offsets[k]? = some o → o.1 ≤ o.2 →
        r.offsets[k]? = some (trimmedPlace a k tok o)
    else r.offsets = e.offsets

/-- `r` is `e` as sequence number `i`: type ids are `i`, offsets are trimmed if wanted, everything else is as it was;
the overflowing parts keep their type ids. -/
structure AsSequence (trim a : Bool) (i : Int) (e r : Encoding) : Prop where
  same : ∀ f : Field, f ≠ .offsets → r.arr f = seqArr e i f
  offsets : TrimmedIf trim a e r
  parts : List.Forall₂ (fun o o' : Encoding => (∀ f : Field, f ≠ .offsets → o'.arr f = o.arr f) ∧ TrimmedIf trim a o o')
    e.overflowing r.overflowing
  range : e.ids ≠ [] → rangesGet r.ranges i = some ((List.range e.ids.length).map (fun (k : Nat) => (k : Int)))

/-! ### Proof -/

theorem leadingSpaces_takeWhile (tok : Str) : leadingSpaces tok = (tok.takeWhile (· == 'Ġ')).length := by
  induction tok with
  | nil => rfl
  | cons c cs ih =>
    unfold leadingSpaces
    by_cases h : c = 'Ġ'
    · subst h
      rw [if_neg (by simp), ih]
      simp
    · rw [if_pos h]
      simp [h]

theorem trimOffset_place (a : Bool) (i : Nat) (tok : Str) (o : Int × Int) (h : o.1 ≤ o.2) :
    trimOffset i a (leadingSpaces tok) (trailingSpaces tok) o = trimmedPlace a i tok o := by
  obtain ⟨h1, h2⟩ := trimOffset_exact i a (leadingSpaces tok) (trailingSpaces tok) o h
  rw [h1] at h2
  refine Prod.ext ?_ ?_
  · rw [h1, leadingSpaces_takeWhile]
    rfl
  · rw [h2, trailingSpaces, leadingSpaces_takeWhile, leadingSpaces_takeWhile]
    rfl

theorem processOffsets_trimmed (e : Encoding) (ha : e.Aligned) (a : Bool) :
    ∃ r, processOffsets e a = .ok r ∧ (∀ f : Field, f ≠ .offsets → r.arr f = e.arr f) ∧ TrimmedIf true a e r ∧
      r.overflowing = e.overflowing ∧ r.ranges = e.ranges := by
  have h1 := ha .tokens; have h2 := ha .offsets
  simp only [Encoding.arr] at h1 h2
  obtain ⟨out, h3, h4, h5⟩ := trimLoop_ok e.offsets a 0 e.tokens (by omega)
  unfold processOffsets
  rw [h3]
  refine ⟨_, rfl, ?_, ⟨?_, ?_⟩, rfl, rfl⟩
  · intro f hf; cases f <;> first | rfl | exact absurd rfl hf
  · show out.length = _
    omega
  · rw [if_pos rfl]
    intro k tok o ht ho hle
    have := h5 k tok o ht (by rw [Nat.zero_add]; exact ho)
    rw [Nat.zero_add, trimOffset_place a k tok o hle] at this
    exact this

theorem TrimmedIf.refl {a : Bool} {e r : Encoding} (h : r.offsets = e.offsets) : TrimmedIf false a e r :=
  ⟨by rw [h], by simpa using h⟩

theorem TrimmedIf.congr {trim a : Bool} {e e' r r' : Encoding} (h : TrimmedIf trim a e r) (ho : e'.offsets = e.offsets)
    (ht : e'.tokens = e.tokens) (hr : r'.offsets = r.offsets) : TrimmedIf trim a e' r' := by
  unfold TrimmedIf at h ⊢
  rw [ho, ht, hr]
  exact h

theorem rangesGet_assocSet (l : List (Int × Range)) (k : Int) (r : Range) :
    rangesGet (some (assocSet k r l)) k = some r := by
  simp only [rangesGet]
  induction l with
  | nil => simp [assocSet]
  | cons p l ih =>
    simp only [assocSet]
    split
    · simp
    · next h =>
      rw [List.find?_cons_of_neg (by simpa using h)]
      exact ih

theorem setSequenceIds_get (e : Encoding) (i : Int) (e' : Encoding) (h : e.setSequenceIds i = .ok e') (hne : e.ids ≠ []) :
    rangesGet e'.ranges i = some ((List.range e.ids.length).map (fun (k : Nat) => (k : Int))) := by
  unfold Encoding.setSequenceIds at h
  have hpos := List.length_pos_iff.2 hne
  rw [if_pos hpos, newRange_ok (by omega) (by omega)] at h
  simp only [Res.bind_ok] at h
  have hf : (List.range ((e.ids.length : Int) - 0).toNat).map (fun (k : Nat) => (0 : Int) + (k : Int)) =
      (List.range e.ids.length).map (fun (k : Nat) => (k : Int)) := by
    rw [show ((e.ids.length : Int) - 0).toNat = e.ids.length by omega]
    exact List.map_congr_left (fun k _ => by omega)
  cases hr : e.ranges with
  | none =>
    rw [hr] at h
    simp only [rangesSet, Res.bind_ok] at h
    cases h
    rw [rangesGet_assocSet, hf]
  | some l =>
    rw [hr] at h
    simp only [rangesSet, Res.bind_ok] at h
    cases h
    rw [rangesGet_assocSet, hf]

/-- Sequence ids change no array, of an encoding and of its parts. -/
theorem setSequenceIds_parts (i : Int) (os : List Encoding) : ∃ os', mapRes (fun o => Encoding.setSequenceIds o i) os = .ok os' ∧
    List.Forall₂ (fun o o' : Encoding => ∀ f, o'.arr f = o.arr f) os os' := by
  induction os with
  | nil => exact ⟨[], rfl, .nil⟩
  | cons o os ih =>
    obtain ⟨os', h1, h2⟩ := ih
    obtain ⟨o', g1, g2, -⟩ := setSequenceIds_ok o i
    unfold mapRes
    rw [g1, h1]
    exact ⟨_, rfl, .cons g2 h2⟩

theorem prepareOne_seq (i : Int) (e : Encoding) (hf : Fresh e) (ha : e.Aligned) :
    ∃ p, prepareOne i e = .ok p ∧ RangesOk p ∧ (∀ f, p.arr f = seqArr e i f) ∧
      List.Forall₂ (fun o o' : Encoding => ∀ f, o'.arr f = o.arr f) e.overflowing p.overflowing := by
  obtain ⟨e1, g1, g2, g3, g4, g5⟩ := setSequenceIds_ok e i
  obtain ⟨⟨l, hl, hg⟩, ho⟩ := hf
  obtain ⟨os', h1, h2⟩ := mapRes_setSequenceIds i e1.overflowing (by rw [g3]; exact ho)
  obtain ⟨os2, h1', h2'⟩ := setSequenceIds_parts i e1.overflowing
  rw [h1] at h1'
  cases h1'
  rw [g3] at h2'
  obtain ⟨l', d1, d2⟩ := g4 l hl hg
  unfold prepareOne
  rw [g1]
  simp only [Res.bind_ok]
  rw [h1]
  simp only [Res.bind_ok]
  have hi := g2 .ids; have h3 := g2 .tokens; have h4 := g2 .offsets
  have h5 := g2 .specialMask; have h6 := g2 .attentionMask; have h7 := g2 .words; have h8 := g2 .typeIds
  simp only [Encoding.arr] at hi h3 h4 h5 h6 h7 h8
  split
  · refine ⟨_, rfl, RangesOk.intro d1 d2 h2, ?_, h2'⟩
    intro f; cases f <;> simp [seqArr, Encoding.arr, hi, h3, h4, h5, h6, h7]
  · next hz =>
    refine ⟨_, rfl, RangesOk.intro d1 d2 h2, ?_, h2'⟩
    have he : e.ids.length = 0 := by rw [hi] at hz; omega
    have hty := ha .typeIds
    simp only [Encoding.arr] at hty
    have : e.typeIds = [] := List.length_eq_zero_iff.mp (by omega)
    intro f; cases f <;> simp [seqArr, Encoding.arr, hi, h3, h4, h5, h6, h7, h8, he, this]

theorem trim_parts (a : Bool) (os : List Encoding) (ho : ∀ o ∈ os, o.Aligned) :
    ∃ os', mapRes (fun o => processOffsets o a) os = .ok os' ∧
      List.Forall₂ (fun o o' : Encoding => (∀ f : Field, f ≠ .offsets → o'.arr f = o.arr f) ∧ TrimmedIf true a o o') os os' ∧
      ((∀ o ∈ os, RangesOk o) → ∀ o ∈ os', RangesOk o) := by
  induction os with
  | nil => exact ⟨[], rfl, .nil, by simp⟩
  | cons o os ih =>
    obtain ⟨os', h1, h2, h3⟩ := ih (fun x hx => ho x (by simp [hx]))
    obtain ⟨o', g1, g2, g3, g4, g5⟩ := processOffsets_trimmed o (ho o (by simp)) a
    unfold mapRes
    rw [g1, h1]
    refine ⟨_, rfl, .cons ⟨g2, g3⟩ h2, ?_⟩
    intro hr x hx
    rcases List.mem_cons.mp hx with rfl | hx
    · have := hr o (by simp)
      obtain ⟨l, r1, r2⟩ := this.ranges
      exact RangesOk.intro (by rw [g5]; exact r1) r2 (by rw [g4]; exact this.over)
    · exact h3 (fun y hy => hr y (by simp [hy])) x hx

theorem aligned_of_arr {o o' : Encoding} (h : ∀ f, o'.arr f = o.arr f) (ha : o.Aligned) : o'.Aligned := by
  intro f
  have := h .ids
  simp only [Encoding.arr] at this
  rw [h f, this]
  exact ha f

theorem trimStep (trim a : Bool) (p : Encoding) (hr : RangesOk p) (ha : p.Aligned) (ho : ∀ o ∈ p.overflowing, o.Aligned) :
    ∃ q, (if trim then processOffsetsDeep p a else .ok p) = .ok q ∧ RangesOk q ∧
      (∀ f : Field, f ≠ .offsets → q.arr f = p.arr f) ∧ TrimmedIf trim a p q ∧
      List.Forall₂ (fun o o' : Encoding => (∀ f : Field, f ≠ .offsets → o'.arr f = o.arr f) ∧ TrimmedIf trim a o o')
        p.overflowing q.overflowing := by
  cases trim with
  | false =>
    refine ⟨p, rfl, hr, fun _ _ => rfl, .refl rfl, ?_⟩
    generalize p.overflowing = os
    induction os with
    | nil => exact .nil
    | cons o os ih => exact .cons ⟨fun _ _ => rfl, .refl rfl⟩ ih
  | true =>
    obtain ⟨d, g1, g2, g3, g4, g5⟩ := processOffsets_trimmed p ha a
    obtain ⟨os', h1, h2, h3⟩ := trim_parts a d.overflowing (by rw [g4]; exact ho)
    refine ⟨{ d with overflowing := os' }, ?_, ?_, ?_, g3.congr rfl rfl rfl, ?_⟩
    · simp only [if_true, processOffsetsDeep, g1, h1, Res.bind_ok]
    · obtain ⟨l, r1, r2⟩ := hr.ranges
      exact RangesOk.intro (l := l) (by rw [← r1, ← g5]) r2 (h3 (by rw [g4]; exact hr.over))
    · intro f hf
      rw [← g2 f hf]
    · rw [← g4]; exact h2

theorem setStep (i : Int) (q : Encoding) (hr : RangesOk q) :
    ∃ l r, q.ranges = some l ∧ q.setSequenceIds i = .ok r ∧ RangesOk r ∧
      (∀ f, r.arr f = q.arr f) ∧ r.overflowing = q.overflowing ∧
      (q.ids ≠ [] → rangesGet r.ranges i = some ((List.range q.ids.length).map (fun (k : Nat) => (k : Int)))) := by
  obtain ⟨l, h1, h2⟩ := hr.ranges
  obtain ⟨r, g1, g2, g3, g4, g5⟩ := setSequenceIds_ok q i
  obtain ⟨l', d1, d2⟩ := g4 l h1 h2
  exact ⟨l, r, h1, g1, RangesOk.intro d1 d2 (by rw [g3]; exact hr.over), g2, g3, setSequenceIds_get q i r g1⟩

theorem forall₂_chain {os os' os'' : List Encoding} {trim a : Bool}
    (h : List.Forall₂ (fun o o' : Encoding => ∀ f, o'.arr f = o.arr f) os os')
    (h' : List.Forall₂ (fun o o' : Encoding => (∀ f : Field, f ≠ .offsets → o'.arr f = o.arr f) ∧ TrimmedIf trim a o o') os' os'') :
    List.Forall₂ (fun o o' : Encoding => (∀ f : Field, f ≠ .offsets → o'.arr f = o.arr f) ∧ TrimmedIf trim a o o') os os'' := by
  induction h generalizing os'' with
  | nil => cases h'; exact .nil
  | cons h1 _ ih =>
    cases h' with
    | cons k1 k2 =>
      refine .cons ⟨fun f hf => (k1.1 f hf).trans (h1 f), ?_⟩ (ih k2)
      exact k1.2.congr (h1 .offsets).symm (h1 .tokens).symm rfl

theorem forall₂_aligned {os os' : List Encoding}
    (h : List.Forall₂ (fun o o' : Encoding => ∀ f, o'.arr f = o.arr f) os os') (ho : ∀ o ∈ os, o.Aligned) :
    ∀ o ∈ os', o.Aligned := by
  induction h with
  | nil => simp
  | cons h1 _ ih =>
    intro o hx
    rcases List.mem_cons.mp hx with rfl | hx
    · exact aligned_of_arr h1 (ho _ (by simp))
    · exact ih (fun x hx => ho x (by simp [hx])) o hx

/-- One sequence on its way through `Process`. -/
theorem byteOne (trim a : Bool) (i : Int) (e : Encoding) (hf : Fresh e) (ha : e.Aligned)
    (ho : ∀ o ∈ e.overflowing, o.Aligned) :
    ∃ p q l r, prepareOne i e = .ok p ∧ (if trim then processOffsetsDeep p a else .ok p) = .ok q ∧
      q.ranges = some l ∧ q.setSequenceIds i = .ok r ∧ RangesOk r ∧
      AsSequence trim a i e r := by
  obtain ⟨p, h1, h2, h3, h4⟩ := prepareOne_seq i e hf ha
  have hpa : p.Aligned := by
    intro f
    have hi := h3 .ids
    simp only [Encoding.arr, seqArr] at hi
    rw [h3 f, hi]
    have := ha f
    cases f <;> simp [seqArr, Encoding.arr] at this ⊢ <;> exact this
  obtain ⟨q, k1, k2, k3, k4, k5⟩ := trimStep trim a p h2 hpa (forall₂_aligned h4 ho)
  obtain ⟨l, r, m0, m1, m2, m3, m4, m5⟩ := setStep i q k2
  refine ⟨p, q, l, r, h1, k1, m0, m1, m2, ⟨?_, ?_, ?_, ?_⟩⟩
  · intro f hf'
    rw [m3, k3 f hf', h3]
  · exact k4.congr (h3 .offsets).symm (h3 .tokens).symm (m3 .offsets)
  · rw [m4]; exact forall₂_chain h4 k5
  · have hq : q.ids = e.ids := (k3 .ids (by simp)).trans (h3 .ids)
    intro hne
    rw [m5 (by rw [hq]; exact hne), hq]

/-- C102 (one text): the result has the entries of the encoding with type id 0, its offsets trimmed exactly if
wanted; no special token is added, whether they are wanted or not. -/
theorem C102_single (trim a special : Bool) (e : Encoding) (hf : Fresh e) (ha : e.Aligned)
    (ho : ∀ o ∈ e.overflowing, o.Aligned) :
    ∃ r, (byteLevelProcessor trim a).process e none special = .ok (some r) ∧ AsSequence trim a 0 e r ∧
      (byteLevelProcessor trim a).addedTokens false = 0 := by
  obtain ⟨p, q, l, r, h1, h2, h0, h3, h4, h5⟩ := byteOne trim a 0 e hf ha ho
  refine ⟨r, ?_, h5, rfl⟩
  cases trim with
  | false =>
    simp only [Bool.false_eq_true, if_false, Res.ok.injEq] at h2
    subst h2
    simp only [byteLevelProcessor, byteLevelProcess, prepareEncodings, h1, Res.bind_ok, Bool.false_eq_true, if_false,
      setIdsLoop, h0, h3]
    rfl
  | true =>
    simp only [if_true] at h2
    simp only [byteLevelProcessor, byteLevelProcess, prepareEncodings, h1, Res.bind_ok, if_true, mapRes, h2,
      setIdsLoop, h0, h3]
    rfl

/-- C102 (pair): the entries of the first text with type id 0, then those of the second with type id 1, each trimmed
exactly if wanted. -/
theorem C102_pair (trim a special : Bool) (e e' : Encoding) (hf : Fresh e) (ha : e.Aligned)
    (ho : ∀ o ∈ e.overflowing, o.Aligned) (hf' : Fresh e') (ha' : e'.Aligned)
    (ho' : ∀ o ∈ e'.overflowing, o.Aligned) :
    ∃ r x y, (byteLevelProcessor trim a).process e (some e') special = .ok (some r) ∧ AsSequence trim a 0 e x ∧
      AsSequence trim a 1 e' y ∧ (∀ f, r.arr f = x.arr f ++ y.arr f) ∧
      (byteLevelProcessor trim a).addedTokens true = 0 := by
  obtain ⟨p, q, l, x, h1, h2, h0, h3, h4, h5⟩ := byteOne trim a 0 e hf ha ho
  obtain ⟨p', q', l', y, h1', h2', h0', h3', h4', h5'⟩ := byteOne trim a 1 e' hf' ha' ho'
  obtain ⟨r, k1, k2⟩ := mergeEncodings_ok [x, y] (by simp) (by
    intro z hz
    simp only [List.mem_cons, List.not_mem_nil, or_false] at hz
    rcases hz with rfl | rfl
    · exact h4
    · exact h4') false
  refine ⟨r, x, y, ?_, h5, h5', ?_, rfl⟩
  · cases trim with
    | false =>
      simp only [Bool.false_eq_true, if_false, Res.ok.injEq] at h2 h2'
      subst h2 h2'
      simp only [byteLevelProcessor, byteLevelProcess, prepareEncodings, h1, h1', Res.bind_ok, Bool.false_eq_true,
        if_false, setIdsLoop, h0, h3, show (0 : Int) + 1 = 1 from rfl, h0', h3', k1]
    | true =>
      simp only [if_true] at h2 h2'
      simp only [byteLevelProcessor, byteLevelProcess, prepareEncodings, h1, h1', Res.bind_ok, if_true, mapRes, h2, h2',
        setIdsLoop, h0, h3, show (0 : Int) + 1 = 1 from rfl, h0', h3', k1]
  · intro f
    have := mergeEncodings_arr k1 f
    simpa using this

/-! ### A case -/

def spacedEnc : Encoding :=
  { ids := [1, 2], typeIds := [0, 0], tokens := [['Ġ', 'a'], ['Ġ', 'b', 'Ġ']], offsets := [(0, 2), (2, 5)]
    specialMask := [0, 0], attentionMask := [1, 1], words := [0, 1], overflowing := [], ranges := some [] }

/-- " a b " with and without a space that was put in front. -/
example : ((byteLevelProcessor true false).process spacedEnc none false).bind (fun r => .ok (r.map (·.offsets))) =
      .ok (some [(1, 2), (3, 4)]) ∧
    ((byteLevelProcessor true true).process spacedEnc none false).bind (fun r => .ok (r.map (·.offsets))) =
      .ok (some [(0, 2), (3, 4)]) := by decide +kernel

/-- It meets the hypotheses. -/
example : Fresh spacedEnc ∧ spacedEnc.Aligned ∧ ∀ o ∈ spacedEnc.overflowing, o.Aligned :=
  ⟨⟨⟨[], rfl, by intro p hp; cases hp⟩, by intro o ho; cases ho⟩, by intro f; cases f <;> rfl, by intro o ho; cases ho⟩

end Tok
