import Verif.Processor.TemplateLemmas

/-!
# C24: template post-processing
-/

namespace Tok

/-! ### Specification -/

/-- A sequence with the type id of its template piece. -/
def seqArr (e : Encoding) (typeId : Int) : (f : Field) → List f.Ty
  | .typeIds => List.replicate e.ids.length typeId
  | f => e.arr f

/-- The entries a special token contributes (it carries no words). -/
def specialArr (t : SpecialToken) (typeId : Int) : (f : Field) → List f.Ty
  | .ids => t.ids
  | .typeIds => List.replicate t.ids.length typeId
  | .tokens => t.tokens
  | .offsets => List.replicate t.ids.length (0, 0)
  | .specialMask => List.replicate t.ids.length 1
  | .attentionMask => List.replicate t.ids.length 1
  | .words => []

/-- What one piece of a template contributes to each array. -/
def pieceArr (tab : TokenTable) (a : Encoding) (b : Option Encoding) (special : Bool)
    (f : Field) : Piece → List f.Ty
  | .seq false ty => seqArr a ty f
  | .seq true ty => (match b with | some p => seqArr p ty f | none => [])
  | .special id ty =>
    if special then (match tab id with | some t => specialArr t ty f | none => []) else []

/-- The template can be applied: its special tokens are known, and it uses `$B`
only when there is a pair. -/
def TemplateFits (tab : TokenTable) (tpl : List Piece) (hasPair special : Bool) : Prop :=
  (∀ ty, .seq true ty ∈ tpl → hasPair = true) ∧
  (special = true → ∀ id ty, .special id ty ∈ tpl → ∃ t, tab id = some t)

/-- Sequence ranges as a tokenizer leaves them before post-processing, with the
nil maps `Truncate` puts into (non-empty) overflowing parts. -/
def Fresh (e : Encoding) : Prop :=
  (∃ l, e.ranges = some l ∧ GoodRanges l) ∧
  ∀ o ∈ e.overflowing, (∀ q ∈ o.overflowing, RangesOk q) ∧
    ((∃ l, o.ranges = some l ∧ GoodRanges l) ∨ (o.ranges = none ∧ o.ids ≠ []))

/-! ### Proof -/

theorem mapRes_setSequenceIds (i : Int) (os : List Encoding)
    (h : ∀ o ∈ os, (∀ q ∈ o.overflowing, RangesOk q) ∧
      ((∃ l, o.ranges = some l ∧ GoodRanges l) ∨ (o.ranges = none ∧ o.ids ≠ []))) :
    ∃ os', mapRes (fun o => Encoding.setSequenceIds o i) os = .ok os' ∧
      ∀ o ∈ os', RangesOk o := by
  induction os with
  | nil => exact ⟨[], rfl, by simp⟩
  | cons o os ih =>
    obtain ⟨os', h1, h2⟩ := ih (fun x hx => h x (by simp [hx]))
    obtain ⟨o', g1, g2, g3, g4, g5⟩ := setSequenceIds_ok o i
    obtain ⟨c1, c2⟩ := h o (by simp)
    unfold mapRes
    rw [g1, h1]
    refine ⟨_, rfl, ?_⟩
    intro x hx
    rcases List.mem_cons.1 hx with rfl | hx
    · rcases c2 with ⟨l, c2, c3⟩ | ⟨c2, c3⟩
      · obtain ⟨l', d1, d2⟩ := g4 l c2 c3
        exact RangesOk.intro d1 d2 (by rw [g3]; exact c1)
      · obtain ⟨l', d1, d2⟩ := g5 c3 c2
        exact RangesOk.intro d1 d2 (by rw [g3]; exact c1)
    · exact h2 x hx

theorem prepareOne_ok (i : Int) (e : Encoding) (hf : Fresh e) :
    ∃ e', prepareOne i e = .ok e' ∧ RangesOk e' ∧ (∀ ty f, seqArr e' ty f = seqArr e ty f) := by
  obtain ⟨e1, g1, g2, g3, g4, g5⟩ := setSequenceIds_ok e i
  obtain ⟨⟨l, hl, hg⟩, ho⟩ := hf
  obtain ⟨os', h1, h2⟩ := mapRes_setSequenceIds i e1.overflowing (by rw [g3]; exact ho)
  obtain ⟨l', d1, d2⟩ := g4 l hl hg
  unfold prepareOne
  rw [g1]
  simp only [Res.bind_ok]
  rw [h1]
  simp only [Res.bind_ok]
  have hi := g2 .ids; have h3 := g2 .tokens; have h4 := g2 .offsets
  have h5 := g2 .specialMask; have h6 := g2 .attentionMask; have h7 := g2 .words
  simp only [Encoding.arr] at hi h3 h4 h5 h6 h7
  split
  · refine ⟨_, rfl, RangesOk.intro d1 d2 h2, ?_⟩
    intro ty f; cases f <;> simp [seqArr, Encoding.arr, hi, h3, h4, h5, h6, h7]
  · refine ⟨_, rfl, RangesOk.intro d1 d2 h2, ?_⟩
    intro ty f; cases f <;> simp [seqArr, Encoding.arr, hi, h3, h4, h5, h6, h7]

theorem applyTemplate_ok (tab : TokenTable) (a : Encoding) (b : Option Encoding)
    (encs : List Encoding) (special : Bool) (tpl : List Piece)
    (hencs : encs = a :: (match b with | none => [] | some p => [p]))
    (hra : RangesOk a) (hrb : ∀ p, b = some p → RangesOk p)
    (hfit : TemplateFits tab tpl b.isSome special) :
    ∃ es, applyTemplate tab encs special tpl = .ok es ∧ (∀ e ∈ es, RangesOk e) ∧
      ∀ f, (es.map (fun x => Encoding.arr x f)).flatten
        = tpl.flatMap (pieceArr tab a b special f) := by
  induction tpl with
  | nil => exact ⟨[], rfl, by simp, by simp⟩
  | cons p tpl ih =>
    obtain ⟨es, h1, h2, h3⟩ := ih ⟨fun ty h => hfit.1 ty (by simp [h]),
      fun hs id ty h => hfit.2 hs id ty (by simp [h])⟩
    cases p with
    | seq isB ty =>
      obtain ⟨x, hx, hxr, hxs⟩ : ∃ x, idx encs (if isB then 1 else 0) = .ok x ∧ RangesOk x ∧
          ∀ f, seqArr x ty f = pieceArr tab a b special f (.seq isB ty) := by
        cases isB with
        | false => exact ⟨a, by rw [hencs]; rfl, hra, fun f => rfl⟩
        | true =>
          have := hfit.1 ty (by simp)
          cases b with
          | none => cases this
          | some p => exact ⟨p, by rw [hencs]; rfl, hrb p rfl, fun f => rfl⟩
      obtain ⟨y, g1, g2, g3, g4, g5⟩ := setSequenceIds_ok
        { x with typeIds := List.replicate x.ids.length ty } (if isB then 1 else 0)
      obtain ⟨l, hl, hg⟩ := hxr.ranges
      obtain ⟨l', d1, d2⟩ := g4 l hl hg
      unfold applyTemplate
      simp only [hx, Res.bind_ok, g1, h1]
      refine ⟨_, rfl, ?_, ?_⟩
      · intro e he
        rcases List.mem_cons.1 he with rfl | he
        · exact RangesOk.intro d1 d2 (by rw [g3]; exact hxr.over)
        · exact h2 e he
      · intro f
        simp only [List.map_cons, List.flatten_cons, List.flatMap_cons, h3]
        congr 1
        rw [g2, ← hxs]
        cases f <;> rfl
    | special id ty =>
      cases special with
      | false =>
        unfold applyTemplate
        refine ⟨es, by simpa using h1, h2, ?_⟩
        intro f
        rw [h3, List.flatMap_cons]
        simp [pieceArr]
      | true =>
        obtain ⟨t, ht⟩ := hfit.2 rfl id ty (by simp)
        unfold applyTemplate
        simp only [if_true, ht, h1, Res.bind_ok]
        refine ⟨_, rfl, ?_, ?_⟩
        · intro e he
          rcases List.mem_cons.1 he with rfl | he
          · exact rangesOk_leaf _ rfl rfl
          · exact h2 e he
        · intro f
          simp only [List.map_cons, List.flatten_cons, List.flatMap_cons, h3]
          congr 1
          cases f <;> simp [pieceArr, ht, specialArr, newEncoding, Encoding.arr]

/-- The template used for the given inputs. -/
def TemplateProc.chosen (tp : TemplateProc) (isPair : Bool) : List Piece :=
  if isPair then tp.pair else tp.single

/-- The part of the template that produces something. -/
def ProducesSomething (tpl : List Piece) (special : Bool) : Prop :=
  (∃ b ty, .seq b ty ∈ tpl) ∨ (special = true ∧ tpl ≠ [])

theorem applyTemplate_ne_nil (tab : TokenTable) (encs : List Encoding) (special : Bool)
    (tpl : List Piece) (es : List Encoding) (h : applyTemplate tab encs special tpl = .ok es)
    (hp : ProducesSomething tpl special) : es ≠ [] := by
  induction tpl generalizing es with
  | nil => rcases hp with ⟨b, ty, h⟩ | ⟨-, h⟩ <;> simp at h
  | cons p tpl ih =>
    cases p with
    | seq isB ty =>
      unfold applyTemplate at h
      simp only [Res.bind_eq_ok] at h
      obtain ⟨_, _, _, _, _, _, h⟩ := h
      cases h; simp
    | special id ty =>
      unfold applyTemplate at h
      cases special with
      | true =>
        simp only [if_true] at h
        split at h
        · cases h
        · simp only [Res.bind_eq_ok] at h
          obtain ⟨_, _, h⟩ := h
          cases h; simp
      | false =>
        simp only [Bool.false_eq_true, if_false] at h
        refine ih es h ?_
        rcases hp with ⟨b, ty', h⟩ | ⟨h, -⟩
        · rcases List.mem_cons.1 h with h | h
          · cases h
          · exact Or.inl ⟨b, ty', h⟩
        · cases h

/-- C24.  For inputs fresh from truncation and a template that fits, `Process`
succeeds and every array is the concatenation, in template order, of what the
pieces contribute: sequences with the piece's type id, special tokens only when
asked for. -/
theorem C24_template (tp : TemplateProc) (e : Encoding) (pair : Option Encoding) (special : Bool)
    (he : Fresh e) (hp : ∀ p, pair = some p → Fresh p)
    (hfit : TemplateFits tp.tab (tp.chosen pair.isSome) pair.isSome special)
    (hsome : ProducesSomething (tp.chosen pair.isSome) special) :
    ∃ r, tp.process e pair special = .ok (some r) ∧
      ∀ f, r.arr f = (tp.chosen pair.isSome).flatMap (pieceArr tp.tab e pair special f) := by
  obtain ⟨a, ha1, ha2, ha3⟩ := prepareOne_ok 0 e he
  obtain ⟨b, encs, hprep, hencs, hrb, hbs⟩ : ∃ (b : Option Encoding) (encs : List Encoding),
      prepareEncodings e pair = .ok encs ∧
      encs = a :: (match b with | none => [] | some p => [p]) ∧
      (∀ p, b = some p → RangesOk p) ∧
      (b.isSome = pair.isSome ∧ ∀ f q, pieceArr tp.tab a b special f q
        = pieceArr tp.tab e pair special f q) := by
    unfold prepareEncodings
    rw [ha1]
    cases pair with
    | none =>
      refine ⟨none, [a], rfl, rfl, by simp, rfl, ?_⟩
      intro f q
      cases q with
      | seq isB ty => cases isB <;> simp [pieceArr, ha3]
      | special id ty => rfl
    | some p =>
      obtain ⟨b, hb1, hb2, hb3⟩ := prepareOne_ok 1 p (hp p rfl)
      refine ⟨some b, [a, b], by simp [hb1], rfl, by rintro _ ⟨⟩; exact hb2, rfl, ?_⟩
      intro f q
      cases q with
      | seq isB ty => cases isB <;> simp [pieceArr, ha3, hb3]
      | special id ty => rfl
  obtain ⟨es, h1, h2, h3⟩ := applyTemplate_ok tp.tab a b encs special (tp.chosen pair.isSome) hencs
    ha2 hrb (by rw [hbs.1]; exact hfit)
  obtain ⟨r, h4, -⟩ := mergeEncodings_ok es (applyTemplate_ne_nil _ _ _ _ _ h1 hsome) h2 false
  refine ⟨r, ?_, ?_⟩
  · unfold TemplateProc.process
    rw [hprep]
    simp only [Res.bind_ok]
    unfold TemplateProc.chosen at h1
    rw [h1]
    exact h4
  · intro f
    rw [mergeEncodings_arr h4, h3]
    have : pieceArr tp.tab a b special f = pieceArr tp.tab e pair special f :=
      funext (hbs.2 f)
    rw [this]

/-- Total length of the sequences a template uses, with repetition. -/
def usedLen (e : Encoding) (pair : Option Encoding) : List Piece → Nat
  | [] => 0
  | .seq false _ :: rest => e.ids.length + usedLen e pair rest
  | .seq true _ :: rest =>
    (match pair with | some p => p.ids.length | none => 0) + usedLen e pair rest
  | .special _ _ :: rest => usedLen e pair rest

/-- C24.  With special tokens the length is that of the sequences used plus the
announced number of added tokens; without them it is that of the sequences. -/
theorem C24_template_length (tp : TemplateProc) (e : Encoding) (pair : Option Encoding)
    (special : Bool) (he : Fresh e) (hp : ∀ p, pair = some p → Fresh p)
    (hfit : TemplateFits tp.tab (tp.chosen pair.isSome) pair.isSome special)
    (hsome : ProducesSomething (tp.chosen pair.isSome) special) :
    ∃ r, tp.process e pair special = .ok (some r) ∧
      r.ids.length = usedLen e pair (tp.chosen pair.isSome) +
        (if special then tp.addedTokens pair.isSome else 0) := by
  obtain ⟨r, h1, h2⟩ := C24_template tp e pair special he hp hfit hsome
  refine ⟨r, h1, ?_⟩
  have := congrArg List.length (h2 .ids)
  simp only [Encoding.arr] at this
  rw [this]
  have hadd : tp.addedTokens pair.isSome = countAdded (tp.chosen pair.isSome) tp.tab := by
    unfold TemplateProc.addedTokens TemplateProc.chosen
    split <;> rfl
  rw [hadd]
  generalize tp.chosen pair.isSome = tpl at hfit
  clear h2 h1 hsome this hadd
  induction tpl with
  | nil => simp [usedLen, countAdded]
  | cons q tpl ih =>
    have ih := ih ⟨fun ty h => hfit.1 ty (by simp [h]),
      fun hs id ty h => hfit.2 hs id ty (by simp [h])⟩
    rw [List.flatMap_cons, List.length_append, ih]
    cases q with
    | seq isB ty =>
      cases isB with
      | false => simp only [pieceArr, seqArr, Encoding.arr, usedLen, countAdded]; omega
      | true =>
        cases pair with
        | none => simp [pieceArr, usedLen, countAdded]
        | some p => simp only [pieceArr, seqArr, Encoding.arr, usedLen, countAdded]; omega
    | special id ty =>
      cases special with
      | false => simp [pieceArr, usedLen]
      | true =>
        obtain ⟨t, ht⟩ := hfit.2 rfl id ty (by simp)
        simp only [pieceArr, ht, specialArr, usedLen, countAdded, if_true]
        omega

/-- C24.  Without special tokens no special token appears: every entry of the
result comes from an input sequence. -/
theorem C24_template_no_special (tp : TemplateProc) (e : Encoding) (pair : Option Encoding)
    (he : Fresh e) (hp : ∀ p, pair = some p → Fresh p)
    (hfit : TemplateFits tp.tab (tp.chosen pair.isSome) pair.isSome false)
    (hsome : ProducesSomething (tp.chosen pair.isSome) false) :
    ∃ r, tp.process e pair false = .ok (some r) ∧
      ∀ t ∈ r.tokens, t ∈ e.tokens ∨ ∃ p, pair = some p ∧ t ∈ p.tokens := by
  obtain ⟨r, h1, h2⟩ := C24_template tp e pair false he hp hfit hsome
  refine ⟨r, h1, ?_⟩
  intro t ht
  have := h2 .tokens
  simp only [Encoding.arr] at this
  rw [this, List.mem_flatMap] at ht
  obtain ⟨q, -, hq⟩ := ht
  cases q with
  | seq isB ty =>
    cases isB with
    | false => exact Or.inl hq
    | true =>
      cases pair with
      | none => simp [pieceArr] at hq
      | some p => exact Or.inr ⟨p, rfl, hq⟩
  | special id ty => simp [pieceArr] at hq

/-- A `[CLS] $A [SEP] $B:1 [SEP]:1` template. -/
def sampleTemplate : TemplateProc where
  single := [.special ['C'] 0, .seq false 0, .special ['S'] 0]
  pair := [.special ['C'] 0, .seq false 0, .special ['S'] 0, .seq true 1, .special ['S'] 1]
  tab := fun k =>
    if k = ['C'] then some ⟨['C'], [101], [['C']]⟩
    else if k = ['S'] then some ⟨['S'], [102], [['S']]⟩ else none

/-- The hypotheses are met by the usual template. -/
example : TemplateFits sampleTemplate.tab (sampleTemplate.chosen true) true true ∧
    ProducesSomething (sampleTemplate.chosen true) true ∧
    Fresh { sampleEnc with ranges := some [] } := by
  refine ⟨⟨fun _ _ => rfl, fun _ id ty h => ?_⟩, Or.inr ⟨rfl, by decide⟩, ⟨[], rfl, ?_⟩, ?_⟩
  · simp only [TemplateProc.chosen, sampleTemplate, if_true, List.mem_cons, Piece.special.injEq,
      List.not_mem_nil, or_false, reduceCtorEq, false_or] at h
    rcases h with h | h | h <;> obtain ⟨rfl, -⟩ := h <;> simp [sampleTemplate]
  · intro p hp; cases hp
  · simp [sampleEnc]

/-- C24, where a template does not fit: a special token that is missing from the
table is counted as zero added tokens and makes `Process` panic. -/
theorem C24_missing_token_panics (tab : TokenTable) (id : Str) (ty : Int) (rest : List Piece)
    (encs : List Encoding) (h : tab id = none) :
    countAdded (.special id ty :: rest) tab = countAdded rest tab ∧
    applyTemplate tab encs true (.special id ty :: rest) = .panic := by
  constructor
  · simp [countAdded, h]
  · simp [applyTemplate, h]

/-- C24, where a template does not fit: `$B` without a pair is an index out of
range. -/
theorem C24_missing_pair_panics (tab : TokenTable) (a : Encoding) (ty : Int) (rest : List Piece)
    (special : Bool) : applyTemplate tab [a] special (.seq true ty :: rest) = .panic := by
  simp [applyTemplate, idx]

theorem applyTemplate_nothing (tab : TokenTable) (encs : List Encoding) (tpl : List Piece)
    (h : ∀ b ty, Piece.seq b ty ∉ tpl) : applyTemplate tab encs false tpl = .ok [] := by
  induction tpl with
  | nil => rfl
  | cons p tpl ih =>
    cases p with
    | seq b ty => exact absurd (List.mem_cons_self ..) (h b ty)
    | special id ty =>
      simp only [applyTemplate, Bool.false_eq_true, if_false]
      exact ih (fun b ty hm => h b ty (List.mem_cons_of_mem _ hm))

/-- C24 fails for a template of special tokens only when no special tokens are asked for, always: there
is no encoding at all, and with padding the post-processing panics. -/
theorem C24_nothing_violated (tp : TemplateProc) (e : Encoding) (he : Fresh e)
    (h : ∀ b ty, Piece.seq b ty ∉ tp.single) :
    tp.process e none false = .ok none ∧
    postProcess none (some tp.toProcessor) none e none false = .ok none ∧
    ∀ pp, postProcess none (some tp.toProcessor) (some pp) e none false = .panic := by
  obtain ⟨a, ha1, -, -⟩ := prepareOne_ok 0 e he
  have hp : tp.process e none false = .ok none := by
    unfold TemplateProc.process prepareEncodings
    rw [ha1]
    simp only [Res.bind_ok, Option.isSome_none, Bool.false_eq_true, if_false, applyTemplate_nothing _ _ _ h]
    rfl
  refine ⟨hp, ?_, fun pp => ?_⟩
  · simp only [postProcess, postTruncate, Res.bind_ok, TemplateProc.toProcessor, hp]
  · simp only [postProcess, postTruncate, Res.bind_ok, TemplateProc.toProcessor, hp]

example : postProcess none (some (⟨[.special ['C'] 0], [], fun _ => none⟩ : TemplateProc).toProcessor)
    (some ⟨.batchLongest, .right, 0, 0, ['P']⟩) { sampleEnc with ranges := some [] } none false = .panic :=
  (C24_nothing_violated _ _ ⟨⟨[], rfl, fun p hp => by cases hp⟩, by simp [sampleEnc]⟩ (by simp)).2.2 _

end Tok
