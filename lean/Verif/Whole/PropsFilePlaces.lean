import Verif.Whole.PropsFilePairs

/-!
# C142: the special tokens of a file do not move the tokens of the text
-/

namespace Tok.Whole

open Tok.PreTok Tok.Added Tok.Config

/-! ### Specification -/

/-- The section "post_processor" puts these tokens (with their ids) before and after a text: there is none, or a single
post-processor, or a Sequence of ByteLevel post-processors with such a post-processor at the end. -/
inductive SurroundsOnce : Option (List (Str × Val)) → List (Str × Int) → List (Str × Int) → Prop
  | none : SurroundsOnce none [] []
  | one (q : List (Str × Val)) (before after : List (Str × Int)) : OneAdds q before after → SurroundsOnce (some q) before after
  | sequence (q : List (Str × Val)) (xs : List (List (Str × Val))) (y : List (Str × Val)) (before after : List (Str × Int)) :
      TypeIs q "Sequence" → get q "processors" = .arr ((xs ++ [y]).map .obj) →
      (∀ x ∈ xs, TypeIs x "ByteLevel" ∧ ∃ a t, FlagIs x "add_prefix_space" a ∧ FlagIs x "trim_offsets" t) →
      OneAdds y before after → SurroundsOnce (some q) before after

/-- `r` has the tokens of the text of `e` where `e` has them, with `b` special tokens before and `a` after them; the special
tokens are at (0, 0), and the special token mask tells them from the tokens of the text. -/
structure Beside (b a : Nat) (e r : Encoding) : Prop where
  offsets : r.offsets = List.replicate b (0, 0) ++ e.offsets ++ List.replicate a (0, 0)
  special : r.specialMask = List.replicate b 1 ++ List.replicate e.ids.length 0 ++ List.replicate a 1
  attention : r.attentionMask = List.replicate (b + e.ids.length + a) 1

/-! ### Lemmas -/

/-- No entry is special, and every entry is attended to. -/
def PlainMasks (e : Encoding) : Prop :=
  e.specialMask = List.replicate e.ids.length 0 ∧ e.attentionMask = List.replicate e.ids.length 1

theorem beside_self {e : Encoding} (h : PlainMasks e) : Beside 0 0 e e :=
  ⟨by simp, by simp [h.1], by simp [h.2]⟩

theorem masks_of {e r : Encoding} (h : PlainMasks e) (hi : r.ids = e.ids) (hs : r.specialMask = e.specialMask)
    (ha : r.attentionMask = e.attentionMask) : PlainMasks r := by
  unfold PlainMasks
  rw [hi, hs, ha]
  exact h

theorem trimmed_same {a : Bool} {e t : Encoding} (ha : e.Aligned) (h : Trimmed a e t) (f : Field) (hf : f ≠ .offsets) :
    t.arr f = e.arr f := by
  obtain ⟨⟨d, d1, d2⟩, _⟩ := h
  obtain ⟨d', d3, d4, _⟩ := processOffsets_trimmed e ha a
  rw [d3] at d1
  cases d1
  rw [d2, ← d4 f hf]

theorem byteLevel_beside (t a : Bool) {e : Encoding} (he : Delivered e) (hm : PlainMasks e) :
    ∃ r, (∀ special, (procFn (.byteLevel a t)).process e none special = .ok (some r)) ∧ Delivered r ∧ PlainMasks r := by
  have ho : ∀ o ∈ e.overflowing, o.Aligned := by rw [he.2.1]; simp
  obtain ⟨r, k1, k2, _⟩ := C102_single t a true e he.usable.2.2 he.1 ho
  have hr := byteLevel_deepAligned t a (.mk _ he.1 (by rw [he.2.1]; simp)) (by simp) k1
  refine ⟨r, fun special => by rw [procFn]; exact k1, ⟨hr.aligned, ?_, ?_⟩, masks_of hm ?_ ?_ ?_⟩
  · have := k2.parts
    rw [he.2.1] at this
    cases h : r.overflowing with
    | nil => rfl
    | cons _ _ => rw [h] at this; cases this
  · exact (byteLevel_ranges t a true e he.usable.2.2 he.1 ho k1).ranges
  · exact k2.same .ids (by simp)
  · exact k2.same .specialMask (by simp)
  · exact k2.same .attentionMask (by simp)

theorem one_beside {q : List (Str × Val)} {before after : List (Str × Int)} (h : OneAdds q before after) :
    ∃ c, ProcDesc q c ∧ ∀ e : Encoding, Delivered e → PlainMasks e → ∃ x r, (procFn c).process e none false = .ok (some x) ∧
      (procFn c).process e none true = .ok (some r) ∧ PlainMasks x ∧ Beside before.length after.length x r ∧
      ((∃ tp, c = .template tp) → x.offsets = e.offsets) := by
  cases h with
  | plain h =>
    cases h with
    | bert cls sep h1 h2 h3 =>
      refine ⟨_, .bert q sep cls h1 h3 h2, fun e he hm => ?_⟩
      obtain ⟨r, k1, k2, k3, _⟩ := C22_bert_single (Bert.mk ⟨sep.1, sep.2⟩ ⟨cls.1, cls.2⟩) e
      refine ⟨e, r, by rw [procFn]; rfl, by rw [procFn]; exact k1, hm, ⟨?_, ?_, ?_⟩, fun _ => rfl⟩
      · exact k2 .offsets
      · exact k2 .specialMask
      · have := k2 .attentionMask
        simp only [Encoding.arr, bertSingle, plainArr, specialEntry] at this
        rw [this]
        simp [List.replicate_add]
    | roberta cls sep a h1 h2 h3 h4 h5 =>
      refine ⟨_, .roberta q sep cls true a h1 h3 h2 h4 h5, fun e he hm => ?_⟩
      have ho : ∀ o ∈ e.overflowing, o.Aligned := by rw [he.2.1]; simp
      obtain ⟨t, r, k0, k1, k2, k3, _⟩ := C23_roberta_single_partial (Roberta.mk ⟨sep.1, sep.2⟩ ⟨cls.1, cls.2⟩ true a) rfl e he.1 ho
      obtain ⟨t', g1, g0⟩ := processOffsetsDeep_ok e a he.1 ho
      have htt : t' = t := by
        unfold Roberta.process at k1
        simp only [if_true, g1, Res.bind_ok, optMapRes, Bool.not_true, Bool.false_eq_true, if_false, Res.ok.injEq,
          Option.some.injEq] at k1
        have hov : ∀ t, Trimmed a e t → t.overflowing = [] := by
          intro t h
          have := h.2
          rw [he.2.1] at this
          cases h' : t.overflowing with
          | nil => rfl
          | cons _ _ => rw [h'] at this; cases this
        obtain ⟨⟨d, d1, d2⟩, _⟩ := id k0
        obtain ⟨⟨d', d1', d2'⟩, _⟩ := id g0
        rw [d1] at d1'
        cases d1'
        rw [d2, d2', hov t k0, hov t' g0]
      subst htt
      refine ⟨t', r, ?_, by rw [procFn]; exact k1, ?_, ⟨?_, ?_, ?_⟩, nofun⟩
      · rw [procFn]
        simp [Roberta.toProcessor, Roberta.process, g1, optMapRes, defaultProcess]
      · exact masks_of hm (trimmed_same he.1 k0 .ids (by simp)) (trimmed_same he.1 k0 .specialMask (by simp))
          (trimmed_same he.1 k0 .attentionMask (by simp))
      · exact k2 .offsets
      · exact k2 .specialMask
      · have := k2 .attentionMask
        simp only [Encoding.arr, robertaSingle, plainArr, specialEntry] at this
        rw [this]
        simp [List.replicate_add]
    | byteLevel a t h1 h2 h3 =>
      refine ⟨_, .byteLevel q a t h1 h2 h3, fun e he hm => ?_⟩
      obtain ⟨r, k1, _, k2⟩ := byteLevel_beside t a he hm
      exact ⟨r, r, k1 false, k1 true, k2, beside_self k2, nofun⟩
  | template ty pair toks ht h1 h2 h3 h4 h5 =>
    obtain ⟨tp, g1, g2, g3, g4, g5⟩ := C52_processor q _ pair toks h1 h2 h3 h4
    refine ⟨.template tp, .template q tp ht g1, fun e he hm => ?_⟩
    have hc : tp.chosen (none : Option Encoding).isSome = before.map (fun p => Piece.special p.1 ty) ++ [.seq false ty] ++
        after.map (fun p => Piece.special p.1 ty) := by
      simp only [TemplateProc.chosen, Option.isSome_none, Bool.false_eq_true, if_false, g2, surround]
    have htab : ∀ p ∈ before ++ after, tp.tab p.1 = some ⟨p.1, [p.2], [p.1]⟩ := fun p hp => g4 _ (h5 p hp)
    have hb : ∀ p ∈ before, tp.tab p.1 = some ⟨p.1, [p.2], [p.1]⟩ := fun p hp => htab p (by simp [hp])
    have ha : ∀ p ∈ after, tp.tab p.1 = some ⟨p.1, [p.2], [p.1]⟩ := fun p hp => htab p (by simp [hp])
    have key : ∀ special : Bool, ∃ r, tp.process e none special = .ok (some r) ∧
        r.offsets = List.replicate (asked special before).length (0, 0) ++ e.offsets ++
          List.replicate (asked special after).length (0, 0) ∧
        r.specialMask = List.replicate (asked special before).length 1 ++ e.specialMask ++
          List.replicate (asked special after).length 1 ∧
        r.attentionMask = List.replicate (asked special before).length 1 ++ e.attentionMask ++
          List.replicate (asked special after).length 1 ∧
        r.ids.length = (asked special before).length + e.ids.length + (asked special after).length := by
      intro special
      obtain ⟨r, k1, k2⟩ := C24_template tp e none special he.usable.2.2 (by simp)
        (by
          rw [hc]
          refine ⟨by intro ty h; simp at h, fun _ id ty h => ?_⟩
          simp only [List.mem_append, List.mem_map, List.mem_singleton, Piece.special.injEq, reduceCtorEq, or_false] at h
          rcases h with ⟨p, hp, rfl, _⟩ | ⟨p, hp, rfl, _⟩
          · exact ⟨_, htab p (by simp [hp])⟩
          · exact ⟨_, htab p (by simp [hp])⟩)
        (by
          rw [hc]
          exact .inl ⟨false, ty, by simp⟩)
      rw [hc] at k2
      refine ⟨r, k1, ?_, ?_, ?_, ?_⟩
      · have := k2 .offsets
        rw [List.flatMap_append, List.flatMap_append, pieceArr_specials (f := .offsets) before ty hb (fun _ => (0, 0)) (fun _ _ => rfl) special,
          pieceArr_specials (f := .offsets) after ty ha (fun _ => (0, 0)) (fun _ _ => rfl) special] at this
        simpa [pieceArr, seqArr, Encoding.arr, List.map_const'] using this
      · have := k2 .specialMask
        rw [List.flatMap_append, List.flatMap_append, pieceArr_specials (f := .specialMask) before ty hb (fun _ => (1 : Int)) (fun _ _ => rfl) special,
          pieceArr_specials (f := .specialMask) after ty ha (fun _ => (1 : Int)) (fun _ _ => rfl) special] at this
        simpa [pieceArr, seqArr, Encoding.arr, List.map_const'] using this
      · have := k2 .attentionMask
        rw [List.flatMap_append, List.flatMap_append, pieceArr_specials (f := .attentionMask) before ty hb (fun _ => (1 : Int)) (fun _ _ => rfl) special,
          pieceArr_specials (f := .attentionMask) after ty ha (fun _ => (1 : Int)) (fun _ _ => rfl) special] at this
        simpa [pieceArr, seqArr, Encoding.arr, List.map_const'] using this
      · have := congrArg List.length (k2 .ids)
        rw [List.flatMap_append, List.flatMap_append, pieceArr_specials (f := .ids) before ty hb (fun p => p.2) (fun _ _ => rfl) special,
          pieceArr_specials (f := .ids) after ty ha (fun p => p.2) (fun _ _ => rfl) special] at this
        simpa [pieceArr, seqArr, Encoding.arr, Nat.add_assoc] using this
    obtain ⟨x, x1, x2, x3, x4, x5⟩ := key false
    obtain ⟨r, r1, r2, r3, r4, r5⟩ := key true
    simp only [asked, Bool.false_eq_true, if_false, List.length_nil, List.replicate_zero, List.nil_append, List.append_nil,
      Nat.zero_add, Nat.add_zero] at x2 x3 x4 x5
    simp only [asked, if_true] at r2 r3 r4
    refine ⟨x, r, by rw [procFn]; exact x1, by rw [procFn]; exact r1, ⟨by rw [x3, x5]; exact hm.1, by rw [x4, x5]; exact hm.2⟩,
      ⟨?_, ?_, ?_⟩, fun _ => x2⟩
    · rw [r2, x2]
    · rw [r3, x5, hm.1]
    · rw [r4, x5, hm.2, List.replicate_append_replicate, List.replicate_append_replicate]

theorem seq_beside {y : List (Str × Val)} {before after : List (Str × Int)} (hy : OneAdds y before after)
    (xs : List (List (Str × Val)))
    (h : ∀ x ∈ xs, TypeIs x "ByteLevel" ∧ ∃ a t, FlagIs x "add_prefix_space" a ∧ FlagIs x "trim_offsets" t) :
    ∃ cs : List ProcCfg, (xs ++ [y]).length = cs.length ∧
      (∀ (i : Nat) x c, (xs ++ [y])[i]? = some x → cs[i]? = some c → ProcDesc x c) ∧
      ∀ e : Encoding, Delivered e → PlainMasks e → ∃ x r, sequenceProcess (procFns cs) e none false = .ok (some x) ∧
        sequenceProcess (procFns cs) e none true = .ok (some r) ∧ PlainMasks x ∧ Beside before.length after.length x r := by
  induction xs with
  | nil =>
    obtain ⟨c, h1, h2⟩ := one_beside hy
    refine ⟨[c], rfl, ?_, fun e he hm => ?_⟩
    · intro i x d hx hd
      cases i with
      | zero => cases hx; cases hd; exact h1
      | succ i => cases hd
    · obtain ⟨x, r, k1, k2, k3, k4, _⟩ := h2 e he hm
      refine ⟨x, r, ?_, ?_, k3, k4⟩
      · simp only [procFns, sequenceProcess, k1, Res.bind_ok]
      · simp only [procFns, sequenceProcess, k2, Res.bind_ok]
  | cons z xs ih =>
    obtain ⟨cs, i1, i2, i3⟩ := ih (fun w hw => h w (by simp [hw]))
    obtain ⟨z1, a, t, z2, z3⟩ := h z (by simp)
    refine ⟨.byteLevel a t :: cs, by simpa using i1, ?_, fun e he hm => ?_⟩
    · intro i w d hw hd
      cases i with
      | zero => cases hw; cases hd; exact .byteLevel z a t z1 z2 z3
      | succ i => exact i2 i w d (by simpa using hw) (by simpa using hd)
    · obtain ⟨e', k1, k2, k3⟩ := byteLevel_beside t a he hm
      obtain ⟨x, r, l1, l2, l3, l4⟩ := i3 e' k2 k3
      refine ⟨x, r, ?_, ?_, l3, l4⟩
      · simp only [procFns, sequenceProcess, k1, Res.bind_ok, l1]
      · simp only [procFns, sequenceProcess, k1, Res.bind_ok, l2]

theorem rows_masks (rows : List Row) (ty : Int) : PlainMasks (ofRows rows ty) := by
  simp [PlainMasks, ofRows]

theorem once_post {o : Option (List (Str × Val))} {before after : List (Str × Int)} (h : SurroundsOnce o before after) :
    ∃ pc, fromSection createProc o = .ok pc ∧ ∀ rows : List Row, ∃ x r,
      postProcess none (pc.map procFn) none (ofRows rows 0) none false = .ok (some x) ∧
      postProcess none (pc.map procFn) none (ofRows rows 0) none true = .ok (some r) ∧ Beside before.length after.length x r := by
  cases h with
  | none => exact ⟨none, rfl, fun rows => ⟨ofRows rows 0, ofRows rows 0, rfl, rfl, beside_self (rows_masks rows 0)⟩⟩
  | one q _ _ h =>
    obtain ⟨c, h1, h2⟩ := one_beside h
    refine ⟨some c, fromSection_some (C70_postProcessor q _ h1), fun rows => ?_⟩
    obtain ⟨x, r, k1, k2, _, k3, _⟩ := h2 _ (ofRows_delivered rows 0) (rows_masks rows 0)
    refine ⟨x, r, ?_, ?_, k3⟩
    · simp only [Option.map_some, postProcess, postTruncate, Res.bind_ok, k1]
    · simp only [Option.map_some, postProcess, postTruncate, Res.bind_ok, k2]
  | sequence q xs y _ _ h1 h2 h3 h4 =>
    obtain ⟨cs, k1, k2, k3⟩ := seq_beside h4 xs h3
    refine ⟨some (.sequence cs), fromSection_some (C70_postProcessor q _ (.sequence q _ cs h1 h2 k1 k2)), fun rows => ?_⟩
    obtain ⟨x, r, l1, l2, _, l3⟩ := k3 _ (ofRows_delivered rows 0) (rows_masks rows 0)
    refine ⟨x, r, ?_, ?_, l3⟩
    · simp only [Option.map_some, postProcess, postTruncate, Res.bind_ok, procFn, sequenceProcessor, l1]
    · simp only [Option.map_some, postProcess, postTruncate, Res.bind_ok, procFn, sequenceProcessor, l2]

/-! ### C142 -/

/-- C142 (one text): whatever the other sections of a file are, the tokens of a text have the same offsets with special tokens
and without them; the special tokens are at (0, 0) and are the only ones that the special token mask marks. -/
theorem C142_single_partial (E : FileEnv) (c : FileConfig) (b : Built) (hb : fromReader E (some c) = .ok b)
    (htr : c.truncation = none) (hpad : c.padding = none) (before after : List (Str × Int))
    (hproc : SurroundsOnce c.postProcessor before after) (A : List UInt8) (e : Encoding)
    (he : b.tok.encodeSingle A [] = .ok (some e)) :
    ∃ r, b.tok.encodeSingle A [true] = .ok (some r) ∧ Beside before.length after.length e r := by
  obtain ⟨pc, h1, h2, h3, h4⟩ := file_post hb htr hpad
  obtain ⟨pc', g1, g2⟩ := once_post hproc
  rw [h1] at g1
  cases g1
  unfold Tokenizer.encodeSingle Tokenizer.encode Tokenizer.encodeWith at he ⊢
  obtain ⟨y, hy, he⟩ := Res.bind_eq_ok.mp he
  obtain ⟨rows, hr⟩ := encodeRaw_rows hy
  rw [hr] at hy
  cases hy
  obtain ⟨x, r, k1, k2, k3⟩ := g2 rows
  rw [h2, h3, h4] at he
  have he' := k1.symm.trans he
  cases he'
  refine ⟨r, ?_, k3⟩
  dsimp only
  rw [hr, h2, h3, h4]
  exact k2

/-! ### Pairs -/

/-- What the offsets of the rows of a text become. -/
def placesOf (trim a : Bool) (rows : List Row) : List (Int × Int) :=
  if trim then
    match trimLoop (rows.map (·.offsets)) a 0 (rows.map (·.token.value)) with
    | .ok l => l
    | _ => []
  else rows.map (·.offsets)

/-- The offsets and masks of an encoding whose parts are numbers of special tokens and texts. -/
structure Laid (place : List Row → List (Int × Int)) (l : List (Nat ⊕ List Row)) (r : Encoding) : Prop where
  offsets : r.offsets = l.flatMap (fun x => match x with | .inl n => List.replicate n (0, 0) | .inr rows => place rows)
  special : r.specialMask = l.flatMap (fun x => match x with | .inl n => List.replicate n (1 : Int) | .inr rows => List.replicate rows.length (0 : Int))
  attention : r.attentionMask = l.flatMap (fun x => match x with | .inl n => List.replicate n (1 : Int) | .inr rows => List.replicate rows.length (1 : Int))

theorem trimmed_places {e t : Encoding} {a : Bool} (rows : List Row) (ho : e.offsets = rows.map (·.offsets))
    (ht : e.tokens = rows.map (·.token.value)) (h : processOffsetsDeep e a = .ok t) : t.offsets = placesOf true a rows := by
  unfold processOffsetsDeep processOffsets at h
  obtain ⟨d, h1, h⟩ := Res.bind_eq_ok.mp h
  obtain ⟨o, h2, h1⟩ := Res.bind_eq_ok.mp h1
  obtain ⟨v, h3, h⟩ := Res.bind_eq_ok.mp h
  cases h1
  cases h
  simp only [placesOf, if_true]
  rw [← ho, ← ht, h2]

theorem byteOne_places (trim a : Bool) (i : Int) (rows : List Row) (ty : Int) :
    ∃ p q l r, prepareOne i (ofRows rows ty) = .ok p ∧ (if trim then processOffsetsDeep p a else .ok p) = .ok q ∧
      q.ranges = some l ∧ q.setSequenceIds i = .ok r ∧ RangesOk r ∧ AsSequence trim a i (ofRows rows ty) r ∧
      r.offsets = placesOf trim a rows := by
  obtain ⟨p, q, l, r, h1, h2, h3, h4, h5, h6⟩ := byteOne trim a i (ofRows rows ty) (ofRows_fresh _ _) (ofRows_aligned _ _)
    (by intro o ho; cases ho)
  refine ⟨p, q, l, r, h1, h2, h3, h4, h5, h6, ?_⟩
  obtain ⟨p', g1, g2, g3, _⟩ := prepareOne_seq i (ofRows rows ty) (ofRows_fresh _ _) (ofRows_aligned _ _)
  rw [h1] at g1
  cases g1
  obtain ⟨r', k1, k2, _⟩ := setSequenceIds_ok q i
  rw [h4] at k1
  cases k1
  have hr : r.offsets = q.offsets := k2 .offsets
  rw [hr]
  cases trim with
  | false =>
    cases h2
    exact g3 .offsets
  | true => exact trimmed_places rows (g3 .offsets) (g3 .tokens) h2

theorem merged_laid {x y : Encoding} {place : List Row → List (Int × Int)} {rows rows' : List Row} (hx : RangesOk x) (hy : RangesOk y)
    (h : Laid place [.inr rows] x) (h' : Laid place [.inr rows'] y) :
    ∃ r, x.mergeWith y false = .ok r ∧ Laid place [.inl 0, .inr rows, .inl 0, .inr rows', .inl 0] r := by
  obtain ⟨r, hr⟩ := mergeWith_isOk hx hy false
  have hm := merge_plain_arr hr
  refine ⟨r, hr, ?_, ?_, ?_⟩
  · have := hm .offsets
    simp only [Encoding.arr, h.offsets, h'.offsets] at this
    simpa using this
  · have := hm .specialMask
    simp only [Encoding.arr, h.special, h'.special] at this
    simpa using this
  · have := hm .attentionMask
    simp only [Encoding.arr, h.attention, h'.attention] at this
    simpa using this

theorem rows_laid (a : Bool) (rows : List Row) (ty : Int) : Laid (placesOf false a) [.inr rows] (ofRows rows ty) :=
  ⟨by simp [ofRows, placesOf], by simp [ofRows], by simp [ofRows]⟩

theorem trimmed_laid {a : Bool} {rows : List Row} {ty : Int} {t : Encoding} (h : processOffsetsDeep (ofRows rows ty) a = .ok t) :
    Laid (placesOf true a) [.inr rows] t := by
  obtain ⟨d, g1, g2, g3⟩ := trimmed_rows rows ty a
  rw [h] at g1
  cases g1
  refine ⟨by simpa using trimmed_places rows rfl rfl h, ?_, ?_⟩
  · have := g3 .specialMask (by simp)
    simpa [Encoding.arr, ofRows] using this
  · have := g3 .attentionMask (by simp)
    simpa [Encoding.arr, ofRows] using this

/-- Without special tokens, a single text has its places. -/
def AloneAs (pc : Option ProcCfg) (place : List Row → List (Int × Int)) : Prop :=
  ∀ rows : List Row, ∃ x, postProcess none (pc.map procFn) none (ofRows rows 0) none false = .ok (some x) ∧
    x.offsets = place rows ∧ x.ids.length = rows.length

theorem pair_laid {o : Option (List (Str × Val))} {b m a : List (Str × Int × Int)} {tyA tyB : Int}
    (h : PairAdds o b m a tyA tyB) :
    ∃ pc place, fromSection createProc o = .ok pc ∧ AloneAs pc place ∧ ∀ (special : Bool) (rows rows' : List Row), ∃ r,
      postProcess none (pc.map procFn) none (ofRows rows 0) (some (ofRows rows' 1)) special = .ok (some r) ∧
      Laid place [.inl (asked special b).length, .inr rows, .inl (asked special m).length, .inr rows', .inl (asked special a).length] r := by
  cases h with
  | none =>
    refine ⟨none, placesOf false false, rfl, fun rows => ⟨ofRows rows 0, rfl, by simp [ofRows, placesOf], by simp [ofRows]⟩,
      fun special rows rows' => ?_⟩
    obtain ⟨r, hr, h⟩ := merged_laid (ofRows_rangesOk rows 0) (ofRows_rangesOk rows' 1) (rows_laid false rows 0) (rows_laid false rows' 1)
    refine ⟨r, ?_, ?_⟩
    · simp [postProcess, postTruncate, defaultProcess, hr]
    · cases special <;> exact h
  | bert q cls sep h1 h2 h3 =>
    refine ⟨_, placesOf false false, fromSection_some (C70_postProcessor q _ (.bert q sep cls h1 h3 h2)), fun rows => ?_,
      fun special rows rows' => ?_⟩
    · refine ⟨ofRows rows 0, ?_, by simp [ofRows, placesOf], by simp [ofRows]⟩
      simp [postProcess, postTruncate, procFn, Bert.toProcessor, Bert.process, defaultProcess]
    cases special with
    | false =>
      obtain ⟨r, hr, h⟩ := merged_laid (ofRows_rangesOk rows 0) (ofRows_rangesOk rows' 1) (rows_laid false rows 0) (rows_laid false rows' 1)
      refine ⟨r, ?_, h⟩
      simp [postProcess, postTruncate, procFn, Bert.toProcessor, Bert.process, defaultProcess, hr]
    | true =>
    obtain ⟨r, k1, k2, _⟩ := C22_bert_pair (Bert.mk ⟨sep.1, sep.2⟩ ⟨cls.1, cls.2⟩) (ofRows rows 0) (ofRows rows' 1)
    refine ⟨r, ?_, ?_, ?_, ?_⟩
    · simp only [Option.map_some, postProcess, postTruncate, procFn, Bert.toProcessor, Res.bind_ok, k1]
    · have := k2 .offsets
      simpa [Encoding.arr, ofRows, bertSingle, bertPair, plainArr, specialEntry, asked, placesOf] using this
    · have := k2 .specialMask
      simpa [Encoding.arr, ofRows, bertSingle, bertPair, plainArr, specialEntry, asked] using this
    · have := k2 .attentionMask
      simpa [Encoding.arr, ofRows, bertSingle, bertPair, plainArr, specialEntry, asked] using this
  | roberta q cls sep ap h1 h2 h3 h4 h5 =>
    refine ⟨_, placesOf true ap, fromSection_some (C70_postProcessor q _ (.roberta q sep cls true ap h1 h3 h2 h4 h5)), fun rows => ?_,
      fun special rows rows' => ?_⟩
    · obtain ⟨d, g1, g2, g3⟩ := trimmed_rows rows 0 ap
      refine ⟨d, ?_, trimmed_places rows rfl rfl g1, ?_⟩
      · simp [postProcess, postTruncate, procFn, Roberta.toProcessor, Roberta.process, defaultProcess, optMapRes, g1]
      · have := congrArg List.length (g3 .ids (by simp))
        simpa [Encoding.arr, ofRows] using this
    obtain ⟨d, g1, g2, g3⟩ := trimmed_rows rows 0 ap
    obtain ⟨d', g4, g5, g6⟩ := trimmed_rows rows' 1 ap
    cases special with
    | false =>
      obtain ⟨r, hr, h⟩ := merged_laid g2 g5 (trimmed_laid g1) (trimmed_laid g4)
      refine ⟨r, ?_, h⟩
      simp [postProcess, postTruncate, procFn, Roberta.toProcessor, Roberta.process, defaultProcess, optMapRes, g1, g4, hr]
    | true =>
    have hov : ∀ (rows : List Row) (ty : Int) (d : Encoding), processOffsetsDeep (ofRows rows ty) ap = .ok d → d.overflowing = [] := by
      intro rows ty d h
      unfold processOffsetsDeep processOffsets at h
      obtain ⟨x, h1, h⟩ := Res.bind_eq_ok.mp h
      obtain ⟨o, h2, h1⟩ := Res.bind_eq_ok.mp h1
      cases h1
      cases h
      rfl
    obtain ⟨t, u, r, t1, t2, k1, k2, _⟩ := C23_roberta_pair_partial (Roberta.mk ⟨sep.1, sep.2⟩ ⟨cls.1, cls.2⟩ true ap) rfl
      (ofRows rows 0) (ofRows rows' 1) (ofRows_aligned _ _) (by intro o ho; cases ho) (ofRows_aligned _ _) (by intro o ho; cases ho)
    have same : ∀ (rows : List Row) (ty : Int) (d t : Encoding), processOffsetsDeep (ofRows rows ty) ap = .ok d →
        Trimmed ap (ofRows rows ty) t → t.offsets = d.offsets := by
      intro rows ty d t hd ht
      obtain ⟨⟨x, x1, x2⟩, _⟩ := ht
      unfold processOffsetsDeep at hd
      rw [x1] at hd
      simp only [Res.bind_ok] at hd
      obtain ⟨v, _, hd⟩ := Res.bind_eq_ok.mp hd
      cases hd
      rw [x2]
    have o1 := (same rows 0 d t g1 t1).trans (trimmed_places rows rfl rfl g1)
    have o2 := (same rows' 1 d' u g4 t2).trans (trimmed_places rows' rfl rfl g4)
    have l1 : t.ids = rows.map (·.token.id) := trimmed_same (ofRows_aligned _ _) t1 .ids (by simp)
    have l2 : u.ids = rows'.map (·.token.id) := trimmed_same (ofRows_aligned _ _) t2 .ids (by simp)
    refine ⟨r, ?_, ?_, ?_, ?_⟩
    · simp only [Option.map_some, postProcess, postTruncate, procFn, Roberta.toProcessor, Res.bind_ok, k1]
    · have := k2 .offsets
      simpa [Encoding.arr, robertaSingle, robertaPair, plainArr, specialEntry, asked, o1, o2, List.replicate_succ] using this
    · have := k2 .specialMask
      simpa [Encoding.arr, robertaSingle, robertaPair, plainArr, specialEntry, asked, l1, l2, List.replicate_succ] using this
    · have := k2 .attentionMask
      simpa [Encoding.arr, robertaSingle, robertaPair, plainArr, specialEntry, asked, l1, l2, List.replicate_succ] using this
  | byteLevel q ap t h1 h2 h3 =>
    refine ⟨_, placesOf t ap, fromSection_some (C70_postProcessor q _ (.byteLevel q ap t h1 h2 h3)), fun rows => ?_,
      fun special rows rows' => ?_⟩
    · obtain ⟨p, q', l, r, e1, e2, e3, e4, e5, e6, e7⟩ := byteOne_places t ap 0 rows 0
      refine ⟨r, ?_, e7, ?_⟩
      · cases t with
        | false =>
          simp only [Bool.false_eq_true, if_false, Res.ok.injEq] at e2
          subst e2
          simp only [Option.map_some, postProcess, postTruncate, procFn, Res.bind_ok, byteLevelProcessor, byteLevelProcess,
            prepareEncodings, e1, Bool.false_eq_true, if_false, setIdsLoop, e3, e4]
          rfl
        | true =>
          simp only [if_true] at e2
          simp only [Option.map_some, postProcess, postTruncate, procFn, Res.bind_ok, byteLevelProcessor, byteLevelProcess,
            prepareEncodings, e1, if_true, mapRes, e2, setIdsLoop, e3, e4]
          rfl
      · have := congrArg List.length (e6.same .ids (by simp))
        simpa [Encoding.arr, seqArr, ofRows] using this
    · obtain ⟨p, q', l, x, e1, e2, e3, e4, e5, e6, e7⟩ := byteOne_places t ap 0 rows 0
      obtain ⟨p', q'', l', y, f1, f2, f3, f4, f5, f6, f7⟩ := byteOne_places t ap 1 rows' 1
      obtain ⟨r, k1, k2⟩ := mergeEncodings_ok [x, y] (by simp) (by
        intro z hz
        simp only [List.mem_cons, List.not_mem_nil, or_false] at hz
        rcases hz with rfl | rfl
        · exact e5
        · exact f5) false
      have hm := mergeEncodings_arr k1
      have h0 : asked special ([] : List (Str × Int × Int)) = [] := by cases special <;> rfl
      rw [h0]
      refine ⟨r, ?_, ?_, ?_, ?_⟩
      · cases t with
        | false =>
          simp only [Bool.false_eq_true, if_false, Res.ok.injEq] at e2 f2
          subst e2 f2
          simp only [Option.map_some, postProcess, postTruncate, procFn, Res.bind_ok, byteLevelProcessor, byteLevelProcess,
            prepareEncodings, e1, f1, Bool.false_eq_true, if_false, setIdsLoop, e3, e4, show (0 : Int) + 1 = 1 from rfl, f3, f4, k1]
        | true =>
          simp only [if_true] at e2 f2
          simp only [Option.map_some, postProcess, postTruncate, procFn, Res.bind_ok, byteLevelProcessor, byteLevelProcess,
            prepareEncodings, e1, f1, if_true, mapRes, e2, f2, setIdsLoop, e3, e4, show (0 : Int) + 1 = 1 from rfl, f3, f4, k1]
      · have := hm .offsets
        simpa [Encoding.arr, e7, f7] using this
      · have := hm .specialMask
        have s1 := e6.same .specialMask (by simp)
        have s2 := f6.same .specialMask (by simp)
        simp only [Encoding.arr, seqArr] at s1 s2 this
        simpa [s1, s2, ofRows] using this
      · have := hm .attentionMask
        have s1 := e6.same .attentionMask (by simp)
        have s2 := f6.same .attentionMask (by simp)
        simp only [Encoding.arr, seqArr] at s1 s2 this
        simpa [s1, s2, ofRows] using this
  | template q _ _ _ _ _ b1 a1 ty toks h1 h2 h3 h4 h5 h6 h7 =>
    obtain ⟨tp, g1, g2, g3, g4, g5⟩ := C52_processor q _ _ toks h2 h3 h4 h5
    refine ⟨_, placesOf false false, fromSection_some (C70_postProcessor q _ (.template q tp h1 g1)), fun rows => ?_,
      fun special rows rows' => ?_⟩
    · obtain ⟨c, d1, d2⟩ := one_beside (.template q b1 a1 ty _ toks h1 h2 h3 h4 h5 h6)
      obtain ⟨r, k1, k2⟩ := C24_template tp (ofRows rows 0) none false (ofRows_fresh rows 0) (by simp)
        (by
          simp only [TemplateProc.chosen, Option.isSome_none, Bool.false_eq_true, if_false, g2, surround]
          exact ⟨by intro ty h; simp at h, by simp⟩)
        (by
          simp only [TemplateProc.chosen, Option.isSome_none, Bool.false_eq_true, if_false, g2, surround]
          exact .inl ⟨false, ty, by simp⟩)
      have hnil : ∀ (f : Field) (l : List (Str × Int)), (l.map (fun p => Piece.special p.1 ty)).flatMap
          (pieceArr tp.tab (ofRows rows 0) none false f) = [] := by
        intro f l
        rw [List.flatMap_map]
        simp [pieceArr]
      simp only [TemplateProc.chosen, Option.isSome_none, Bool.false_eq_true, if_false, g2, surround, List.flatMap_append, hnil,
        List.nil_append, List.append_nil] at k2
      refine ⟨r, ?_, ?_, ?_⟩
      · simp only [Option.map_some, postProcess, postTruncate, procFn, TemplateProc.toProcessor, Res.bind_ok, k1]
      · have := k2 .offsets
        simpa [pieceArr, seqArr, Encoding.arr, ofRows, placesOf] using this
      · have := congrArg List.length (k2 .ids)
        simpa [pieceArr, seqArr, Encoding.arr, ofRows] using this
    · have hc : tp.chosen (some (ofRows rows' 1)).isSome = named b ++ [Piece.seq false tyA] ++ named m ++ [Piece.seq true tyB] ++ named a := by
        simp only [TemplateProc.chosen, Option.isSome_some, if_true, g3]
      have htab : ∀ p ∈ b ++ m ++ a, tp.tab p.1 = some ⟨p.1, [p.2.1], [p.1]⟩ := fun p hp => g4 _ (h7 p hp)
      obtain ⟨r, k1, k2⟩ := C24_template tp (ofRows rows 0) (some (ofRows rows' 1)) special (ofRows_fresh rows 0)
        (by
          intro p hp
          cases hp
          exact ofRows_fresh rows' 1)
        (by
          rw [hc]
          refine ⟨fun _ _ => rfl, fun _ id ty h => ?_⟩
          simp only [named, List.mem_append, List.mem_map, List.mem_singleton, Piece.special.injEq, reduceCtorEq, or_false] at h
          rcases h with (⟨p, hp, rfl, _⟩ | ⟨p, hp, rfl, _⟩) | ⟨p, hp, rfl, _⟩
          · exact ⟨_, htab p (by simp [hp])⟩
          · exact ⟨_, htab p (by simp [hp])⟩
          · exact ⟨_, htab p (by simp [hp])⟩)
        (by
          rw [hc]
          exact .inl ⟨false, tyA, by simp⟩)
      rw [hc] at k2
      have hb : ∀ p ∈ b, tp.tab p.1 = some ⟨p.1, [p.2.1], [p.1]⟩ := fun p hp => htab p (by simp [hp])
      have hm : ∀ p ∈ m, tp.tab p.1 = some ⟨p.1, [p.2.1], [p.1]⟩ := fun p hp => htab p (by simp [hp])
      have ha : ∀ p ∈ a, tp.tab p.1 = some ⟨p.1, [p.2.1], [p.1]⟩ := fun p hp => htab p (by simp [hp])
      refine ⟨r, ?_, ?_, ?_, ?_⟩
      · simp only [Option.map_some, postProcess, postTruncate, procFn, TemplateProc.toProcessor, Res.bind_ok, k1]
      · have := k2 .offsets
        simp only [List.flatMap_append] at this
        rw [pieceArr_named (f := .offsets) b hb (fun _ => (0, 0)) (fun _ _ => rfl) special, pieceArr_named (f := .offsets) m hm (fun _ => (0, 0))
          (fun _ _ => rfl) special, pieceArr_named (f := .offsets) a ha (fun _ => (0, 0)) (fun _ _ => rfl) special] at this
        simpa [pieceArr, seqArr, Encoding.arr, List.map_const', ofRows, placesOf] using this
      · have := k2 .specialMask
        simp only [List.flatMap_append] at this
        rw [pieceArr_named (f := .specialMask) b hb (fun _ => (1 : Int)) (fun _ _ => rfl) special, pieceArr_named (f := .specialMask) m hm (fun _ => (1 : Int))
          (fun _ _ => rfl) special, pieceArr_named (f := .specialMask) a ha (fun _ => (1 : Int)) (fun _ _ => rfl) special] at this
        simpa [pieceArr, seqArr, Encoding.arr, List.map_const', ofRows] using this
      · have := k2 .attentionMask
        simp only [List.flatMap_append] at this
        rw [pieceArr_named (f := .attentionMask) b hb (fun _ => (1 : Int)) (fun _ _ => rfl) special, pieceArr_named (f := .attentionMask) m hm (fun _ => (1 : Int))
          (fun _ _ => rfl) special, pieceArr_named (f := .attentionMask) a ha (fun _ => (1 : Int)) (fun _ _ => rfl) special] at this
        simpa [pieceArr, seqArr, Encoding.arr, List.map_const', ofRows, Nat.add_assoc] using this

/-- C142 (two texts): the tokens of each of two texts have the offsets that they have when the text is encoded alone without
special tokens; the special tokens are at (0, 0) and are the only ones that the special token mask marks. -/
theorem C142_pair_partial (E : FileEnv) (c : FileConfig) (b : Built) (hb : fromReader E (some c) = .ok b)
    (htr : c.truncation = none) (hpad : c.padding = none) (before mid after : List (Str × Int × Int)) (tyA tyB : Int)
    (hproc : PairAdds c.postProcessor before mid after tyA tyB) (A B : List UInt8) (e f : Encoding)
    (he : b.tok.encodeSingle A [] = .ok (some e)) (hf : b.tok.encodeSingle B [] = .ok (some f)) :
    (∃ r, b.tok.encodePair A B [true] = .ok (some r) ∧
      r.offsets = List.replicate before.length (0, 0) ++ e.offsets ++ List.replicate mid.length (0, 0) ++ f.offsets ++
        List.replicate after.length (0, 0) ∧
      r.specialMask = List.replicate before.length 1 ++ List.replicate e.ids.length 0 ++ List.replicate mid.length 1 ++
        List.replicate f.ids.length 0 ++ List.replicate after.length 1 ∧
      r.attentionMask = List.replicate (before.length + e.ids.length + mid.length + f.ids.length + after.length) 1) ∧
    ∃ r, b.tok.encodePair A B [] = .ok (some r) ∧ r.offsets = e.offsets ++ f.offsets ∧
      r.specialMask = List.replicate (e.ids.length + f.ids.length) 0 ∧
      r.attentionMask = List.replicate (e.ids.length + f.ids.length) 1 := by
  obtain ⟨b1, a1, hs⟩ := pair_surrounds hproc
  obtain ⟨rows, r1, _⟩ := single_rows hb htr hpad hs he
  obtain ⟨rows', r3, _⟩ := single_rows hb htr hpad hs hf
  obtain ⟨pc, h1, h2, h3, h4⟩ := file_post hb htr hpad
  obtain ⟨pc', place, g1, g2, g3⟩ := pair_laid hproc
  rw [h1] at g1
  cases g1
  have alone : ∀ (X : List UInt8) (x : Encoding) (rows : List Row), b.tok.encodeSingle X [] = .ok (some x) →
      (∀ ty, b.tok.tk.encodeSingle (.raw X) ty .byte = .ok (ofRows rows ty)) → x.offsets = place rows ∧ x.ids.length = rows.length := by
    intro X x rows hx hr
    simp only [Tokenizer.encodeSingle, Tokenizer.encode, Tokenizer.encodeWith, hr, Res.bind_ok, h2, h3, h4, List.headD_nil] at hx
    obtain ⟨y, k1, k2, k3⟩ := g2 rows
    rw [k1] at hx
    cases hx
    exact ⟨k2, k3⟩
  obtain ⟨e1, e2⟩ := alone A e rows he r1
  obtain ⟨f1, f2⟩ := alone B f rows' hf r3
  have key : ∀ special : Bool, ∃ r, b.tok.encodePair A B [special] = .ok (some r) ∧
      Laid place [.inl (asked special before).length, .inr rows, .inl (asked special mid).length, .inr rows',
        .inl (asked special after).length] r := by
    intro special
    obtain ⟨r, k1, k2⟩ := g3 special rows rows'
    refine ⟨r, ?_, k2⟩
    simp only [Tokenizer.encodePair, List.headD_cons, Tokenizer.encode, Tokenizer.encodeWith, r1, r3, Res.bind_ok, h2, h3, h4, k1]
  constructor
  · obtain ⟨r, k1, k2⟩ := key true
    refine ⟨r, k1, ?_, ?_, ?_⟩
    · rw [k2.offsets, e1, f1]; simp [asked]
    · rw [k2.special, e2, f2]; simp [asked]
    · rw [k2.attention, e2, f2]; simp [asked, Nat.add_assoc]
  · obtain ⟨r, k1, k2⟩ := key false
    refine ⟨r, k1, ?_, ?_, ?_⟩
    · rw [k2.offsets, e1, f1]; simp [asked]
    · rw [k2.special, e2, f2]; simp [asked]
    · rw [k2.attention, e2, f2]; simp [asked]

/-- A file with a Sequence of ByteLevel and a template: "he" with "<s>" in front. -/
example (E : FileEnv) (hL : E.isL ' ' = false) (hN : E.isN ' ' = false) (ho : ∀ l, (E.order l).Perm l) :
    ∃ b e r, fromReader E (some (examplePairFile examplePairSequence)) = .ok b ∧
      b.tok.encodeSingle (encStr ['h', 'e']) [] = .ok (some e) ∧
      b.tok.encodeSingle (encStr ['h', 'e']) [true] = .ok (some r) ∧ Beside 1 0 e r := by
  have hone : OneAdds examplePairTemplate [(['<', 's', '>'], 257)] [] :=
    .template _ _ _ 0 _ [⟨['<', 's', '>'], [257], [['<', 's', '>']]⟩] (by unfold TypeIs; rfl) (by rfl) (by rfl) (by rfl)
      (by decide) (by simp)
  obtain ⟨b, e, h1, h2⟩ := examplePair_file E hL hN ho examplePairSequence ([(['<', 's', '>'], 257)] ++ []) ([] ++ [])
    (.inr ⟨_, rfl, .sequence _ [(exampleFileBytes, [], [])] _ [(['<', 's', '>'], 257)] [] (by unfold TypeIs; rfl) (by rfl)
    (by
      intro x hx
      cases List.mem_singleton.mp hx
      exact .byteLevel _ false true (by unfold TypeIs; rfl) (.inl (by rfl)) (.inl (by rfl))) hone⟩)
  obtain ⟨r, h3, h4⟩ := C142_single_partial E _ b h1 rfl rfl [(['<', 's', '>'], 257)] []
    (.sequence examplePairSequence [exampleFileBytes] examplePairTemplate _ _ (by unfold TypeIs; rfl) (by rfl)
      (by
        intro x hx
        cases List.mem_singleton.mp hx
        exact ⟨by unfold TypeIs; rfl, false, true, .inl (by rfl), .inl (by rfl)⟩) hone) _ e h2
  exact ⟨b, e, r, h1, h2, h3, h4⟩

/-- A RoBERTa file: "he" and "he" with "<s>", "</s>", "</s>" and "</s>". -/
example (E : FileEnv) (hL : E.isL ' ' = false) (hN : E.isN ' ' = false) (ho : ∀ l, (E.order l).Perm l) :
    ∃ b e r, fromReader E (some (examplePairFile exampleRoberta)) = .ok b ∧
      b.tok.encodeSingle (encStr ['h', 'e']) [] = .ok (some e) ∧
      b.tok.encodePair (encStr ['h', 'e']) (encStr ['h', 'e']) [true] = .ok (some r) ∧
      r.offsets = [(0, 0)] ++ e.offsets ++ [(0, 0), (0, 0)] ++ e.offsets ++ [(0, 0)] := by
  have hq : PairAdds (some exampleRoberta) [(['<', 's', '>'], 257, 0)] [(['<', '/', 's', '>'], 258, 0), (['<', '/', 's', '>'], 258, 1)]
      [(['<', '/', 's', '>'], 258, 1)] 0 1 :=
    .roberta exampleRoberta (['<', 's', '>'], 257) (['<', '/', 's', '>'], 258) false (by unfold TypeIs; rfl) (by unfold TokenIs; rfl)
      (by unfold TokenIs; rfl) (by rfl) (by rfl)
  obtain ⟨b1, a1, hs⟩ := pair_surrounds hq
  obtain ⟨b, e, h1, h2⟩ := examplePair_file E hL hN ho exampleRoberta b1 a1 hs
  obtain ⟨⟨r, h3, h4, _⟩, _⟩ := C142_pair_partial E _ b h1 rfl rfl _ _ _ _ _ hq _ _ e e h2 h2
  exact ⟨b, e, r, h1, h2, h3, h4⟩

end Tok.Whole
