import Verif.Whole.Lemmas

/-!
# C96, C97: encoding with a whole tokenizer
-/

namespace Tok.Whole

open Tok.Norm Tok.PreTok

/-! ### Specification -/

/-- The tokenizer has no post-processor, or the one of BERT. -/
def BertOrNone (t : Tokenizer) : Prop := t.processor = none ∨ ∃ bp : Bert, t.processor = some bp.toProcessor

/-- `[CLS] A [SEP]`: the entries `a` between the entries of the special tokens, which have type 0, offsets
`(0, 0)`, no word, a special mask of 1 and an attention mask of 1. -/
def clsSep (bp : Bert) (f : Field) (a : List f.Ty) : List f.Ty :=
  [specialEntry bp.cls 0 f] ++ a ++ [specialEntry bp.sep 0 f]

/-- All entries are of one sequence with type id `ty`: ordinary and attended to. -/
structure OneSequence (ty : Int) (e : Encoding) : Prop where
  typeIds : e.typeIds = List.replicate e.ids.length ty
  specialMask : e.specialMask = List.replicate e.ids.length 0
  attentionMask : e.attentionMask = List.replicate e.ids.length 1
  aligned : e.tokens.length = e.ids.length ∧ e.offsets.length = e.ids.length ∧ e.words.length = e.ids.length
  overflowing : e.overflowing = []

theorem ofRows_one (rows : List Row) (ty : Int) : OneSequence ty (ofRows rows ty) := by
  constructor <;> simp [ofRows, Encoding.default]

/-! ### C96 -/

/-- C96 (one text): without truncation and padding, `EncodeSingle` gives the encoding of the text, with no
special token unless they are asked for; `Tokenize` gives its tokens; an error is passed on. -/
theorem C96_single (t : Tokenizer) (htr : t.trunc = none) (hpad : t.padding = none) (hproc : BertOrNone t)
    (s : List UInt8) :
    (∀ e, t.tk.encodeSingle (.raw s) 0 .byte = .ok e →
      t.encodeSingle s [] = .ok (some e) ∧ t.encodeSingle s [false] = .ok (some e) ∧
      t.tokenize s [] = .ok e.tokens ∧ OneSequence 0 e) ∧
    (t.tk.encodeSingle (.raw s) 0 .byte = .err → ∀ opts, t.encodeSingle s opts = .err ∧ t.tokenize s opts = .err) := by
  constructor
  · intro e he
    have key : t.encode (.single (.raw s)) false = .ok (some e) := by
      simp only [Tokenizer.encode, Tokenizer.encodeWith, he, Res.bind_ok, htr, hpad, postProcess, postTruncate]
      rcases hproc with h | ⟨bp, h⟩ <;> rw [h] <;> rfl
    refine ⟨key, key, ?_, ?_⟩
    · simp only [Tokenizer.tokenize, Tokenizer.encodeSingle, List.headD_cons, List.headD_nil, key, Res.bind_ok]
    · obtain ⟨rows, rfl⟩ := encodeSingle_ofRows he
      exact ofRows_one rows 0
  · intro he opts
    have key : ∀ b, t.encode (.single (.raw s)) b = .err := by
      intro b
      simp only [Tokenizer.encode, Tokenizer.encodeWith, he, Res.bind_err]
    exact ⟨key _, by simp only [Tokenizer.tokenize, Tokenizer.encodeSingle, key, Res.bind_err]⟩

/-- C96 (special tokens): with the post-processor of BERT and the option, `EncodeSingle` gives
`[CLS] A [SEP]` and `Tokenize` its tokens. -/
theorem C96_special (t : Tokenizer) (htr : t.trunc = none) (hpad : t.padding = none) (bp : Bert)
    (hproc : t.processor = some bp.toProcessor) (s : List UInt8) (e : Encoding)
    (he : t.tk.encodeSingle (.raw s) 0 .byte = .ok e) :
    ∃ r, t.encodeSingle s [true] = .ok (some r) ∧ (∀ f, r.arr f = clsSep bp f (e.arr f)) ∧ r.overflowing = [] ∧
      t.tokenize s [true] = .ok ([bp.cls.value] ++ e.tokens ++ [bp.sep.value]) := by
  obtain ⟨rows, rfl⟩ := encodeSingle_ofRows he
  obtain ⟨r, h1, h2, h3, _⟩ := C22_bert_single bp (ofRows rows 0)
  have key : t.encode (.single (.raw s)) true = .ok (some r) := by
    simp only [Tokenizer.encode, Tokenizer.encodeWith, he, Res.bind_ok, htr, hpad, hproc, postProcess, postTruncate,
      Bert.toProcessor, h1]
  have h2' : ∀ f, r.arr f = clsSep bp f ((ofRows rows 0).arr f) := by
    intro f; rw [h2 f, bertSingle, ofRows_plain]; rfl
  refine ⟨r, key, h2', ?_, ?_⟩
  · have : (ofRows rows 0).overflowing = [] := rfl
    rw [this] at h3
    exact List.length_eq_zero_iff.mp (forall₂_length h3)
  · simp only [Tokenizer.tokenize, Tokenizer.encodeSingle, List.headD_cons, key, Res.bind_ok]
    exact congrArg Res.ok (h2' .tokens)

/-- C96 (pairs): without special tokens `EncodePair` gives the entries of the first text and then those of
the second, with type ids 0 and 1 and offsets each in its own text; with those of BERT,
`[CLS] A [SEP] B [SEP]`, the last one with type id 1. -/
theorem C96_pair (t : Tokenizer) (htr : t.trunc = none) (hpad : t.padding = none) (hproc : BertOrNone t)
    (s p : List UInt8) (e q : Encoding) (he : t.tk.encodeSingle (.raw s) 0 .byte = .ok e)
    (hq : t.tk.encodeSingle (.raw p) 1 .byte = .ok q) :
    OneSequence 0 e ∧ OneSequence 1 q ∧
    (∃ r, t.encodePair s p [] = .ok (some r) ∧ r.overflowing = [] ∧ ∀ f, r.arr f = e.arr f ++ q.arr f) ∧
    ∀ bp : Bert, t.processor = some bp.toProcessor →
      ∃ r, t.encodePair s p [true] = .ok (some r) ∧ r.overflowing = [] ∧
        ∀ f, r.arr f = clsSep bp f (e.arr f) ++ q.arr f ++ [specialEntry bp.sep 1 f] := by
  obtain ⟨rows, rfl⟩ := encodeSingle_ofRows he
  obtain ⟨rows', rfl⟩ := encodeSingle_ofRows hq
  refine ⟨ofRows_one _ _, ofRows_one _ _, ?_, ?_⟩
  · obtain ⟨r, hr⟩ := mergeWith_isOk (ofRows_rangesOk rows 0) (ofRows_rangesOk rows' 1) false
    refine ⟨r, ?_, ?_, merge_plain_arr hr⟩
    · simp only [Tokenizer.encodePair, List.headD_nil, Tokenizer.encode, Tokenizer.encodeWith, he, hq, Res.bind_ok, htr,
        hpad, postProcess, postTruncate]
      rcases hproc with h | ⟨bp, h⟩ <;> rw [h] <;>
        simp [defaultProcess, Bert.toProcessor, Bert.process, hr]
    · have := C07_merge_overflow_count _ _ _ _ hr
      exact List.length_eq_zero_iff.mp (by simpa [ofRows, Encoding.default] using this)
  · intro bp hbp
    obtain ⟨r, h1, h2, h3, _⟩ := C22_bert_pair bp (ofRows rows 0) (ofRows rows' 1)
    refine ⟨r, ?_, ?_, ?_⟩
    · simp only [Tokenizer.encodePair, List.headD_cons, Tokenizer.encode, Tokenizer.encodeWith, he, hq, Res.bind_ok, htr,
        hpad, hbp, postProcess, postTruncate, Bert.toProcessor, h1]
    · exact List.length_eq_zero_iff.mp (by simpa [ofRows, Encoding.default] using h3)
    · intro f
      rw [h2 f, bertSingle, bertPair, ofRows_plain, ofRows_plain, List.append_assoc _ _ [specialEntry bp.sep 1 f]]
      rfl

/-- C96 (pairs, in the texts): for a tokenizer without normalizer whose model gives parts of the text, every
entry of `EncodePair` with type id 0 is the text of the first input at its offsets, every other entry has type
id 1 and is the text of the second input at its offsets. -/
theorem C96_pair_values_partial (t : Tokenizer) (htr : t.trunc = none) (hpad : t.padding = none)
    (hproc : BertOrNone t) {gaps : Bool} (h : Plain t.tk gaps)
    (hm : ∀ f m ts, t.tk.model = some f → m ≠ [] → f (encStr m) = .ok (some ts) → ∀ x ∈ ts, Faithful m x)
    (s p : Str) :
    ∃ r, t.encodePair (encStr s) (encStr p) [] = .ok (some r) ∧
      ∀ (k : Nat) v o ty, r.tokens[k]? = some v → r.offsets[k]? = some o → r.typeIds[k]? = some ty →
        (ty = 0 ∨ ty = 1) ∧
        ∃ g b, (if ty = 0 then s else p) = g ++ v ++ b ∧ v ≠ [] ∧
          o = (((blen g : Nat) : Int), ((blen (g ++ v) : Nat) : Int)) := by
  obtain ⟨e, he, h1⟩ := C64_values_partial h hm s 0
  obtain ⟨q, hq, h2⟩ := C64_values_partial h hm p 1
  obtain ⟨o1, o2, ⟨r, hr, _, h3⟩, _⟩ := C96_pair t htr hpad hproc _ _ e q he hq
  refine ⟨r, hr, ?_⟩
  intro k v o ty hv ho hty
  have ht := h3 .tokens
  have hof := h3 .offsets
  have hti := h3 .typeIds
  simp only [Encoding.arr] at ht hof hti
  rw [ht] at hv
  rw [hof] at ho
  rw [hti, o1.typeIds, o2.typeIds] at hty
  by_cases hk : k < e.ids.length
  · rw [List.getElem?_append_left (by rw [o1.aligned.1]; exact hk)] at hv
    rw [List.getElem?_append_left (by rw [o1.aligned.2.1]; exact hk)] at ho
    rw [List.getElem?_append_left (by simpa using hk), List.getElem?_replicate, if_pos hk] at hty
    cases hty
    exact ⟨.inl rfl, h1 k v o hv ho⟩
  · rw [List.getElem?_append_right (by rw [o1.aligned.1]; omega), o1.aligned.1] at hv
    rw [List.getElem?_append_right (by rw [o1.aligned.2.1]; omega), o1.aligned.2.1] at ho
    rw [List.getElem?_append_right (by simp; omega), List.getElem?_replicate] at hty
    split at hty
    · cases hty
      exact ⟨.inr rfl, h2 _ v o hv ho⟩
    · cases hty

/-! ### C97 -/

/-- The overflowing parts of a pair of which only the second has some, in order. -/
theorem bert_pair_windows (bp : Bert) (e p : Encoding) (ho : e.overflowing = []) :
    ∃ r, bp.process e (some p) true = .ok (some r) ∧ (∀ f, r.arr f = bertSingle bp e f ++ bertPair bp p f) ∧
      List.Forall₂ (fun w o : Encoding => ∀ f, o.arr f = bertSingle bp e f ++ bertPair bp w f) p.overflowing r.overflowing := by
  have h1 : RangesOk { bp.addSpecialToken e with overflowing := e.overflowing.map bp.addSpecialToken } :=
    rangesOk_node _ rfl (by simp [ho])
  have h2 : RangesOk { bp.pairAddSpecialToken p with overflowing := p.overflowing.map bp.pairAddSpecialToken } := by
    refine rangesOk_node _ rfl ?_
    intro o h
    obtain ⟨x, -, rfl⟩ := List.mem_map.mp h
    exact rangesOk_leaf _ rfl rfl
  obtain ⟨r, hr⟩ := mergeWith_isOk h1 h2 false
  have selfL : ∀ f, ({ bp.addSpecialToken e with overflowing := e.overflowing.map bp.addSpecialToken } : Encoding).arr f
      = bertSingle bp e f := by intro f; rw [← bert_single_arr]
  have selfR : ∀ f, ({ bp.pairAddSpecialToken p with overflowing := p.overflowing.map bp.pairAddSpecialToken } : Encoding).arr f
      = bertPair bp p f := by intro f; rw [← bert_pair_arr]
  refine ⟨r, ?_, ?_, ?_⟩
  · unfold Bert.process
    simp only [Bool.not_true, Bool.false_eq_true, if_false]
    rw [hr]; rfl
  · intro f
    rw [merge_plain_arr hr f, selfL, selfR]
  · have hov := C07_merge_overflow _ _ _ _ hr
    unfold overflowPairs at hov
    simp only [ho, List.map_nil, List.flatMap_nil, List.nil_append, List.map_map] at hov
    clear hr h1 h2
    generalize p.overflowing = l at hov
    generalize r.overflowing = l' at hov
    induction l generalizing l' with
    | nil => cases hov; exact .nil
    | cons w l ih =>
      cases hov with
      | cons h1 h2 =>
        refine .cons ?_ (ih _ h2)
        intro f
        simp only [Function.comp] at h1
        rw [merge_plain_arr h1 f, bert_pair_arr]
        congr 1
        rw [← bert_single_arr]

/-- C97 (one text): with the post-processor of BERT, truncation to `L > 2` tokens and `0 ≤ stride < L - 2`, the
result and its overflowing parts are `[CLS] w [SEP]` for the windows `w` of `L - 2` tokens of the whole
encoding that overlap by `stride`; none has more than `L` tokens. -/
theorem C97_windows (t : Tokenizer) (hpad : t.padding = none) (bp : Bert) (hproc : t.processor = some bp.toProcessor)
    (L stride : Nat) (st : TruncStrategy) (htr : t.trunc = some ⟨L, st, stride⟩) (hst : st ≠ .onlySecond)
    (hs : stride + 2 < L) (ot : OffsetType) (input : InputSequence) (full : Encoding)
    (he : t.tk.encodeSingle input 0 ot = .ok full) :
    ∃ r ws, t.encodeWith ot (.single input) true = .ok (some r) ∧ Sliding (L - 2) stride full ws ∧
      List.Forall₂ (fun w r' => ∀ f, r'.arr f = clsSep bp f (w.arr f)) ws (r :: r.overflowing) ∧
      ∀ r' ∈ r :: r.overflowing, ∀ f, (r'.arr f).length ≤ L := by
  obtain ⟨rows, rfl⟩ := encodeSingle_ofRows he
  have ha := ofRows_aligned rows 0
  have hLs : ((L : Int) - 2) = ((L - 2 : Nat) : Int) := by omega
  obtain ⟨e', h1, h2⟩ := truncateEncodings_single ha ((L : Int) - 2) stride (by omega) (by omega) st hst
  obtain ⟨e₂, h3, h4⟩ := truncateMut_sliding ha rfl (L - 2) stride (by omega)
  rw [hLs, h3] at h1
  cases h1
  obtain ⟨r, h5, h6, h7, _⟩ := C22_bert_single bp e'
  have hall : List.Forall₂ (fun w r' : Encoding => ∀ f, r'.arr f = clsSep bp f (w.arr f)) (e' :: e'.overflowing)
      (r :: r.overflowing) := by
    refine .cons ?_ ?_
    · intro f
      rw [h6 f, bertSingle, h4.plain (by simp)]
      rfl
    · have hp : ∀ w ∈ e'.overflowing, ∀ f, plainArr w f = w.arr f :=
        fun w hw f => h4.plain (List.mem_cons_of_mem _ hw) f
      clear h4 h3 h6 h5
      generalize e'.overflowing = l at hp h7
      generalize r.overflowing = l' at h7
      induction h7 with
      | nil => exact .nil
      | cons h _ ih =>
        refine .cons ?_ (ih (fun w hw => hp w (List.mem_cons_of_mem _ hw)))
        intro f
        rw [h f, bertSingle, hp _ (by simp)]
        rfl
  refine ⟨r, e' :: e'.overflowing, ?_, h4, hall, ?_⟩
  · simp only [Tokenizer.encodeWith, he, Res.bind_ok, htr, hpad, hproc, postProcess, postTruncate, Bert.toProcessor,
      Option.isSome_none, Bert.addedTokens]
    rw [if_pos (by simp)]
    have : truncateEncodings (ofRows rows 0) none ⟨(L : Int) - ((if false = true then 3 else 2 : Nat) : Int), st, stride⟩ =
      .ok (e', none) := h2
    rw [this]
    simp only [Res.bind_ok, h5]
  · intro r' hr' f
    obtain ⟨w, hw, hwr⟩ := forall₂_mem_right hall hr'
    rw [hwr f, clsSep]
    have := h4.short hw f
    simp only [List.length_append, List.length_cons, List.length_nil]
    omega

/-- C97 (nothing is lost): every entry of the whole encoding is in the result or in an overflowing part, in
all arrays at the same place. -/
theorem C97_nothing_lost (t : Tokenizer) (hpad : t.padding = none) (bp : Bert)
    (hproc : t.processor = some bp.toProcessor)
    (L stride : Nat) (st : TruncStrategy) (htr : t.trunc = some ⟨L, st, stride⟩) (hst : st ≠ .onlySecond)
    (hs : stride + 2 < L) (ot : OffsetType) (input : InputSequence) (full : Encoding)
    (he : t.tk.encodeSingle input 0 ot = .ok full) :
    ∃ r, t.encodeWith ot (.single input) true = .ok (some r) ∧
      ∀ i : Nat, i < full.ids.length → ∃ r' ∈ r :: r.overflowing, ∃ j : Nat, ∀ f, (r'.arr f)[j]? = (full.arr f)[i]? := by
  obtain ⟨r, ws, h1, h2, h3, _⟩ := C97_windows t hpad bp hproc L stride st htr hst hs ot input full he
  obtain ⟨rows, rfl⟩ := encodeSingle_ofRows he
  refine ⟨r, h1, ?_⟩
  intro i hi
  obtain ⟨w, hw, j, hj, hf⟩ := h2.mem (by omega) i hi
  obtain ⟨k, hk⟩ := List.mem_iff_getElem?.mp hw
  have hr : ∃ r' ∈ r :: r.overflowing, ∀ f, r'.arr f = clsSep bp f (w.arr f) := by
    clear h2 hf hk h1
    generalize r :: r.overflowing = l at h3
    induction h3 with
    | nil => cases hw
    | cons h _ ih =>
      rcases List.mem_cons.mp hw with rfl | hw
      · exact ⟨_, by simp, h⟩
      · obtain ⟨r', a, b⟩ := ih hw
        exact ⟨r', List.mem_cons_of_mem _ a, b⟩
  obtain ⟨r', hr', hrf⟩ := hr
  refine ⟨r', hr', j + 1, ?_⟩
  intro f
  have hlen : j < (w.arr f).length := by
    have h5 := hf f
    refine Classical.byContradiction fun hc => ?_
    rw [List.getElem?_eq_none (by omega)] at h5
    have h6 := List.getElem?_eq_none_iff.mp h5.symm
    rw [ofRows_aligned rows 0 f] at h6
    omega
  rw [hrf f, clsSep, List.append_assoc, List.cons_append, List.nil_append, List.getElem?_cons_succ,
    List.getElem?_append_left hlen]
  exact hf f

/-- C97 (without special tokens): the result and its overflowing parts are the windows of `L` tokens. -/
theorem C97_windows_plain (t : Tokenizer) (hpad : t.padding = none) (hproc : BertOrNone t)
    (L stride : Nat) (st : TruncStrategy) (htr : t.trunc = some ⟨L, st, stride⟩) (hst : st ≠ .onlySecond)
    (hs : stride < L) (ot : OffsetType) (input : InputSequence) (full : Encoding)
    (he : t.tk.encodeSingle input 0 ot = .ok full) :
    ∃ r, t.encodeWith ot (.single input) false = .ok (some r) ∧ Sliding L stride full (r :: r.overflowing) := by
  obtain ⟨rows, rfl⟩ := encodeSingle_ofRows he
  have ha := ofRows_aligned rows 0
  obtain ⟨e', h1, h2⟩ := truncateEncodings_single ha (L : Int) stride (by omega) (by omega) st hst
  obtain ⟨e₂, h3, h4⟩ := truncateMut_sliding ha rfl L stride hs
  rw [h3] at h1
  cases h1
  refine ⟨e', ?_, h4⟩
  simp only [Tokenizer.encodeWith, he, Res.bind_ok, htr, hpad, postProcess, postTruncate, Bool.false_eq_true, false_and,
    if_false, h2]
  rcases hproc with h | ⟨bp, h⟩ <;> rw [h] <;> rfl

/-- C97 (a question and a long text): with the strategy that cuts only the second text, the result and its
overflowing parts are `[CLS] Q [SEP] w [SEP]` for the overlapping windows `w` of the second text that fill
what the question leaves; none has more than `L` tokens. -/
theorem C97_question_partial (t : Tokenizer) (hpad : t.padding = none) (bp : Bert)
    (hproc : t.processor = some bp.toProcessor)
    (L stride : Nat) (htr : t.trunc = some ⟨L, .onlySecond, stride⟩)
    (ot : OffsetType) (q c : InputSequence) (eq ec : Encoding)
    (hq : t.tk.encodeSingle q 0 ot = .ok eq) (hc : t.tk.encodeSingle c 1 ot = .ok ec)
    (hs : eq.ids.length + 3 + stride < L) :
    ∃ r ws, t.encodeWith ot (.dual q c) true = .ok (some r) ∧ Sliding (L - 3 - eq.ids.length) stride ec ws ∧
      List.Forall₂ (fun w r' => ∀ f, r'.arr f = clsSep bp f (eq.arr f) ++ w.arr f ++ [specialEntry bp.sep 1 f])
        ws (r :: r.overflowing) ∧
      ∀ r' ∈ r :: r.overflowing, ∀ f, (r'.arr f).length ≤ L := by
  obtain ⟨rows, rfl⟩ := encodeSingle_ofRows hq
  obtain ⟨rows', rfl⟩ := encodeSingle_ofRows hc
  have ha := ofRows_aligned rows' 1
  obtain ⟨p', h3, h4⟩ := truncateMut_sliding ha rfl (L - 3 - (ofRows rows 0).ids.length) stride (by omega)
  have htrunc : truncateEncodings (ofRows rows 0) (some (ofRows rows' 1)) ⟨(L : Int) - 3, .onlySecond, stride⟩ =
      .ok (ofRows rows 0, some p') := by
    unfold truncateEncodings
    rw [if_neg (by simp; omega)]
    simp only
    split
    · next hlt =>
      unfold Encoding.truncateMut at h3
      rw [C01_truncate_noop _ _ _ (by omega) (by omega) (by omega)] at h3
      cases h3
      rfl
    · next hge =>
      simp only [truncateTarget]
      rw [if_pos (by omega)]
      have : ((ofRows rows' 1).ids.length : Int) - ((ofRows rows 0).ids.length + (ofRows rows' 1).ids.length - ((L : Int) - 3)) =
          ((L - 3 - (ofRows rows 0).ids.length : Nat) : Int) := by omega
      rw [this, h3]
      rfl
  obtain ⟨r, h5, h6, h7⟩ := bert_pair_windows bp (ofRows rows 0) p' rfl
  have hpl : ∀ w ∈ p' :: p'.overflowing, ∀ f, plainArr w f = w.arr f := fun w hw f => h4.plain hw f
  have hall : List.Forall₂ (fun w r' : Encoding => ∀ f, r'.arr f = clsSep bp f ((ofRows rows 0).arr f) ++ w.arr f ++
      [specialEntry bp.sep 1 f]) (p' :: p'.overflowing) (r :: r.overflowing) := by
    have hh : List.Forall₂ (fun w r' : Encoding => ∀ f, r'.arr f = bertSingle bp (ofRows rows 0) f ++ bertPair bp w f)
        (p' :: p'.overflowing) (r :: r.overflowing) := .cons h6 h7
    clear h4 h3 h6 h5 h7 htrunc
    generalize p' :: p'.overflowing = l at hpl hh
    generalize r :: r.overflowing = l' at hh
    induction hh with
    | nil => exact .nil
    | cons h _ ih =>
      refine .cons ?_ (ih (fun w hw => hpl w (List.mem_cons_of_mem _ hw)))
      intro f
      rw [h f, bertSingle, bertPair, ofRows_plain, hpl _ (by simp), List.append_assoc _ _ [specialEntry bp.sep 1 f]]
      rfl
  refine ⟨r, p' :: p'.overflowing, ?_, h4, hall, ?_⟩
  · simp only [Tokenizer.encodeWith, hq, hc, Res.bind_ok, htr, hpad, hproc, postProcess, postTruncate, Bert.toProcessor,
      Option.isSome_some, Bert.addedTokens]
    rw [if_pos (by simp)]
    have : truncateEncodings (ofRows rows 0) (some (ofRows rows' 1))
      ⟨(L : Int) - ((if True then 3 else 2 : Nat) : Int), .onlySecond, stride⟩ = .ok (ofRows rows 0, some p') := htrunc
    rw [this]
    simp only [Res.bind_ok, h5]
  · intro r' hr' f
    obtain ⟨w, hw, hwr⟩ := forall₂_mem_right hall hr'
    rw [hwr f, clsSep]
    have h8 := h4.short hw f
    have h9 := ofRows_aligned rows 0 f
    simp only [List.length_append, List.length_cons, List.length_nil]
    omega

/-! ### A case -/

/-- A tokenizer that gives one token for every text, split at white space, with BERT's special tokens and
windows of five tokens. -/
def sample : Tokenizer :=
  { tk := ⟨⟨[], fun _ => []⟩, ⟨[], fun _ => []⟩, none, none,
      some (fun bs => .ok (some [⟨1, decStr bs, (0, bs.length)⟩]))⟩
    trunc := some ⟨5, .longestFirst, 1⟩, padding := none
    processor := some (⟨⟨['S'], 102⟩, ⟨['C'], 101⟩⟩ : Bert).toProcessor }

/-- Five words: the windows of three words overlap by one. -/
example : okAnd (sample.encode (.single (.words (["a", "b", "c", "d", "e"].map (fun w => encStr w.toList)))) true)
    (fun r => (r.toList.flatMap (fun r => r :: r.overflowing)).map (·.tokens) =
      [[['C'], ['a'], ['b'], ['c'], ['S']], [['C'], ['c'], ['d'], ['e'], ['S']]]) = true := by
  decide +kernel

end Tok.Whole
