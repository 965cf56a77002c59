import Verif.Whole.Props
import Verif.Processor.PropsByteLevel

/-!
# C96, C97, C120, C121: whole tokenizers with the post-processors of RoBERTa, byte-level and templates
-/

namespace Tok.Whole

open Tok.Norm Tok.PreTok

/-! ### Specification -/

/-- `w'` is `w` with offsets trimmed if wanted, and otherwise unchanged. -/
def TrimmedTo (trim a : Bool) (w w' : Encoding) : Prop :=
  (∀ f : Field, f ≠ .offsets → w'.arr f = w.arr f) ∧ TrimmedIf trim a w w'

/-- `<s> A </s>`: the entries `a` between those of the special tokens. -/
def bosEos (rp : Roberta) (f : Field) (a : List f.Ty) : List f.Ty :=
  [specialEntry rp.cls 0 f] ++ a ++ [specialEntry rp.sep 0 f]

/-- A template with some special tokens, one text of type id `ty`, some special tokens. -/
def around (pre : List (Str × Int)) (ty : Int) (post : List (Str × Int)) : List Piece :=
  pre.map (fun p => .special p.1 p.2) ++ [.seq false ty] ++ post.map (fun p => .special p.1 p.2)

/-- The entries of some special tokens of a template. -/
def specials (tab : TokenTable) (special : Bool) (f : Field) (ps : List (Str × Int)) : List f.Ty :=
  if special then ps.flatMap (fun p => match tab p.1 with | some t => specialArr t p.2 f | none => []) else []

/-! ### Helpers -/

theorem trimmed_to {a : Bool} {e t : Encoding} (ha : e.Aligned) (ho : ∀ o ∈ e.overflowing, o.Aligned)
    (h : Trimmed a e t) : List.Forall₂ (TrimmedTo true a) (e :: e.overflowing) (t :: t.overflowing) := by
  obtain ⟨⟨d, h1, h2⟩, h3⟩ := h
  refine .cons ?_ ?_
  · obtain ⟨r, k1, k2, k3, _, _⟩ := processOffsets_trimmed e ha a
    rw [h1] at k1
    cases k1
    refine ⟨fun f hf => ?_, ?_⟩
    · rw [← k2 f hf, h2]
    · exact k3.congr rfl rfl (by rw [h2])
  · clear h1 h2
    generalize e.overflowing = l at h3 ho
    generalize t.overflowing = l' at h3
    induction h3 with
    | nil => exact .nil
    | cons h _ ih =>
      refine .cons ?_ (ih (fun o hx => ho o (List.mem_cons_of_mem _ hx)))
      obtain ⟨r, k1, k2, k3, _, _⟩ := processOffsets_trimmed _ (ho _ List.mem_cons_self) a
      rw [h] at k1
      cases k1
      exact ⟨k2, k3⟩

theorem TrimmedTo.aligned {trim a : Bool} {w w' : Encoding} (h : TrimmedTo trim a w w') (ha : w.Aligned) : w'.Aligned := by
  have hi := h.1 .ids (by simp)
  simp only [Encoding.arr] at hi
  intro f
  rw [hi]
  by_cases hf : f = .offsets
  · subst hf
    exact h.2.1.trans (ha .offsets)
  · rw [h.1 f hf]; exact ha f

theorem TrimmedTo.length {trim a : Bool} {w w' : Encoding} (h : TrimmedTo trim a w w') (f : Field) :
    (w'.arr f).length = (w.arr f).length := by
  by_cases hf : f = .offsets
  · subst hf; exact h.2.1
  · rw [h.1 f hf]

theorem TrimmedTo.plain {trim a : Bool} {w w' : Encoding} (h : TrimmedTo trim a w w') (hp : ∀ f, plainArr w f = w.arr f)
    (f : Field) : plainArr w' f = w'.arr f := by
  have h1 := h.1 .ids (by simp)
  have h2 := h.1 .specialMask (by simp)
  have h3 := h.1 .attentionMask (by simp)
  have h4 := hp .specialMask
  have h5 := hp .attentionMask
  cases f <;> try rfl
  · simp only [plainArr, Encoding.arr] at *
    rw [h1, h2, h4]
  · simp only [plainArr, Encoding.arr] at *
    rw [h1, h3, h5]

theorem forall₂_comp {α β γ : Type} {R : α → β → Prop} {S : β → γ → Prop} {T : α → γ → Prop}
    {l : List α} {m : List β} {n : List γ} (h : List.Forall₂ R l m) (k : List.Forall₂ S m n)
    (hT : ∀ x ∈ l, ∀ y z, R x y → S y z → T x z) : List.Forall₂ T l n := by
  induction h generalizing n with
  | nil => cases k; exact .nil
  | cons h1 _ ih =>
    cases k with
    | cons k1 k2 =>
      exact .cons (hT _ (by simp) _ _ h1 k1) (ih k2 (fun x hx => hT x (List.mem_cons_of_mem _ hx)))

/-- What the post-processor gets of one truncated text. -/
theorem windows_post (t : Tokenizer) (hpad : t.padding = none) (P : PostProcessor) (hproc : t.processor = some P)
    (special : Bool) (L stride : Nat) (st : TruncStrategy) (htr : t.trunc = some ⟨L, st, stride⟩) (hst : st ≠ .onlySecond)
    (hs : stride + (if special then P.addedTokens false else 0) < L) (ot : OffsetType) (input : InputSequence)
    (full : Encoding) (he : t.tk.encodeSingle input 0 ot = .ok full) :
    ∃ e', Sliding (L - (if special then P.addedTokens false else 0)) stride full (e' :: e'.overflowing) ∧ Usable e' ∧
      (∀ w ∈ e' :: e'.overflowing, ∀ f, plainArr w f = w.arr f) ∧
      t.encodeWith ot (.single input) special = P.process e' none special := by
  obtain ⟨rows, rfl⟩ := encodeSingle_ofRows he
  have ha := ofRows_aligned rows 0
  generalize hn : (if special then P.addedTokens false else 0) = n at hs ⊢
  have hLs : ((L : Int) - n) = ((L - n : Nat) : Int) := by omega
  obtain ⟨e', h1, h2⟩ := truncateEncodings_single ha ((L : Int) - n) stride (by omega) (by omega) st hst
  obtain ⟨e₂, h3, h4⟩ := truncateMut_sliding ha rfl (L - n) stride (by omega)
  have h5 := CutTo.usable (ofRows_delivered rows 0) ((L : Int) - n) stride (by omega) (by omega) (by omega) h1
  rw [hLs, h3] at h1
  cases h1
  refine ⟨e', h4, h5, fun w hw f => h4.plain hw f, ?_⟩
  simp only [Tokenizer.encodeWith, he, Res.bind_ok, htr, hpad, hproc, postProcess, postTruncate, Option.isSome_none]
  have : (if special = true ∧ ((P.addedTokens false : Nat) : Int) > 0 then
        truncateEncodings (ofRows rows 0) none ⟨(L : Int) - ((P.addedTokens false : Nat) : Int), st, stride⟩
      else truncateEncodings (ofRows rows 0) none ⟨L, st, stride⟩) = .ok (e', none) := by
    cases special with
    | false =>
      simp only [Bool.false_eq_true, if_false] at hn
      subst hn
      simp only [Bool.false_eq_true, false_and, if_false]
      rw [← h2]
      simp
    | true =>
      simp only [if_true] at hn
      subst hn
      simp only [true_and]
      split
      · exact h2
      · have h0 : P.addedTokens false = 0 := by omega
        rw [h0] at h2
        rw [← h2]
        simp
  rw [this]
  simp only [Res.bind_ok]
  cases P.process e' none special <;> rfl

/-- What it gets of one text without truncation. -/
theorem whole_post (t : Tokenizer) (htr : t.trunc = none) (hpad : t.padding = none) (P : PostProcessor)
    (hproc : t.processor = some P) (ot : OffsetType) (special : Bool) (input : InputSequence) (e : Encoding)
    (he : t.tk.encodeSingle input 0 ot = .ok e) :
    t.encodeWith ot (.single input) special = P.process e none special := by
  simp only [Tokenizer.encodeWith, he, Res.bind_ok, htr, hpad, hproc, postProcess, postTruncate]
  cases P.process e none special <;> rfl

theorem whole_post_pair (t : Tokenizer) (htr : t.trunc = none) (hpad : t.padding = none) (P : PostProcessor)
    (hproc : t.processor = some P) (ot : OffsetType) (special : Bool) (input pair : InputSequence) (e q : Encoding)
    (he : t.tk.encodeSingle input 0 ot = .ok e) (hq : t.tk.encodeSingle pair 1 ot = .ok q) :
    t.encodeWith ot (.dual input pair) special = P.process e (some q) special := by
  simp only [Tokenizer.encodeWith, he, hq, Res.bind_ok, htr, hpad, hproc, postProcess, postTruncate]
  cases P.process e (some q) special <;> rfl

theorem ofRows_usable (rows : List Row) (ty : Int) : Usable (ofRows rows ty) := (ofRows_delivered rows ty).usable

/-! ### C96 with RoBERTa -/

/-- C96 (RoBERTa, one text): `<s> A </s>` if special tokens are asked for and the plain entries if not, in both cases
with trimmed offsets. -/
theorem C96_roberta (t : Tokenizer) (htr : t.trunc = none) (hpad : t.padding = none) (rp : Roberta)
    (hrt : rp.trimOffsets = true) (hproc : t.processor = some rp.toProcessor) (s : List UInt8) (e : Encoding)
    (he : t.tk.encodeSingle (.raw s) 0 .byte = .ok e) :
    ∃ e' r r', TrimmedTo true rp.addPrefixSpace e e' ∧
      t.encodeSingle s [true] = .ok (some r) ∧ (∀ f, r.arr f = bosEos rp f (e'.arr f)) ∧ r.overflowing = [] ∧
      t.encodeSingle s [] = .ok (some r') ∧ (∀ f, r'.arr f = e'.arr f) ∧ r'.overflowing = [] ∧
      t.tokenize s [true] = .ok ([rp.cls.value] ++ e.tokens ++ [rp.sep.value]) ∧ t.tokenize s [] = .ok e.tokens := by
  obtain ⟨rows, rfl⟩ := encodeSingle_ofRows he
  have ha := ofRows_aligned rows 0
  have ho : ∀ o ∈ (ofRows rows 0).overflowing, o.Aligned := by simp [ofRows, Encoding.default]
  obtain ⟨x, r, h1, h2, h3, h4, _⟩ := C23_roberta_single_partial rp hrt _ ha ho
  obtain ⟨x', k1, k2, _⟩ := C23_roberta_plain_partial rp hrt _ ha ho
  have hx := trimmed_to ha ho h1
  have hx' := trimmed_to ha ho k1
  have heq : x' = x := by
    have l1 : x.overflowing = [] := by cases hx with | cons _ h => exact List.length_eq_zero_iff.mp (forall₂_length h)
    have l2 : x'.overflowing = [] := by cases hx' with | cons _ h => exact List.length_eq_zero_iff.mp (forall₂_length h)
    obtain ⟨⟨d, d1, d2⟩, _⟩ := h1
    obtain ⟨⟨d', d1', d2'⟩, _⟩ := k1
    rw [d1] at d1'
    cases d1'
    rw [d2, d2', l1, l2]
  subst heq
  cases hx with
  | cons hx0 hxs =>
  have l1 : x'.overflowing = [] := List.length_eq_zero_iff.mp (forall₂_length hxs)
  have e1 : t.encode (.single (.raw s)) true = .ok (some r) := by
    rw [Tokenizer.encode, whole_post t htr hpad _ hproc .byte true _ _ he]
    exact h2
  have e2 : t.encode (.single (.raw s)) false = .ok (some x') := by
    rw [Tokenizer.encode, whole_post t htr hpad _ hproc .byte false _ _ he]
    exact k2
  have hrf : ∀ f, r.arr f = bosEos rp f (x'.arr f) := by
    intro f
    rw [h3 f, robertaSingle, hx0.plain (fun f => ofRows_plain rows 0 f)]
    rfl
  have htok : x'.tokens = (ofRows rows 0).tokens := hx0.1 .tokens (by simp)
  refine ⟨x', r, x', hx0, e1, hrf, ?_, e2, fun _ => rfl, l1, ?_, ?_⟩
  · rw [l1] at h4
    exact List.length_eq_zero_iff.mp (forall₂_length h4)
  · simp only [Tokenizer.tokenize, Tokenizer.encodeSingle, List.headD_cons, e1, Res.bind_ok]
    have := hrf .tokens
    simp only [Encoding.arr, htok] at this
    rw [this]
    rfl
  · simp only [Tokenizer.tokenize, Tokenizer.encodeSingle, List.headD_cons, List.headD_nil, e2, Res.bind_ok, htok]

/-- C96 (RoBERTa, pairs): `<s> A </s> </s> B </s>`, the part of the second text with type id 1, each text with its own
trimmed offsets. -/
theorem C96_roberta_pair (t : Tokenizer) (htr : t.trunc = none) (hpad : t.padding = none) (rp : Roberta)
    (hrt : rp.trimOffsets = true) (hproc : t.processor = some rp.toProcessor) (s p : List UInt8) (e q : Encoding)
    (he : t.tk.encodeSingle (.raw s) 0 .byte = .ok e) (hq : t.tk.encodeSingle (.raw p) 1 .byte = .ok q) :
    ∃ e' q' r, TrimmedTo true rp.addPrefixSpace e e' ∧ TrimmedTo true rp.addPrefixSpace q q' ∧
      t.encodePair s p [true] = .ok (some r) ∧
      ∀ f, r.arr f = bosEos rp f (e'.arr f) ++ [specialEntry rp.sep 1 f] ++ q'.arr f ++ [specialEntry rp.sep 1 f] := by
  obtain ⟨rows, rfl⟩ := encodeSingle_ofRows he
  obtain ⟨rows', rfl⟩ := encodeSingle_ofRows hq
  have ha := ofRows_aligned rows 0
  have ha' := ofRows_aligned rows' 1
  have ho : ∀ o ∈ (ofRows rows 0).overflowing, o.Aligned := by simp [ofRows, Encoding.default]
  have ho' : ∀ o ∈ (ofRows rows' 1).overflowing, o.Aligned := by simp [ofRows, Encoding.default]
  obtain ⟨x, y, r, h1, h2, h3, h4, _⟩ := C23_roberta_pair_partial rp hrt _ _ ha ho ha' ho'
  have hx := trimmed_to ha ho h1
  have hy := trimmed_to ha' ho' h2
  cases hx with
  | cons hx0 _ =>
  cases hy with
  | cons hy0 _ =>
  refine ⟨x, y, r, hx0, hy0, ?_, ?_⟩
  · rw [Tokenizer.encodePair, Tokenizer.encode, whole_post_pair t htr hpad _ hproc .byte _ _ _ _ _ he hq]
    exact h3
  · intro f
    rw [h4 f, robertaSingle, robertaPair, hx0.plain (fun f => ofRows_plain rows 0 f),
      hy0.plain (fun f => ofRows_plain rows' 1 f)]
    simp only [bosEos, List.append_assoc]

/-- C96 is violated by every tokenizer with RoBERTa's post-processor and trimming off, for every text it can encode:
`EncodeSingle` gives no encoding and no error, and panics if special tokens are asked for; `Tokenize` panics. -/
theorem C96_roberta_violated (t : Tokenizer) (htr : t.trunc = none) (hpad : t.padding = none) (rp : Roberta)
    (hrt : rp.trimOffsets = false) (hproc : t.processor = some rp.toProcessor) (s : List UInt8) (e : Encoding)
    (he : t.tk.encodeSingle (.raw s) 0 .byte = .ok e) :
    t.encodeSingle s [] = .ok none ∧ t.encodeSingle s [true] = .panic ∧ ∀ opts, t.tokenize s opts = .panic := by
  obtain ⟨h1, h2⟩ := C23_roberta_violated rp hrt e none
  have e1 : t.encode (.single (.raw s)) true = .panic := by
    rw [Tokenizer.encode, whole_post t htr hpad _ hproc .byte true _ _ he]
    exact h1
  have e2 : t.encode (.single (.raw s)) false = .ok none := by
    rw [Tokenizer.encode, whole_post t htr hpad _ hproc .byte false _ _ he]
    exact h2
  refine ⟨e2, e1, fun opts => ?_⟩
  simp only [Tokenizer.tokenize, Tokenizer.encodeSingle, List.headD_cons]
  cases opts.headD false with
  | false => rw [e2]; rfl
  | true => rw [e1]; rfl

/-! ### C96 with the byte-level processor -/

/-- C96 (byte-level): with or without the option the result has the entries of the encoding and no special token, its
offsets trimmed exactly if the processor trims; of pairs the entries of both with type ids 0 and 1. -/
theorem C96_bytelevel (t : Tokenizer) (htr : t.trunc = none) (hpad : t.padding = none) (trim a : Bool)
    (hproc : t.processor = some (byteLevelProcessor trim a)) (s p : List UInt8) (e q : Encoding)
    (he : t.tk.encodeSingle (.raw s) 0 .byte = .ok e) (hq : t.tk.encodeSingle (.raw p) 1 .byte = .ok q)
    (opts : List Bool) :
    (∃ e', TrimmedTo trim a e e' ∧ t.encodeSingle s opts = .ok (some e') ∧ t.tokenize s opts = .ok e.tokens ∧
      e'.overflowing = []) ∧
    ∃ e' q' r, TrimmedTo trim a e e' ∧ TrimmedTo trim a q q' ∧ t.encodePair s p opts = .ok (some r) ∧
      ∀ f, r.arr f = e'.arr f ++ q'.arr f := by
  obtain ⟨rows, rfl⟩ := encodeSingle_ofRows he
  obtain ⟨rows', rfl⟩ := encodeSingle_ofRows hq
  obtain ⟨ha, ho, hf⟩ := ofRows_usable rows 0
  obtain ⟨ha', ho', hf'⟩ := ofRows_usable rows' 1
  have hty : ∀ (rs : List Row) (ty : Int) (f : Field), seqArr (ofRows rs ty) ty f = (ofRows rs ty).arr f := by
    intro rs ty f
    cases f <;> simp [seqArr, ofRows, Encoding.arr]
  obtain ⟨z, h1, h2, _⟩ := C102_single trim a (opts.headD false) _ hf ha ho
  obtain ⟨r, x, y, k1, k2, k3, k4, _⟩ := C102_pair trim a (opts.headD false) _ _ hf ha ho hf' ha' ho'
  have h3 : t.encode (.single (.raw s)) (opts.headD false) = .ok (some z) := by
    rw [Tokenizer.encode, whole_post t htr hpad _ hproc .byte _ _ _ he]
    exact h1
  refine ⟨⟨z, ⟨fun f hf => (h2.same f hf).trans (hty rows 0 f), h2.offsets⟩, h3, ?_, ?_⟩, x, y, r,
    ⟨fun f hf => (k2.same f hf).trans (hty rows 0 f), k2.offsets⟩,
    ⟨fun f hf => (k3.same f hf).trans (hty rows' 1 f), k3.offsets⟩, ?_, k4⟩
  · simp only [Tokenizer.tokenize, Tokenizer.encodeSingle, List.headD_cons, h3, Res.bind_ok]
    exact congrArg Res.ok (h2.same .tokens (by simp))
  · exact List.length_eq_zero_iff.mp (forall₂_length h2.parts)
  · rw [Tokenizer.encodePair, Tokenizer.encode, whole_post_pair t htr hpad _ hproc .byte _ _ _ _ _ he hq]
    exact k1

/-! ### C96 with templates -/

/-- C96 (templates): the arrays are what the pieces of the template for one text, or for two, contribute, in order;
special tokens only if asked for. -/
theorem C96_template (t : Tokenizer) (htr : t.trunc = none) (hpad : t.padding = none) (tp : TemplateProc)
    (hproc : t.processor = some tp.toProcessor) (s p : List UInt8) (e q : Encoding)
    (he : t.tk.encodeSingle (.raw s) 0 .byte = .ok e) (hq : t.tk.encodeSingle (.raw p) 1 .byte = .ok q)
    (special : Bool) :
    (TemplateFits tp.tab tp.single false special → ProducesSomething tp.single special →
      ∃ r, t.encodeSingle s [special] = .ok (some r) ∧ (∀ f, r.arr f = tp.single.flatMap (pieceArr tp.tab e none special f)) ∧
        t.tokenize s [special] = .ok (tp.single.flatMap (pieceArr tp.tab e none special .tokens))) ∧
    (TemplateFits tp.tab tp.pair true special → ProducesSomething tp.pair special →
      ∃ r, t.encodePair s p [special] = .ok (some r) ∧
        ∀ f, r.arr f = tp.pair.flatMap (pieceArr tp.tab e (some q) special f)) := by
  obtain ⟨rows, rfl⟩ := encodeSingle_ofRows he
  obtain ⟨rows', rfl⟩ := encodeSingle_ofRows hq
  obtain ⟨_, _, hf⟩ := ofRows_usable rows 0
  obtain ⟨_, _, hf'⟩ := ofRows_usable rows' 1
  constructor
  · intro hfit hsome
    obtain ⟨r, h1, h2⟩ := C24_template tp (ofRows rows 0) none special hf (by simp) hfit hsome
    have h3 : t.encode (.single (.raw s)) special = .ok (some r) := by
      rw [Tokenizer.encode, whole_post t htr hpad _ hproc .byte _ _ _ he]
      exact h1
    refine ⟨r, h3, h2, ?_⟩
    simp only [Tokenizer.tokenize, Tokenizer.encodeSingle, List.headD_cons, h3, Res.bind_ok]
    exact congrArg Res.ok (h2 .tokens)
  · intro hfit hsome
    obtain ⟨r, h1, h2⟩ := C24_template tp (ofRows rows 0) (some (ofRows rows' 1)) special hf
      (by rintro _ ⟨⟩; exact hf') hfit hsome
    refine ⟨r, ?_, h2⟩
    rw [Tokenizer.encodePair, Tokenizer.encode, whole_post_pair t htr hpad _ hproc .byte _ _ _ _ _ he hq]
    exact h1

/-! ### C97 with RoBERTa and the byte-level processor -/

/-- C97 (RoBERTa): the result and its overflowing parts are `<s> w </s>` for the overlapping windows `w` of `L - 2`
tokens, each with offsets trimmed as if it were the whole text. -/
theorem C97_windows_roberta (t : Tokenizer) (hpad : t.padding = none) (rp : Roberta) (hrt : rp.trimOffsets = true)
    (hproc : t.processor = some rp.toProcessor) (L stride : Nat) (st : TruncStrategy)
    (htr : t.trunc = some ⟨L, st, stride⟩) (hst : st ≠ .onlySecond) (hs : stride + 2 < L) (ot : OffsetType)
    (input : InputSequence) (full : Encoding) (he : t.tk.encodeSingle input 0 ot = .ok full) :
    ∃ r ws, t.encodeWith ot (.single input) true = .ok (some r) ∧ Sliding (L - 2) stride full ws ∧
      List.Forall₂ (fun w r' => ∃ w', TrimmedTo true rp.addPrefixSpace w w' ∧ ∀ f, r'.arr f = bosEos rp f (w'.arr f))
        ws (r :: r.overflowing) ∧
      ∀ r' ∈ r :: r.overflowing, ∀ f, (r'.arr f).length ≤ L := by
  obtain ⟨e', h1, ⟨ha, ho, _⟩, hpl, h2⟩ := windows_post t hpad rp.toProcessor hproc true L stride st htr hst
    (by simpa [Roberta.toProcessor, Roberta.addedTokens] using hs) ot input full he
  obtain ⟨x, r, k1, k2, k3, k4, _⟩ := C23_roberta_single_partial rp hrt e' ha ho
  have hx := trimmed_to ha ho k1
  have hn : (if true = true then rp.toProcessor.addedTokens false else 0) = 2 := by
    simp [Roberta.toProcessor, Roberta.addedTokens]
  rw [hn] at h1
  have hall : List.Forall₂ (fun w r' : Encoding => ∃ w', TrimmedTo true rp.addPrefixSpace w w' ∧
      ∀ f, r'.arr f = bosEos rp f (w'.arr f)) (e' :: e'.overflowing) (r :: r.overflowing) := by
    refine forall₂_comp hx (S := fun x r' : Encoding => ∀ f, r'.arr f = robertaSingle rp x f) (.cons k3 k4) ?_
    intro w hw w' r' hw' hr'
    refine ⟨w', hw', fun f => ?_⟩
    rw [hr' f, robertaSingle, hw'.plain (hpl w hw)]
    rfl
  refine ⟨r, e' :: e'.overflowing, h2.trans k2, h1, hall, ?_⟩
  intro r' hr' f
  obtain ⟨w, hw, w', hww, hwr⟩ := forall₂_mem_right hall hr'
  rw [hwr f, bosEos]
  have := h1.short hw f
  have := hww.length f
  simp only [List.length_append, List.length_cons, List.length_nil]
  omega

/-- C97 (byte-level processor): the result and its overflowing parts are the overlapping windows of `L` tokens, with
offsets trimmed, if wanted, as if each were the whole text. -/
theorem C97_windows_bytelevel (t : Tokenizer) (hpad : t.padding = none) (trim a : Bool)
    (hproc : t.processor = some (byteLevelProcessor trim a)) (L stride : Nat) (st : TruncStrategy)
    (htr : t.trunc = some ⟨L, st, stride⟩) (hst : st ≠ .onlySecond) (hs : stride < L) (ot : OffsetType) (special : Bool)
    (input : InputSequence) (full : Encoding) (he : t.tk.encodeSingle input 0 ot = .ok full) :
    ∃ r ws, t.encodeWith ot (.single input) special = .ok (some r) ∧ Sliding L stride full ws ∧
      List.Forall₂ (TrimmedTo trim a) ws (r :: r.overflowing) := by
  have hn : (if special = true then (byteLevelProcessor trim a).addedTokens false else 0) = 0 := by
    cases special <;> rfl
  obtain ⟨e', h1, ⟨ha, ho, hf⟩, hpl, h2⟩ := windows_post t hpad _ hproc special L stride st htr hst
    (by rw [hn]; exact hs) ot input full he
  rw [hn] at h1
  obtain ⟨r, k1, k2, _⟩ := C102_single trim a special e' hf ha ho
  obtain ⟨rows, rfl⟩ := encodeSingle_ofRows he
  refine ⟨r, e' :: e'.overflowing, h2.trans k1, h1, .cons ⟨?_, k2.offsets⟩ k2.parts⟩
  intro f hf'
  rw [k2.same f hf']
  have i1 := h1.at' 0 e' rfl .ids
  have i2 := h1.at' 0 e' rfl .typeIds
  cases f <;> try rfl
  simp only [Encoding.arr, seqArr, ofRows] at i1 i2 ⊢
  rw [i1, i2]
  simp

/-! ### C97 and C121: templates -/

theorem merge_overflow {e r : Encoding} {es : List Encoding} (h : e.merge es false = .ok r)
    (ho : ∀ x ∈ es, x.overflowing = []) :
    List.Forall₂ (fun o o' : Encoding => ∀ f, o'.arr f = o.arr f ++ (es.map (fun x => x.arr f)).flatten)
      e.overflowing r.overflowing := by
  induction es generalizing e with
  | nil =>
    cases h
    generalize r.overflowing = l
    induction l with
    | nil => exact .nil
    | cons o l ih => exact .cons (fun f => by simp) ih
  | cons x es ih =>
    rw [Encoding.merge] at h
    obtain ⟨e1, h1, h⟩ := Res.bind_eq_ok.mp h
    have h2 := ih h (fun y hy => ho y (List.mem_cons_of_mem _ hy))
    have h3 := C07_merge_overflow _ _ _ _ h1
    unfold overflowPairs at h3
    rw [ho x (by simp)] at h3
    simp only [List.map_nil, List.append_nil] at h3
    have h4 : List.Forall₂ (fun o o' : Encoding => ∀ f, o'.arr f = o.arr f ++ x.arr f) e.overflowing e1.overflowing := by
      clear h2 h h1 ih
      generalize e.overflowing = l at h3
      generalize e1.overflowing = l' at h3
      induction l generalizing l' with
      | nil => cases h3; exact .nil
      | cons o l ih =>
        rw [List.flatMap_cons, List.singleton_append] at h3
        cases h3 with
        | cons k1 k2 => exact .cons (fun f => merge_plain_arr k1 f) (ih _ k2)
    refine forall₂_comp h4 h2 ?_
    intro o _ o1 o2 a1 a2 f
    rw [a2 f, a1 f]
    simp

/-- Merging encodings of which only one has overflowing parts. -/
theorem mergeEncodings_overflow {ss ps : List Encoding} {x r : Encoding}
    (h : mergeEncodings (ss ++ x :: ps) false = .ok (some r)) (hs : ∀ y ∈ ss, y.overflowing = [])
    (hp : ∀ y ∈ ps, y.overflowing = []) :
    List.Forall₂ (fun o o' : Encoding => ∀ f, o'.arr f = (ss.map (fun y => y.arr f)).flatten ++ o.arr f ++
      (ps.map (fun y => y.arr f)).flatten) x.overflowing r.overflowing := by
  have key : ∀ a rest, mergeEncodings (a :: rest) false = .ok (some r) → a.merge rest false = .ok r := by
    intro a rest h
    cases rest with
    | nil => cases h; rfl
    | cons b rest =>
      simp only [mergeEncodings] at h
      obtain ⟨z, h1, h⟩ := Res.bind_eq_ok.mp h
      cases h
      exact h1
  cases ss with
  | nil =>
    have := merge_overflow (key _ _ h) hp
    simpa using this
  | cons a ss =>
    have h1 := key _ _ h
    have split : ∀ (l m : List Encoding) (e r : Encoding), e.merge (l ++ m) false = .ok r →
        ∃ z, e.merge l false = .ok z ∧ z.merge m false = .ok r := by
      intro l
      induction l with
      | nil => intro m e r h; exact ⟨e, rfl, h⟩
      | cons b l ih =>
        intro m e r h
        rw [List.cons_append, Encoding.merge] at h
        obtain ⟨z, h1, h2⟩ := Res.bind_eq_ok.mp h
        obtain ⟨z', h3, h4⟩ := ih m z r h2
        exact ⟨z', by rw [Encoding.merge, h1]; exact h3, h4⟩
    obtain ⟨z, h2, h3⟩ := split _ _ _ _ h1
    have hz : z.overflowing = [] := by
      have := merge_overflow h2 (fun y hy => hs y (List.mem_cons_of_mem _ hy))
      rw [hs a (by simp)] at this
      exact List.length_eq_zero_iff.mp (forall₂_length this)
    have hzf : ∀ f, z.arr f = ((a :: ss).map (fun y => y.arr f)).flatten := by
      intro f
      refine mergeEncodings_arr (es := a :: ss) ?_ f
      cases ss with
      | nil => rw [Encoding.merge] at h2; cases h2; rfl
      | cons b ss => simp only [mergeEncodings, h2, Res.bind_ok]
    rw [Encoding.merge] at h3
    obtain ⟨z1, h4, h5⟩ := Res.bind_eq_ok.mp h3
    have h6 := C07_merge_overflow _ _ _ _ h4
    unfold overflowPairs at h6
    rw [hz] at h6
    simp only [List.flatMap_nil, List.nil_append] at h6
    have h7 : List.Forall₂ (fun o o' : Encoding => ∀ f, o'.arr f = z.arr f ++ o.arr f) x.overflowing z1.overflowing := by
      clear h5 h4 h3 h1 h
      generalize x.overflowing = l at h6
      generalize z1.overflowing = l' at h6
      induction l generalizing l' with
      | nil => cases h6; exact .nil
      | cons o l ih =>
        rw [List.map_cons] at h6
        cases h6 with
        | cons k1 k2 => exact .cons (fun f => merge_plain_arr k1 f) (ih _ k2)
    refine forall₂_comp h7 (merge_overflow h5 hp) ?_
    intro o _ o1 o2 a1 a2 f
    rw [a2 f, a1 f, hzf f]

/-- The special tokens of a template become encodings without overflowing parts. -/
theorem applySpecials (tab : TokenTable) (encs : List Encoding) (special : Bool) (ps : List (Str × Int))
    (hfit : special = true → ∀ p ∈ ps, ∃ t, tab p.1 = some t) :
    ∃ S : List Encoding, (∀ rest es, applyTemplate tab encs special rest = .ok es →
        applyTemplate tab encs special (ps.map (fun p => .special p.1 p.2) ++ rest) = .ok (S ++ es)) ∧
      (∀ x ∈ S, x.overflowing = [] ∧ RangesOk x) ∧
      ∀ f, (S.map (fun x => x.arr f)).flatten = specials tab special f ps := by
  cases special with
  | false =>
    refine ⟨[], ?_, by simp, by intro f; rfl⟩
    intro rest es h
    induction ps with
    | nil => exact h
    | cons p ps ih =>
      simp only [List.map_cons, List.cons_append, applyTemplate, Bool.false_eq_true, if_false]
      exact ih (by simp)
  | true =>
    induction ps with
    | nil => exact ⟨[], fun _ _ h => h, by simp, by intro f; rfl⟩
    | cons p ps ih =>
      obtain ⟨S, h1, h2, h3⟩ := ih (fun _ q hq => hfit rfl q (List.mem_cons_of_mem _ hq))
      obtain ⟨t, ht⟩ := hfit rfl p (by simp)
      refine ⟨newEncoding t.ids (List.replicate t.ids.length p.2) t.tokens (List.replicate t.ids.length (0, 0))
          (List.replicate t.ids.length 1) (List.replicate t.ids.length 1) [] :: S, ?_, ?_, ?_⟩
      · intro rest es h
        simp only [List.map_cons, List.cons_append, applyTemplate, if_true, ht, h1 rest es h, Res.bind_ok]
      · intro x hx
        rcases List.mem_cons.mp hx with rfl | hx
        · exact ⟨rfl, rangesOk_leaf _ rfl rfl⟩
        · exact h2 x hx
      · intro f
        rw [List.map_cons, List.flatten_cons, h3 f]
        cases f <;> simp [specials, ht, specialArr, newEncoding, Encoding.arr]

/-- `Process` of a template around one text. -/
theorem template_around (tp : TemplateProc) {pre post : List (Str × Int)} {ty : Int} (htpl : tp.single = around pre ty post)
    (special : Bool) (hfit : special = true → ∀ p ∈ pre ++ post, ∃ t, tp.tab p.1 = some t)
    (e : Encoding) (hu : Usable e) :
    ∃ r, tp.process e none special = .ok (some r) ∧
      (∀ f, r.arr f = specials tp.tab special f pre ++ seqArr e ty f ++ specials tp.tab special f post) ∧
      List.Forall₂ (fun w r' : Encoding => ∀ f, r'.arr f = specials tp.tab special f pre ++ w.arr f ++
        specials tp.tab special f post) e.overflowing r.overflowing := by
  obtain ⟨ha, ho, hf⟩ := hu
  obtain ⟨p, h1, h2, h3, h4⟩ := prepareOne_seq 0 e hf ha
  obtain ⟨S, s1, s2, s3⟩ := applySpecials tp.tab [p] special pre
    (fun h q hq => hfit h q (List.mem_append_left _ hq))
  obtain ⟨R, r1, r2, r3⟩ := applySpecials tp.tab [p] special post
    (fun h q hq => hfit h q (List.mem_append_right _ hq))
  have r1' := r1 [] [] rfl
  rw [List.append_nil, List.append_nil] at r1'
  obtain ⟨y, g1, g2, g3, g4, g5⟩ := setSequenceIds_ok { p with typeIds := List.replicate p.ids.length ty } 0
  obtain ⟨l, hl, hg⟩ := h2.ranges
  obtain ⟨l', d1, d2⟩ := g4 l hl hg
  have hy : ∀ f, y.arr f = seqArr e ty f := by
    intro f
    rw [g2 f]
    have i1 := h3 f
    have i2 := h3 .ids
    cases f <;> simp only [Encoding.arr, seqArr] at i1 i2 ⊢ <;> first | exact i1 | rw [i2]
  have hyo : y.overflowing = p.overflowing := g3
  have mid : applyTemplate tp.tab [p] special (.seq false ty :: post.map (fun p => .special p.1 p.2)) = .ok (y :: R) := by
    simp only [applyTemplate, Bool.false_eq_true, if_false, show idx [p] 0 = .ok p from rfl, r1', Res.bind_ok, g1]
  have all := s1 _ _ mid
  obtain ⟨r, m1, -⟩ := mergeEncodings_ok (S ++ y :: R) (by simp) (by
    intro x hx
    rcases List.mem_append.mp hx with hx | hx
    · exact (s2 x hx).2
    · rcases List.mem_cons.mp hx with rfl | hx
      · exact RangesOk.intro d1 d2 (by rw [hyo]; exact h2.over)
      · exact (r2 x hx).2) false
  refine ⟨r, ?_, ?_, ?_⟩
  · unfold TemplateProc.process prepareEncodings
    simp only [h1, Res.bind_ok, Option.isSome_none, Bool.false_eq_true, if_false, htpl, around]
    rw [List.append_assoc, List.singleton_append, all]
    simp only [Res.bind_ok, m1]
  · intro f
    rw [mergeEncodings_arr m1 f]
    simp only [List.map_append, List.map_cons, List.flatten_append, List.flatten_cons, s3, r3, hy, List.append_assoc]
  · have := mergeEncodings_overflow m1 (fun x hx => (s2 x hx).1) (fun x hx => (r2 x hx).1)
    rw [hyo] at this
    refine forall₂_comp h4 this ?_
    intro w _ w1 w2 a1 a2 f
    rw [a2 f, a1 f, s3, r3]

/-- C97 (templates with special tokens around one text of type id 0): the result and its overflowing parts are the
overlapping windows, each between the special tokens. -/
theorem C97_windows_template (t : Tokenizer) (hpad : t.padding = none) (tp : TemplateProc)
    (hproc : t.processor = some tp.toProcessor) {pre post : List (Str × Int)} (htpl : tp.single = around pre 0 post)
    (special : Bool) (hfit : special = true → ∀ p ∈ pre ++ post, ∃ t, tp.tab p.1 = some t)
    (L stride : Nat) (st : TruncStrategy) (htr : t.trunc = some ⟨L, st, stride⟩) (hst : st ≠ .onlySecond)
    (hs : stride + (if special then tp.addedTokens false else 0) < L) (ot : OffsetType)
    (input : InputSequence) (full : Encoding) (he : t.tk.encodeSingle input 0 ot = .ok full) :
    ∃ r ws, t.encodeWith ot (.single input) special = .ok (some r) ∧
      Sliding (L - (if special then tp.addedTokens false else 0)) stride full ws ∧
      List.Forall₂ (fun w r' : Encoding => ∀ f, r'.arr f = specials tp.tab special f pre ++ w.arr f ++
        specials tp.tab special f post) ws (r :: r.overflowing) := by
  obtain ⟨e', h1, hu, hpl, h2⟩ := windows_post t hpad tp.toProcessor hproc special L stride st htr hst hs ot input full he
  obtain ⟨r, k1, k2, k3⟩ := template_around tp htpl special hfit e' hu
  refine ⟨r, e' :: e'.overflowing, h2.trans k1, h1, .cons ?_ k3⟩
  obtain ⟨rows, rfl⟩ := encodeSingle_ofRows he
  intro f
  rw [k2 f]
  have i1 := h1.at' 0 e' rfl .ids
  have i2 := h1.at' 0 e' rfl .typeIds
  cases f <;> try rfl
  simp only [Encoding.arr, seqArr, ofRows] at i1 i2 ⊢
  rw [i1, i2]
  simp

/-- C121 as far as it holds: with a template that gives the text type id 0, the entries of the text have it in the
result and in every overflowing part. -/
theorem C121_zero_partial (t : Tokenizer) (hpad : t.padding = none) (tp : TemplateProc)
    (hproc : t.processor = some tp.toProcessor) {pre post : List (Str × Int)} (htpl : tp.single = around pre 0 post)
    (special : Bool) (hfit : special = true → ∀ p ∈ pre ++ post, ∃ t, tp.tab p.1 = some t)
    (L stride : Nat) (st : TruncStrategy) (htr : t.trunc = some ⟨L, st, stride⟩) (hst : st ≠ .onlySecond)
    (hs : stride + (if special then tp.addedTokens false else 0) < L) (ot : OffsetType)
    (input : InputSequence) (full : Encoding) (he : t.tk.encodeSingle input 0 ot = .ok full) :
    ∃ r, t.encodeWith ot (.single input) special = .ok (some r) ∧
      ∀ r' ∈ r :: r.overflowing, ∃ n, r'.typeIds = specials tp.tab special .typeIds pre ++ List.replicate n 0 ++
        specials tp.tab special .typeIds post := by
  obtain ⟨r, ws, h1, h2, h3⟩ := C97_windows_template t hpad tp hproc htpl special hfit L stride st htr hst hs ot input full he
  refine ⟨r, h1, ?_⟩
  intro r' hr'
  obtain ⟨w, hw, hwr⟩ := forall₂_mem_right h3 hr'
  obtain ⟨k, hk⟩ := List.mem_iff_getElem?.mp hw
  have hat := h2.at' k w hk .typeIds
  refine ⟨w.typeIds.length, ?_⟩
  have h6 := hwr .typeIds
  simp only [Encoding.arr] at h6 hat
  rw [h6]
  congr 2
  obtain ⟨rows, rfl⟩ := encodeSingle_ofRows he
  simp only [ofRows] at hat
  rw [hat]
  simp

/-- C121 is violated by every template that gives the text another type id than 0, for every text that does not fit:
the entries of the text have that type id in the result, and type id 0 in every overflowing part. -/
theorem C121_template_types_violated (t : Tokenizer) (hpad : t.padding = none) (tp : TemplateProc)
    (hproc : t.processor = some tp.toProcessor) {pre post : List (Str × Int)} {ty : Int}
    (htpl : tp.single = around pre ty post)
    (special : Bool) (hfit : special = true → ∀ p ∈ pre ++ post, ∃ t, tp.tab p.1 = some t)
    (L stride : Nat) (st : TruncStrategy) (htr : t.trunc = some ⟨L, st, stride⟩) (hst : st ≠ .onlySecond)
    (hs : stride + (if special then tp.addedTokens false else 0) < L) (ot : OffsetType)
    (input : InputSequence) (full : Encoding) (he : t.tk.encodeSingle input 0 ot = .ok full)
    (hlong : L - (if special then tp.addedTokens false else 0) < full.ids.length) :
    ∃ r, t.encodeWith ot (.single input) special = .ok (some r) ∧ r.overflowing ≠ [] ∧
      (∃ n, 0 < n ∧ r.typeIds = specials tp.tab special .typeIds pre ++ List.replicate n ty ++
        specials tp.tab special .typeIds post) ∧
      ∀ r' ∈ r.overflowing, ∃ n, 0 < n ∧ r'.typeIds = specials tp.tab special .typeIds pre ++ List.replicate n 0 ++
        specials tp.tab special .typeIds post := by
  obtain ⟨e', h1, hu, hpl, h2⟩ := windows_post t hpad tp.toProcessor hproc special L stride st htr hst hs ot input full he
  obtain ⟨r, k1, k2, k3⟩ := template_around tp htpl special hfit e' hu
  obtain ⟨rows, rfl⟩ := encodeSingle_ofRows he
  have hlen : (ofRows rows 0).ids.length = rows.length := by simp [ofRows]
  change Sliding (L - (if special then tp.addedTokens false else 0)) _ _ _ at h1
  generalize hn : (if special then tp.addedTokens false else 0) = n at h1 hs hlong
  have hids := h1.at' 0 e' rfl .ids
  simp only [Encoding.arr, Nat.zero_mul, List.drop_zero] at hids
  have hov : e'.overflowing ≠ [] := by
    intro hc
    have := h1.covers
    rw [hc] at this
    simp only [List.length_cons, List.length_nil, Nat.zero_add, Nat.sub_self, Nat.zero_mul] at this
    omega
  refine ⟨r, h2.trans k1, ?_, ⟨e'.ids.length, ?_, ?_⟩, ?_⟩
  · intro hc
    rw [hc] at k3
    exact hov (List.length_eq_zero_iff.mp (forall₂_length k3).symm)
  · rw [hids, List.length_take]; omega
  · exact k2 .typeIds
  · intro r' hr'
    obtain ⟨w, hw, hwr⟩ := forall₂_mem_right k3 hr'
    obtain ⟨k, hk⟩ := List.mem_iff_getElem?.mp hw
    have hat := h1.at' (k + 1) w (by simpa using hk) .typeIds
    have hneed := h1.needed k (by
      have := (List.getElem?_eq_some_iff.mp hk).1
      simp only [List.length_cons]; omega)
    refine ⟨w.typeIds.length, ?_, ?_⟩
    · have h5 : (k + 1) * (L - n - stride) = k * (L - n - stride) + (L - n - stride) := by rw [Nat.succ_mul]
      simp only [Encoding.arr] at hat
      rw [hat, List.length_take, List.length_drop]
      simp only [ofRows, List.length_map, List.length_replicate] at hneed hlen ⊢
      omega
    · have h6 := hwr .typeIds
      simp only [Encoding.arr] at h6
      rw [h6]
      congr 2
      simp only [Encoding.arr, ofRows] at hat
      rw [hat]
      simp

/-! ### C120: places in windows -/

/-- The entries of `r` and of its overflowing parts, apart from `pre` special tokens in front and `post` behind, have
the offsets they have in `whole`, where the windows start `step` entries apart. -/
def SamePlaces (step pre post : Nat) (whole r : Encoding) : Prop :=
  ∀ (k : Nat) (r' : Encoding), (r :: r.overflowing)[k]? = some r' → ∀ j, pre + j + post < r'.offsets.length →
    r'.offsets[pre + j]? = whole.offsets[pre + (k * step + j)]?

theorem getElem?_between {α : Type} (A w B : List α) (j : Nat) (h : j < w.length) : (A ++ w ++ B)[A.length + j]? = w[j]? := by
  rw [List.append_assoc, List.getElem?_append_right (by omega), Nat.add_sub_cancel_left, List.getElem?_append_left h]

theorem Sliding.entry {m s : Nat} {full w : Encoding} {ws : List Encoding} (h : Sliding m s full ws) {k : Nat}
    (hk : ws[k]? = some w) {j : Nat} (f : Field) (hj : j < (w.arr f).length) :
    j < m ∧ (w.arr f)[j]? = (full.arr f)[k * (m - s) + j]? := by
  have h1 := h.at' k w hk f
  rw [h1, List.length_take] at hj
  have hjm : j < m := by omega
  refine ⟨hjm, ?_⟩
  rw [h1, List.getElem?_take_of_lt hjm, List.getElem?_drop]

/-- Trimming a window and trimming the whole agree wherever the first token does not matter. -/
theorem trimmed_window {m s : Nat} {rows : List Row} {full' w w' : Encoding} {ws : List Encoding} {trim a : Bool}
    (h : Sliding m s (ofRows rows 0) ws) {k : Nat} (hk : ws[k]? = some w) (hw : TrimmedTo trim a w w')
    (hf : TrimmedTo trim a (ofRows rows 0) full') (hord : ∀ o ∈ (ofRows rows 0).offsets, o.1 ≤ o.2)
    {j : Nat} (hj : j < w'.offsets.length) (hc : trim = false ∨ a = false ∨ k = 0 ∨ 0 < j) :
    w'.offsets[j]? = full'.offsets[k * (m - s) + j]? := by
  have hj' : j < w.offsets.length := by rw [← hw.2.1]; exact hj
  obtain ⟨hjm, ho⟩ := h.entry hk .offsets hj'
  simp only [Encoding.arr] at ho
  have hlt : j < (w.arr .tokens).length := by
    have h1 := h.at' k w hk .tokens
    have h2 := h.at' k w hk .offsets
    simp only [Encoding.arr] at h1 h2
    rw [h2] at hj'
    simp only [Encoding.arr]
    rw [h1]
    simpa [ofRows] using hj'
  obtain ⟨_, ht⟩ := h.entry hk .tokens hlt
  simp only [Encoding.arr] at ht hlt
  cases trim with
  | false =>
    have h1 := hw.2.2
    have h2 := hf.2.2
    simp only [Bool.false_eq_true, if_false] at h1 h2
    rw [h1, h2, ho]
  | true =>
    have h1 := hw.2.2
    have h2 := hf.2.2
    simp only [if_true] at h1 h2
    have e1 := List.getElem?_eq_getElem hj'
    have e2 := List.getElem?_eq_getElem hlt
    have hmem : w.offsets[j] ∈ (ofRows rows 0).offsets := by
      rw [e1] at ho
      exact List.mem_of_getElem? ho.symm
    have hle := hord _ hmem
    rw [h1 j _ _ e2 e1 hle, h2 (k * (m - s) + j) _ _ (by rw [← ht]; exact e2) (by rw [← ho]; exact e1) hle]
    congr 1
    unfold trimmedPlace
    by_cases h0 : j = 0 ∧ a = true ∧ (List.takeWhile (· == 'Ġ') w.tokens[j]).length = 1
    · obtain ⟨z1, z2, z3⟩ := h0
      rcases hc with hc | hc | hc | hc
      · cases hc
      · rw [hc] at z2; cases z2
      · subst hc z1; simp
      · omega
    · by_cases h0' : k * (m - s) + j = 0 ∧ a = true ∧ (List.takeWhile (· == 'Ġ') w.tokens[j]).length = 1
      · exact absurd ⟨by omega, h0'.2⟩ h0
      · simp only [if_neg h0, if_neg h0']

theorem forall₂_getElem?_right {α β : Type} {R : α → β → Prop} {l : List α} {m : List β} (h : List.Forall₂ R l m) {k : Nat} {y : β}
    (hk : m[k]? = some y) : ∃ x, l[k]? = some x ∧ R x y := by
  induction h generalizing k with
  | nil => simp at hk
  | cons h1 _ ih =>
    cases k with
    | zero =>
      simp only [List.getElem?_cons_zero, Option.some.injEq] at hk
      subst hk
      exact ⟨_, rfl, h1⟩
    | succ k =>
      simp only [List.getElem?_cons_succ] at hk ⊢
      exact ih hk

/-- An entry of a window between special tokens, and the same entry of the whole. -/
theorem entry_places {m s : Nat} {rows : List Row} {ws : List Encoding} {trim a : Bool} {full' whole w w' r' : Encoding}
    {A B : List (Int × Int)} (h : Sliding m s (ofRows rows 0) ws) {k : Nat} (hk : ws[k]? = some w)
    (hw : TrimmedTo trim a w w') (hr' : r'.offsets = A ++ w'.offsets ++ B)
    (hf : TrimmedTo trim a (ofRows rows 0) full') (hwhole : whole.offsets = A ++ full'.offsets ++ B)
    {j : Nat} (hj : A.length + j + B.length < r'.offsets.length) :
    j < w'.offsets.length ∧ r'.offsets[A.length + j]? = w'.offsets[j]? ∧
      whole.offsets[A.length + (k * (m - s) + j)]? = full'.offsets[k * (m - s) + j]? := by
  rw [hr'] at hj ⊢
  simp only [List.length_append] at hj
  have hj' : j < w.offsets.length := by rw [← hw.2.1]; omega
  obtain ⟨_, ho⟩ := h.entry hk .offsets hj'
  simp only [Encoding.arr] at ho
  have hlt : k * (m - s) + j < (ofRows rows 0).offsets.length := by
    refine Classical.byContradiction fun hc => ?_
    rw [List.getElem?_eq_none (l := (ofRows rows 0).offsets) (by omega)] at ho
    have := List.getElem?_eq_none_iff.mp ho
    omega
  refine ⟨by omega, getElem?_between _ _ _ _ (by omega), ?_⟩
  rw [hwhole]
  exact getElem?_between _ _ _ _ (by rw [hf.2.1]; exact hlt)

theorem samePlaces_of {m s : Nat} {rows : List Row} {ws : List Encoding} {trim a : Bool} {full' whole r : Encoding}
    {A B : List (Int × Int)} (h : Sliding m s (ofRows rows 0) ws)
    (hr : List.Forall₂ (fun w r' : Encoding => ∃ w', TrimmedTo trim a w w' ∧ r'.offsets = A ++ w'.offsets ++ B)
      ws (r :: r.overflowing))
    (hf : TrimmedTo trim a (ofRows rows 0) full') (hwhole : whole.offsets = A ++ full'.offsets ++ B)
    (hord : trim = true → ∀ o ∈ (ofRows rows 0).offsets, o.1 ≤ o.2) (hc : trim = false ∨ a = false) :
    SamePlaces (m - s) A.length B.length whole r := by
  intro k r' hk j hj
  obtain ⟨w, hw, w', hww, hr'⟩ := forall₂_getElem?_right hr hk
  obtain ⟨h1, h2, h3⟩ := entry_places h hw hww hr' hf hwhole hj
  rw [h2, h3]
  cases trim with
  | false =>
    obtain ⟨_, ho⟩ := h.entry hw .offsets (j := j) (by
      simp only [Encoding.arr]
      rw [← hww.2.1]; exact h1)
    have e1 := hww.2.2
    have e2 := hf.2.2
    simp only [Bool.false_eq_true, if_false] at e1 e2
    rw [e1, e2]
    exact ho
  | true =>
    refine trimmed_window h hw hww hf (hord rfl) h1 ?_
    rcases hc with hc | hc
    · cases hc
    · exact .inr (.inl hc)

theorem TrimmedTo.refl (a : Bool) (w : Encoding) : TrimmedTo false a w w := ⟨fun _ _ => rfl, .refl rfl⟩

theorem forall₂_weaken {α β : Type} {R S : α → β → Prop} {l : List α} {m : List β} (h : List.Forall₂ R l m)
    (hRS : ∀ x y, R x y → S x y) : List.Forall₂ S l m := by
  induction h with
  | nil => exact .nil
  | cons h1 _ ih => exact .cons (hRS _ _ h1) ih

/-- C120 (BERT): truncation changes the offsets of no entry. -/
theorem C120_bert (t : Tokenizer) (hpad : t.padding = none) (bp : Bert) (hproc : t.processor = some bp.toProcessor)
    (L stride : Nat) (st : TruncStrategy) (htr : t.trunc = some ⟨L, st, stride⟩) (hst : st ≠ .onlySecond)
    (hs : stride + 2 < L) (ot : OffsetType) (input : InputSequence) (full : Encoding)
    (he : t.tk.encodeSingle input 0 ot = .ok full) :
    ∃ whole r, ({ t with trunc := none } : Tokenizer).encodeWith ot (.single input) true = .ok (some whole) ∧
      t.encodeWith ot (.single input) true = .ok (some r) ∧ SamePlaces (L - 2 - stride) 1 1 whole r := by
  obtain ⟨r, ws, h1, h2, h3, _⟩ := C97_windows t hpad bp hproc L stride st htr hst hs ot input full he
  obtain ⟨rows, rfl⟩ := encodeSingle_ofRows he
  obtain ⟨r0, k1, k2, _⟩ := C22_bert_single bp (ofRows rows 0)
  refine ⟨r0, r, ?_, h1, ?_⟩
  · rw [whole_post { t with trunc := none } rfl hpad _ hproc ot true _ _ he]
    exact k1
  · have e2 := k2 .offsets
    rw [bertSingle, ofRows_plain] at e2
    refine samePlaces_of (trim := false) (a := false) (A := [specialEntry bp.cls 0 .offsets])
      (B := [specialEntry bp.sep 0 .offsets]) h2 ?_ (TrimmedTo.refl _ _) e2 (by simp) (.inl rfl)
    exact forall₂_weaken h3 (fun w r' h => ⟨w, TrimmedTo.refl _ _, h .offsets⟩)

/-- C120 (templates with special tokens around one text): truncation changes the offsets of no entry. -/
theorem C120_template (t : Tokenizer) (hpad : t.padding = none) (tp : TemplateProc)
    (hproc : t.processor = some tp.toProcessor) {pre post : List (Str × Int)} (htpl : tp.single = around pre 0 post)
    (special : Bool) (hfit : special = true → ∀ p ∈ pre ++ post, ∃ t, tp.tab p.1 = some t)
    (L stride : Nat) (st : TruncStrategy) (htr : t.trunc = some ⟨L, st, stride⟩) (hst : st ≠ .onlySecond)
    (hs : stride + (if special then tp.addedTokens false else 0) < L) (ot : OffsetType)
    (input : InputSequence) (full : Encoding) (he : t.tk.encodeSingle input 0 ot = .ok full) :
    ∃ whole r, ({ t with trunc := none } : Tokenizer).encodeWith ot (.single input) special = .ok (some whole) ∧
      t.encodeWith ot (.single input) special = .ok (some r) ∧
      SamePlaces (L - (if special then tp.addedTokens false else 0) - stride) (specials tp.tab special .offsets pre).length
        (specials tp.tab special .offsets post).length whole r := by
  obtain ⟨r, ws, h1, h2, h3⟩ := C97_windows_template t hpad tp hproc htpl special hfit L stride st htr hst hs ot input full he
  obtain ⟨rows, rfl⟩ := encodeSingle_ofRows he
  obtain ⟨r0, k1, k2, _⟩ := template_around tp htpl special hfit (ofRows rows 0) (ofRows_usable rows 0)
  refine ⟨r0, r, ?_, h1, ?_⟩
  · rw [whole_post { t with trunc := none } rfl hpad _ hproc ot special _ _ he]
    exact k1
  · refine samePlaces_of (trim := false) (a := false) (A := specials tp.tab special .offsets pre)
      (B := specials tp.tab special .offsets post) h2 ?_ (TrimmedTo.refl _ _) (k2 .offsets) (by simp) (.inl rfl)
    exact forall₂_weaken h3 (fun w r' h => ⟨w, TrimmedTo.refl _ _, h .offsets⟩)

/-- C120, partial (RoBERTa without an added space): truncation changes the offsets of no entry. With one it does, see
`C120_roberta_violated`. -/
theorem C120_roberta_partial (t : Tokenizer) (hpad : t.padding = none) (rp : Roberta) (hrt : rp.trimOffsets = true)
    (haps : rp.addPrefixSpace = false)
    (hproc : t.processor = some rp.toProcessor) (L stride : Nat) (st : TruncStrategy)
    (htr : t.trunc = some ⟨L, st, stride⟩) (hst : st ≠ .onlySecond) (hs : stride + 2 < L) (ot : OffsetType)
    (input : InputSequence) (full : Encoding) (he : t.tk.encodeSingle input 0 ot = .ok full)
    (hord : ∀ o ∈ full.offsets, o.1 ≤ o.2) :
    ∃ whole r, ({ t with trunc := none } : Tokenizer).encodeWith ot (.single input) true = .ok (some whole) ∧
      t.encodeWith ot (.single input) true = .ok (some r) ∧ SamePlaces (L - 2 - stride) 1 1 whole r := by
  obtain ⟨r, ws, h1, h2, h3, _⟩ := C97_windows_roberta t hpad rp hrt hproc L stride st htr hst hs ot input full he
  obtain ⟨rows, rfl⟩ := encodeSingle_ofRows he
  obtain ⟨ha, ho, _⟩ := ofRows_usable rows 0
  obtain ⟨x, r0, k1, k2, k3, _, _⟩ := C23_roberta_single_partial rp hrt _ ha ho
  refine ⟨r0, r, ?_, h1, ?_⟩
  · rw [whole_post { t with trunc := none } rfl hpad _ hproc ot true _ _ he]
    exact k2
  · cases trimmed_to ha ho k1 with
    | cons hx _ =>
    have e2 := k3 .offsets
    refine samePlaces_of (trim := true) (a := rp.addPrefixSpace) (A := [specialEntry rp.cls 0 .offsets])
      (B := [specialEntry rp.sep 0 .offsets]) h2 ?_ hx e2 (fun _ => hord) (.inr haps)
    refine forall₂_weaken h3 ?_
    rintro w r' ⟨w', h4, h5⟩
    exact ⟨w', h4, h5 .offsets⟩

/-- C120 is violated with RoBERTa's post-processor and an added space, in every overflowing part that starts with a
token with one marker in front: the token starts at its space there, and behind it in the encoding without
truncation. -/
theorem C120_roberta_violated (t : Tokenizer) (hpad : t.padding = none) (rp : Roberta) (hrt : rp.trimOffsets = true)
    (haps : rp.addPrefixSpace = true)
    (hproc : t.processor = some rp.toProcessor) (L stride : Nat) (st : TruncStrategy)
    (htr : t.trunc = some ⟨L, st, stride⟩) (hst : st ≠ .onlySecond) (hs : stride + 2 < L) (ot : OffsetType)
    (input : InputSequence) (full : Encoding) (he : t.tk.encodeSingle input 0 ot = .ok full) (k : Nat)
    (tok : Str) (o : Int × Int) (hk : k * (L - 2 - stride) + (L - 2) < full.ids.length)
    (htok : full.tokens[(k + 1) * (L - 2 - stride)]? = some tok) (ho : full.offsets[(k + 1) * (L - 2 - stride)]? = some o)
    (hone : (tok.takeWhile (· == 'Ġ')).length = 1) (hlt : o.1 < o.2) :
    ∃ whole r r' b b', ({ t with trunc := none } : Tokenizer).encodeWith ot (.single input) true = .ok (some whole) ∧
      t.encodeWith ot (.single input) true = .ok (some r) ∧ r.overflowing[k]? = some r' ∧
      r'.tokens[1]? = some tok ∧ whole.tokens[1 + (k + 1) * (L - 2 - stride)]? = some tok ∧
      r'.offsets[1]? = some (o.1, b) ∧ whole.offsets[1 + (k + 1) * (L - 2 - stride)]? = some (o.1 + 1, b') := by
  obtain ⟨r, ws, h1, h2, h3, _⟩ := C97_windows_roberta t hpad rp hrt hproc L stride st htr hst hs ot input full he
  obtain ⟨rows, rfl⟩ := encodeSingle_ofRows he
  obtain ⟨ha, hov, _⟩ := ofRows_usable rows 0
  obtain ⟨x, r0, k1, k2, k3, _, _⟩ := C23_roberta_single_partial rp hrt _ ha hov
  cases trimmed_to ha hov k1 with
  | cons hx _ =>
  have hmul : (k + 1) * (L - 2 - stride) = k * (L - 2 - stride) + (L - 2 - stride) := by rw [Nat.succ_mul]
  have hwl : k + 1 < ws.length := by
    refine Classical.byContradiction fun hc => ?_
    have hcov := h2.covers
    have : (ws.length - 1) * (L - 2 - stride) ≤ k * (L - 2 - stride) := Nat.mul_le_mul_right _ (by omega)
    omega
  have hlen := forall₂_length h3
  simp only [List.length_cons] at hlen
  have hrk : k < r.overflowing.length := by omega
  have hrk' := List.getElem?_eq_getElem hrk
  obtain ⟨w, hw, w', hww, hwr⟩ := forall₂_getElem?_right h3 (k := k + 1) (y := r.overflowing[k]) (by simp)
  have hat := h2.at' (k + 1) w hw
  have first : ∀ f (v : f.Ty), ((ofRows rows 0).arr f)[(k + 1) * (L - 2 - stride)]? = some v → (w.arr f)[0]? = some v := by
    intro f v hv
    rw [hat f, List.getElem?_take_of_lt (by omega), List.getElem?_drop, Nat.add_zero]
    exact hv
  have w1 : w.tokens[0]? = some tok := first .tokens tok htok
  have w2 : w.offsets[0]? = some o := first .offsets o ho
  have p1 := hww.2.2
  have p2 := hx.2.2
  simp only [if_true] at p1 p2
  have q1 := p1 0 tok o w1 w2 (by omega)
  have q2 := p2 _ tok o htok ho (by omega)
  have n1 : 0 < w'.offsets.length := (List.getElem?_eq_some_iff.mp q1).1
  have n2 : (k + 1) * (L - 2 - stride) < x.offsets.length := (List.getElem?_eq_some_iff.mp q2).1
  have w1' : w'.tokens[0]? = some tok := by
    have := hww.1 .tokens (by simp)
    simp only [Encoding.arr] at this
    rw [this]; exact w1
  have x1 : x.tokens[(k + 1) * (L - 2 - stride)]? = some tok := by
    have := hx.1 .tokens (by simp)
    simp only [Encoding.arr] at this
    rw [this]; exact htok
  have betw : ∀ (f : Field) (u v : f.Ty) (l : List f.Ty) (i : Nat) (y : f.Ty), l[i]? = some y → ([u] ++ l ++ [v])[1 + i]? = some y := by
    intro f u v l i y hy
    have := getElem?_between [u] l [v] i (List.getElem?_eq_some_iff.mp hy).1
    rw [hy] at this
    exact this
  have hr0 : ∀ f, r0.arr f = [specialEntry rp.cls 0 f] ++ x.arr f ++ [specialEntry rp.sep 0 f] := by
    intro f
    rw [k3 f, robertaSingle, hx.plain (fun f => ofRows_plain rows 0 f)]
  refine ⟨r0, r, r.overflowing[k], (trimmedPlace true 0 tok o).2, (trimmedPlace true ((k + 1) * (L - 2 - stride)) tok o).2,
    ?_, h1, hrk', ?_, ?_, ?_, ?_⟩
  · rw [whole_post { t with trunc := none } rfl hpad _ hproc ot true _ _ he]
    exact k2
  · have := hwr .tokens
    simp only [Encoding.arr, bosEos] at this
    rw [this]
    exact betw .tokens _ _ _ 0 _ w1'
  · have := hr0 .tokens
    simp only [Encoding.arr] at this
    rw [this]
    exact betw .tokens _ _ _ _ _ x1
  · have := hwr .offsets
    simp only [Encoding.arr, bosEos] at this
    rw [this]
    rw [haps] at q1
    refine (betw .offsets _ _ _ 0 _ q1).trans ?_
    congr 1
    refine Prod.ext ?_ rfl
    simp only [trimmedPlace, hone]
    simp
    omega
  · have := hr0 .offsets
    simp only [Encoding.arr] at this
    rw [this]
    rw [haps] at q2
    refine (betw .offsets _ _ _ _ _ q2).trans ?_
    congr 1
    refine Prod.ext ?_ rfl
    have hpos : (k + 1) * (L - 2 - stride) ≠ 0 := by omega
    simp only [trimmedPlace, hone, hpos, false_and, if_false]
    omega

/-! ### Cases -/

/-- A tokenizer that gives one token for every word, marked with a space, with RoBERTa's special tokens, trimming, an
added space and windows of five tokens. -/
def sampleRoberta : Tokenizer :=
  { tk := ⟨⟨[], fun _ => []⟩, ⟨[], fun _ => []⟩, none, none,
      some (fun bs => .ok (some [⟨1, 'Ġ' :: decStr bs, (0, bs.length)⟩]))⟩
    trunc := some ⟨5, .longestFirst, 1⟩, padding := none
    processor := some (⟨⟨['S'], 102⟩, ⟨['C'], 101⟩, true, true⟩ : Roberta).toProcessor }

/-- Five words of two bytes: the third one has other offsets at the start of the second window than without
truncation. -/
example :
    okAnd (sampleRoberta.encode (.single (.words ([" a", " b", " c", " d", " e"].map (fun w => encStr w.toList)))) true)
      (fun r => (r.toList.flatMap (fun r => r :: r.overflowing)).map (·.offsets) =
        [[(0, 0), (0, 2), (1, 2), (1, 2), (0, 0)], [(0, 0), (0, 2), (1, 2), (1, 2), (0, 0)]]) = true ∧
    okAnd (({ sampleRoberta with trunc := none } : Tokenizer).encode
        (.single (.words ([" a", " b", " c", " d", " e"].map (fun w => encStr w.toList)))) true)
      (fun r => r.toList.map (·.offsets) =
        [[(0, 0), (0, 2), (1, 2), (1, 2), (1, 2), (1, 2), (0, 0)]]) = true := by
  decide +kernel

/-- The same tokenizer with a template whose text has type id 1. -/
def sampleTyped : Tokenizer :=
  ⟨sampleRoberta.tk, sampleRoberta.trunc, none,
    some (⟨around [(['C'], 0)] 1 [(['S'], 0)], [], sampleTemplate.tab⟩ : TemplateProc).toProcessor⟩

/-- The second window has type id 0. -/
example : okAnd (sampleTyped.encode (.single (.words ([" a", " b", " c", " d", " e"].map (fun w => encStr w.toList)))) true)
      (fun r => (r.toList.flatMap (fun r => r :: r.overflowing)).map (·.typeIds) =
        [[0, 1, 1, 1, 0], [0, 0, 0, 0, 0]]) = true := by
  decide +kernel

end Tok.Whole
