import Verif.Whole.PropsFileLimits

/-!
# C138: a question and a long text with the tokenizer of a file
-/

namespace Tok.Whole

open Tok.PreTok Tok.Added Tok.Config
open Tok.Norm (okAnd okAnd_spec)

/-! ### Specification -/

/-- The object asks for at most `L` tokens and an overlap of `stride`, with the strategy that cuts only the second text. -/
structure CutsSecond (q : List (Str × Val)) (L stride : Nat) : Prop where
  length : get q "max_length" = .float ((L : Int) : Rat)
  stride : get q "stride" = .float ((stride : Int) : Rat)
  strategy : get q "strategy" = .str "OnlySecond".toList

/-- `r` is `[CLS] a [SEP] w [SEP]`, with type id 0 up to the first `[SEP]` and the ones of `w` and 1 after it. -/
structure AskedWith (cls sep : Str × Int) (a w r : Encoding) : Prop where
  ids : r.ids = [cls.2] ++ a.ids ++ [sep.2] ++ w.ids ++ [sep.2]
  tokens : r.tokens = [cls.1] ++ a.tokens ++ [sep.1] ++ w.tokens ++ [sep.1]
  offsets : r.offsets = [(0, 0)] ++ a.offsets ++ [(0, 0)] ++ w.offsets ++ [(0, 0)]
  typeIds : r.typeIds = [0] ++ a.typeIds ++ [0] ++ w.typeIds ++ [1]
  specialMask : r.specialMask = [1] ++ a.specialMask ++ [1] ++ w.specialMask ++ [1]
  attentionMask : r.attentionMask = [1] ++ a.attentionMask ++ [1] ++ w.attentionMask ++ [1]

/-! ### Lemmas -/

theorem asked_of_arr {cls sep : Str × Int} {bp : Bert} {a a' w r : Encoding} (hbp : bp = ⟨⟨sep.1, sep.2⟩, ⟨cls.1, cls.2⟩⟩)
    (ha : ∀ f, a'.arr f = a.arr f)
    (h : ∀ f, r.arr f = clsSep bp f (a.arr f) ++ w.arr f ++ [specialEntry bp.sep 1 f]) : AskedWith cls sep a' w r := by
  subst hbp
  refine ⟨?_, ?_, ?_, ?_, ?_, ?_⟩
  · rw [show a'.ids = a.ids from ha .ids]; exact h .ids
  · rw [show a'.tokens = a.tokens from ha .tokens]; exact h .tokens
  · rw [show a'.offsets = a.offsets from ha .offsets]; exact h .offsets
  · rw [show a'.typeIds = a.typeIds from ha .typeIds]; exact h .typeIds
  · rw [show a'.specialMask = a.specialMask from ha .specialMask]; exact h .specialMask
  · rw [show a'.attentionMask = a.attentionMask from ha .attentionMask]; exact h .attentionMask

/-! ### C138 -/

/-- C138 (a question and a long text): a file with BertProcessing whose section "truncation" cuts only the second text. Where the
file without the section gives `[CLS] Q [SEP] T [SEP]` for a pair, the file with it gives `[CLS] Q [SEP] w [SEP]` for the windows
`w` of `T` that fill what the question leaves and overlap by `stride`: the first as the result and the others as its overflowing
parts. None has more than `L` tokens. -/
theorem C138_question_partial (E : FileEnv) (c : FileConfig) (q : List (Str × Val)) (L stride : Nat) (pq : List (Str × Val))
    (cls sep : Str × Int) (hq : c.truncation = some q) (hcut : CutsSecond q L stride) (hpad : c.padding = none)
    (hpost : c.postProcessor = some pq) (hty : TypeIs pq "BertProcessing") (hcls : TokenIs pq "cls" cls)
    (hsep : TokenIs pq "sep" sep) (b : Built) (hb : fromReader E (some (unlimited c)) = .ok b) :
    ∃ b', fromReader E (some c) = .ok b' ∧ ∀ (x y : InputSequence) (question whole : Encoding),
      b.tok.encode (.single x) false = .ok (some question) → b.tok.encode (.dual x y) true = .ok (some whole) →
      question.ids.length + 3 + stride < L →
      ∃ text r ws, AskedWith cls sep question text whole ∧ b'.tok.encode (.dual x y) true = .ok (some r) ∧
        Sliding (L - 3 - question.ids.length) stride text ws ∧
        List.Forall₂ (AskedWith cls sep question) ws (r :: r.overflowing) ∧ ∀ r' ∈ r :: r.overflowing, r'.ids.length ≤ L := by
  obtain ⟨u1, u2, pc, u3, u4⟩ := unlimited_tok hb
  rw [hpost, fromSection_some (C70_postProcessor pq _ (.bert pq sep cls hty hsep hcls))] at u3
  cases u3
  rw [Option.map_some, procFn] at u4
  have hread : fromReader E (some c) =
      .ok { b with tok := { b.tok with trunc := some ⟨L, .onlySecond, stride⟩, padding := createPadding c.padding } } := by
    rw [reader_limits, hb, hq, C52_truncation_partial q L stride .onlySecond hcut.length hcut.stride hcut.strategy]
    rfl
  refine ⟨_, hread, ?_⟩
  intro x y question whole h1 h2 hs
  have h1' : ∃ e, b.tok.tk.encodeSingle x 0 .byte = .ok e ∧ ∀ f, question.arr f = e.arr f := by
    simp only [Tokenizer.encode, Tokenizer.encodeWith, u1, u2, u4] at h1
    obtain ⟨e, he, h1⟩ := Res.bind_eq_ok.mp h1
    cases h1
    exact ⟨_, he, fun _ => rfl⟩
  obtain ⟨e, he, hqe⟩ := h1'
  have h2' : ∃ d, b.tok.tk.encodeSingle y 1 .byte = .ok d := by
    simp only [Tokenizer.encode, Tokenizer.encodeWith, u1, u2, u4] at h2
    obtain ⟨_, _, h2⟩ := Res.bind_eq_ok.mp h2
    obtain ⟨d, hd, _⟩ := Res.bind_eq_ok.mp h2
    exact ⟨d, hd⟩
  obtain ⟨d, hd⟩ := h2'
  have hlen : question.ids.length = e.ids.length := congrArg List.length (hqe .ids)
  refine ⟨d, ?_⟩
  obtain ⟨r, ws, k1, k2, k3, k4⟩ := C97_question_partial
    { b.tok with trunc := some ⟨L, .onlySecond, stride⟩, padding := createPadding c.padding } (by dsimp only; rw [hpad]; rfl) _ u4
    L stride rfl .byte x y e d he hd (by omega)
  refine ⟨r, ws, ?_, k1, hlen ▸ k2, k3.imp fun w r' hw => asked_of_arr rfl hqe hw, fun r' hr' => k4 r' hr' .ids⟩
  obtain ⟨rows, rfl⟩ := encodeSingle_ofRows he
  obtain ⟨rows', rfl⟩ := encodeSingle_ofRows hd
  obtain ⟨z, z1, z2, _⟩ := C22_bert_pair ⟨⟨sep.1, sep.2⟩, ⟨cls.1, cls.2⟩⟩ (ofRows rows 0) (ofRows rows' 1)
  simp only [Tokenizer.encode, Tokenizer.encodeWith, he, hd, Res.bind_ok, u1, u2, u4, postProcess, postTruncate,
    Bert.toProcessor, z1] at h2
  cases h2
  refine asked_of_arr rfl hqe ?_
  intro f
  rw [z2 f, bertSingle, bertPair, ofRows_plain, ofRows_plain, List.append_assoc _ _ [specialEntry _ 1 f]]
  rfl

/-! ### A case -/

/-- At most six tokens, an overlap of one, only the second text is cut. -/
def questionSection : List (Str × Val) :=
  [("max_length".toList, .float 6), ("strategy".toList, .str "OnlySecond".toList), ("stride".toList, .float 1)]

/-- The file of `placesFile` with BertProcessing. -/
def questionFile : FileConfig :=
  { placesFile with postProcessor := some [("type".toList, .str "BertProcessing".toList),
      ("sep".toList, .arr [.str sepT, .float 1]), ("cls".toList, .arr [.str clsT, .float 0])] }

example : CutsSecond questionSection 6 1 := ⟨by rfl, by rfl, by rfl⟩

/-- The question "!" leaves two tokens for the text. -/
example : ∃ (b' : Built) (r : Encoding), fromReader caseBertEnv (some { questionFile with truncation := some questionSection }) = .ok b' ∧
    b'.tok.encode (.dual (.raw (encStr ['!'])) (.raw (encStr "Yes  no!".toList))) true = .ok (some r) ∧
    ∀ r' ∈ r :: r.overflowing, r'.ids.length ≤ 6 := by
  have h : okAnd (fromReader caseBertEnv (some questionFile)) (fun b =>
      okAnd (b.tok.encode (.single (.raw (encStr ['!']))) false) (fun o =>
        okAnd (b.tok.encode (.dual (.raw (encStr ['!'])) (.raw (encStr "Yes  no!".toList))) true) (fun o' =>
          decide (o.map (·.ids) = some [3] ∧ o'.map (·.ids) = some [0, 3, 1, 4, 5, 2, 3, 1])))) = true := by decide +kernel
  obtain ⟨b, hb, h⟩ := okAnd_spec h
  obtain ⟨o, ho, h⟩ := okAnd_spec h
  obtain ⟨o', ho', h⟩ := okAnd_spec h
  obtain ⟨h1, h2⟩ := of_decide_eq_true h
  obtain ⟨e, rfl, he⟩ := Option.map_eq_some_iff.mp h1
  obtain ⟨w, rfl, _⟩ := Option.map_eq_some_iff.mp h2
  obtain ⟨b', g1, g2⟩ := C138_question_partial caseBertEnv { questionFile with truncation := some questionSection } questionSection 6 1
    _ (clsT, 0) (sepT, 1) rfl ⟨by rfl, by rfl, by rfl⟩ rfl rfl (by unfold TypeIs; rfl) (by unfold TokenIs; rfl)
    (by unfold TokenIs; rfl) b hb
  obtain ⟨_, r, _, _, g3, _, _, g4⟩ := g2 _ _ e w ho ho' (by rw [he]; decide)
  exact ⟨b', r, g1, g3, g4⟩

example : okAnd (fromReader caseBertEnv (some { questionFile with truncation := some questionSection })) (fun b =>
    okAnd (b.tok.encodePair (encStr ['!']) (encStr "Yes  no!".toList) [true]) (fun o =>
      decide (o.map (fun r => (r :: r.overflowing).map (·.ids)) =
        some [[0, 3, 1, 4, 5, 1], [0, 3, 1, 5, 2, 1], [0, 3, 1, 2, 3, 1]]))) = true := by
  decide +kernel

end Tok.Whole
