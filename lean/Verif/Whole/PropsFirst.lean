import Verif.Whole.PropsFileQuestion

/-!
# C97, C138: a long text and a short one, with the strategy that cuts only the first
-/

namespace Tok.Whole

open Tok.PreTok Tok.Added Tok.Config
open Tok.Norm (okAnd okAnd_spec)

/-! ### Lemmas -/

theorem bert_first_windows (bp : Bert) (e p : Encoding) (ho : p.overflowing = []) :
    ∃ r, bp.process e (some p) true = .ok (some r) ∧ (∀ f, r.arr f = bertSingle bp e f ++ bertPair bp p f) ∧
      List.Forall₂ (fun w o : Encoding => ∀ f, o.arr f = bertSingle bp w f ++ bertPair bp p f) e.overflowing r.overflowing := by
  have h1 : RangesOk { bp.addSpecialToken e with overflowing := e.overflowing.map bp.addSpecialToken } := by
    refine rangesOk_node _ rfl ?_
    intro o h
    obtain ⟨x, -, rfl⟩ := List.mem_map.mp h
    exact rangesOk_leaf _ rfl rfl
  have h2 : RangesOk { bp.pairAddSpecialToken p with overflowing := p.overflowing.map bp.pairAddSpecialToken } :=
    rangesOk_node _ rfl (by simp [ho])
  obtain ⟨r, hr⟩ := mergeWith_isOk h1 h2 false
  have selfL : ∀ f, ({ bp.addSpecialToken e with overflowing := e.overflowing.map bp.addSpecialToken } : Encoding).arr f
      = bertSingle bp e f := by intro f; rw [← bert_single_arr]
  have selfR : ∀ f, ({ bp.pairAddSpecialToken p with overflowing := p.overflowing.map bp.pairAddSpecialToken } : Encoding).arr f
      = bertPair bp p f := by intro f; rw [← bert_pair_arr]
  refine ⟨r, ?_, ?_, ?_⟩
  · unfold Bert.process
    simp only [Bool.not_true, Bool.false_eq_true, if_false]
    rw [hr]; rfl
  · intro f
    rw [merge_plain_arr hr f, selfL, selfR]
  · have hov := C07_merge_overflow _ _ _ _ hr
    unfold overflowPairs at hov
    simp only [ho, List.map_nil, List.append_nil] at hov
    clear hr h1 h2
    generalize e.overflowing = l at hov
    generalize r.overflowing = l' at hov
    induction l generalizing l' with
    | nil => cases hov; exact .nil
    | cons w l ih =>
      simp only [List.map_cons, List.flatMap_cons, List.cons_append, List.nil_append] at hov
      cases hov with
      | cons h1 h2 =>
        refine .cons ?_ (ih _ h2)
        intro f
        simp only at h1
        rw [merge_plain_arr h1 f, bert_single_arr]
        congr 1
        rw [← bert_pair_arr]

/-! ### C97 -/

/-- C97 (a long text and a short one): with the strategy that cuts only the first text, the result and its overflowing parts are
`[CLS] w [SEP] B [SEP]` for the overlapping windows `w` of the first text that fill what the second leaves; none has more than `L`
tokens. -/
theorem C97_first_partial (t : Tokenizer) (hpad : t.padding = none) (bp : Bert) (hproc : t.processor = some bp.toProcessor)
    (L stride : Nat) (htr : t.trunc = some ⟨L, .onlyFirst, stride⟩) (ot : OffsetType) (x y : InputSequence) (ex ey : Encoding)
    (hx : t.tk.encodeSingle x 0 ot = .ok ex) (hy : t.tk.encodeSingle y 1 ot = .ok ey) (hs : ey.ids.length + 3 + stride < L) :
    ∃ r ws, t.encodeWith ot (.dual x y) true = .ok (some r) ∧ Sliding (L - 3 - ey.ids.length) stride ex ws ∧
      List.Forall₂ (fun w r' => ∀ f, r'.arr f = clsSep bp f (w.arr f) ++ ey.arr f ++ [specialEntry bp.sep 1 f])
        ws (r :: r.overflowing) ∧
      ∀ r' ∈ r :: r.overflowing, ∀ f, (r'.arr f).length ≤ L := by
  obtain ⟨rows, rfl⟩ := encodeSingle_ofRows hx
  obtain ⟨rows', rfl⟩ := encodeSingle_ofRows hy
  have ha := ofRows_aligned rows 0
  obtain ⟨e', h3, h4⟩ := truncateMut_sliding ha rfl (L - 3 - (ofRows rows' 1).ids.length) stride (by omega)
  have htrunc : truncateEncodings (ofRows rows 0) (some (ofRows rows' 1)) ⟨(L : Int) - 3, .onlyFirst, stride⟩ =
      .ok (e', some (ofRows rows' 1)) := by
    unfold truncateEncodings
    rw [if_neg (by simp; omega)]
    simp only
    split
    · next hlt =>
      unfold Encoding.truncateMut at h3
      rw [C01_truncate_noop _ _ _ (by omega) (by omega) (by omega)] at h3
      cases h3
      rfl
    · next hge =>
      simp only [truncateTarget]
      rw [if_pos (by omega)]
      have : ((ofRows rows 0).ids.length : Int) - ((ofRows rows 0).ids.length + (ofRows rows' 1).ids.length - ((L : Int) - 3)) =
          ((L - 3 - (ofRows rows' 1).ids.length : Nat) : Int) := by omega
      rw [this, h3]
      rfl
  obtain ⟨r, h5, h6, h7⟩ := bert_first_windows bp e' (ofRows rows' 1) rfl
  have hpl : ∀ w ∈ e' :: e'.overflowing, ∀ f, plainArr w f = w.arr f := fun w hw f => h4.plain hw f
  have hall : List.Forall₂ (fun w r' : Encoding => ∀ f, r'.arr f = clsSep bp f (w.arr f) ++ (ofRows rows' 1).arr f ++
      [specialEntry bp.sep 1 f]) (e' :: e'.overflowing) (r :: r.overflowing) := by
    have hh : List.Forall₂ (fun w r' : Encoding => ∀ f, r'.arr f = bertSingle bp w f ++ bertPair bp (ofRows rows' 1) f)
        (e' :: e'.overflowing) (r :: r.overflowing) := .cons h6 h7
    clear h4 h3 h6 h5 h7 htrunc
    generalize e' :: e'.overflowing = l at hpl hh
    generalize r :: r.overflowing = l' at hh
    induction hh with
    | nil => exact .nil
    | cons h _ ih =>
      refine .cons ?_ (ih (fun w hw => hpl w (List.mem_cons_of_mem _ hw)))
      intro f
      rw [h f, bertSingle, bertPair, ofRows_plain, hpl _ (by simp), List.append_assoc _ _ [specialEntry bp.sep 1 f]]
      rfl
  refine ⟨r, e' :: e'.overflowing, ?_, h4, hall, ?_⟩
  · simp only [Tokenizer.encodeWith, hx, hy, Res.bind_ok, htr, hpad, hproc, postProcess, postTruncate, Bert.toProcessor,
      Option.isSome_some, Bert.addedTokens]
    rw [if_pos (by simp)]
    have : truncateEncodings (ofRows rows 0) (some (ofRows rows' 1))
      ⟨(L : Int) - ((if True then 3 else 2 : Nat) : Int), .onlyFirst, stride⟩ = .ok (e', some (ofRows rows' 1)) := htrunc
    rw [this]
    simp only [Res.bind_ok, h5]
  · intro r' hr' f
    obtain ⟨w, hw, hwr⟩ := forall₂_mem_right hall hr'
    rw [hwr f, clsSep]
    have h8 := h4.short hw f
    have h9 := ofRows_aligned rows' 1 f
    simp only [List.length_append, List.length_cons, List.length_nil]
    omega

/-! ### C138 -/

/-- C138 (a long text and a short one): a file with BertProcessing whose section "truncation" cuts only the first text. Where the
file without the section gives `[CLS] A [SEP] B [SEP]` for a pair, the file with it gives `[CLS] w [SEP] B [SEP]` for the windows
`w` of `A` that fill what `B` leaves and overlap by `stride`: the first as the result and the others as its overflowing parts.
None has more than `L` tokens. -/
theorem C138_first_partial (E : FileEnv) (c : FileConfig) (q : List (Str × Val)) (L stride : Nat) (pq : List (Str × Val))
    (cls sep : Str × Int) (hq : c.truncation = some q) (hlen : get q "max_length" = .float ((L : Int) : Rat))
    (hstride : get q "stride" = .float ((stride : Int) : Rat)) (hstrategy : get q "strategy" = .str "OnlyFirst".toList)
    (hpad : c.padding = none) (hpost : c.postProcessor = some pq) (hty : TypeIs pq "BertProcessing") (hcls : TokenIs pq "cls" cls)
    (hsep : TokenIs pq "sep" sep) (b : Built) (hb : fromReader E (some (unlimited c)) = .ok b) :
    ∃ b', fromReader E (some c) = .ok b' ∧ ∀ (x y : InputSequence) (text whole : Encoding),
      b.tok.encode (.single x) false = .ok (some text) → b.tok.encode (.dual x y) true = .ok (some whole) →
      ∃ second, AskedWith cls sep text second whole ∧ (second.ids.length + 3 + stride < L →
        ∃ r ws, b'.tok.encode (.dual x y) true = .ok (some r) ∧ Sliding (L - 3 - second.ids.length) stride text ws ∧
          List.Forall₂ (fun w r' => AskedWith cls sep w second r') ws (r :: r.overflowing) ∧
          ∀ r' ∈ r :: r.overflowing, r'.ids.length ≤ L) := by
  obtain ⟨u1, u2, pc, u3, u4⟩ := unlimited_tok hb
  rw [hpost, fromSection_some (C70_postProcessor pq _ (.bert pq sep cls hty hsep hcls))] at u3
  cases u3
  rw [Option.map_some, procFn] at u4
  have hread : fromReader E (some c) =
      .ok { b with tok := { b.tok with trunc := some ⟨L, .onlyFirst, stride⟩, padding := createPadding c.padding } } := by
    rw [reader_limits, hb, hq, C52_truncation_partial q L stride .onlyFirst hlen hstride hstrategy]
    rfl
  refine ⟨_, hread, ?_⟩
  intro x y text whole h1 h2
  have h1' : ∃ e, b.tok.tk.encodeSingle x 0 .byte = .ok e ∧ ∀ f, text.arr f = e.arr f := by
    simp only [Tokenizer.encode, Tokenizer.encodeWith, u1, u2, u4] at h1
    obtain ⟨e, he, h1⟩ := Res.bind_eq_ok.mp h1
    cases h1
    exact ⟨_, he, fun _ => rfl⟩
  obtain ⟨e, he, hqe⟩ := h1'
  have h2' : ∃ d, b.tok.tk.encodeSingle y 1 .byte = .ok d := by
    simp only [Tokenizer.encode, Tokenizer.encodeWith, u1, u2, u4] at h2
    obtain ⟨_, _, h2⟩ := Res.bind_eq_ok.mp h2
    obtain ⟨d, hd, _⟩ := Res.bind_eq_ok.mp h2
    exact ⟨d, hd⟩
  obtain ⟨d, hd⟩ := h2'
  refine ⟨d, ?_, ?_⟩
  · obtain ⟨rows, rfl⟩ := encodeSingle_ofRows he
    obtain ⟨rows', rfl⟩ := encodeSingle_ofRows hd
    obtain ⟨z, z1, z2, _⟩ := C22_bert_pair ⟨⟨sep.1, sep.2⟩, ⟨cls.1, cls.2⟩⟩ (ofRows rows 0) (ofRows rows' 1)
    simp only [Tokenizer.encode, Tokenizer.encodeWith, he, hd, Res.bind_ok, u1, u2, u4, postProcess, postTruncate,
      Bert.toProcessor, z1] at h2
    cases h2
    refine asked_of_arr rfl hqe ?_
    intro f
    rw [z2 f, bertSingle, bertPair, ofRows_plain, ofRows_plain, List.append_assoc _ _ [specialEntry _ 1 f]]
    rfl
  · intro hs
    obtain ⟨r, ws, k1, k2, k3, k4⟩ := C97_first_partial
      { b.tok with trunc := some ⟨L, .onlyFirst, stride⟩, padding := createPadding c.padding } (by dsimp only; rw [hpad]; rfl) _ u4
      L stride rfl .byte x y e d he hd hs
    exact ⟨r, ws, k1, k2.congr hqe, k3.imp fun w r' hw => asked_of_arr rfl (fun _ => rfl) hw, fun r' hr' => k4 r' hr' .ids⟩

/-! ### A case -/

/-- At most six tokens, an overlap of one, only the first text is cut. -/
def firstSection : List (Str × Val) :=
  [("max_length".toList, .float 6), ("strategy".toList, .str "OnlyFirst".toList), ("stride".toList, .float 1)]

/-- The text "!" leaves two tokens for the first text. -/
example : ∃ (b' : Built) (r : Encoding), fromReader caseBertEnv (some { questionFile with truncation := some firstSection }) = .ok b' ∧
    b'.tok.encode (.dual (.raw (encStr "Yes  no!".toList)) (.raw (encStr ['!']))) true = .ok (some r) ∧
    ∀ r' ∈ r :: r.overflowing, r'.ids.length ≤ 6 := by
  have h : okAnd (fromReader caseBertEnv (some questionFile)) (fun b =>
      okAnd (b.tok.encode (.single (.raw (encStr "Yes  no!".toList))) false) (fun o =>
        okAnd (b.tok.encode (.dual (.raw (encStr "Yes  no!".toList)) (.raw (encStr ['!']))) true) (fun o' =>
          decide (o.map (·.ids) = some [4, 5, 2, 3] ∧ o'.map (·.ids) = some [0, 4, 5, 2, 3, 1, 3, 1])))) = true := by decide +kernel
  obtain ⟨b, hb, h⟩ := okAnd_spec h
  obtain ⟨o, ho, h⟩ := okAnd_spec h
  obtain ⟨o', ho', h⟩ := okAnd_spec h
  obtain ⟨h1, h2⟩ := of_decide_eq_true h
  obtain ⟨e, rfl, he⟩ := Option.map_eq_some_iff.mp h1
  obtain ⟨w, rfl, hw⟩ := Option.map_eq_some_iff.mp h2
  obtain ⟨b', g1, g2⟩ := C138_first_partial caseBertEnv { questionFile with truncation := some firstSection } firstSection 6 1
    _ (clsT, 0) (sepT, 1) rfl (by rfl) (by rfl) (by rfl) rfl rfl (by unfold TypeIs; rfl) (by unfold TokenIs; rfl)
    (by unfold TokenIs; rfl) b hb
  obtain ⟨d, g3, g4⟩ := g2 _ _ e w ho ho'
  have hl := congrArg List.length g3.ids
  rw [hw, he] at hl
  simp only [List.length_append, List.length_cons, List.length_nil] at hl
  obtain ⟨r, _, g5, _, _, g6⟩ := g4 (by omega)
  exact ⟨b', r, g1, g5, g6⟩

example : okAnd (fromReader caseBertEnv (some { questionFile with truncation := some firstSection })) (fun b =>
    okAnd (b.tok.encodePair (encStr "Yes  no!".toList) (encStr ['!']) [true]) (fun o =>
      decide (o.map (fun r => (r :: r.overflowing).map (·.ids)) =
        some [[0, 4, 5, 1, 3, 1], [0, 5, 2, 1, 3, 1], [0, 2, 3, 1, 3, 1]]))) = true := by
  decide +kernel

end Tok.Whole
