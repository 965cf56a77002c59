import Verif.Whole.PropsFirst
import Verif.Whole.PropsFileWindows

/-!
# C97: a question and a long text with RoBERTa's special tokens
-/

namespace Tok.Whole

open Tok.PreTok Tok.Added Tok.Config
open Tok.Norm (okAnd okAnd_spec)

/-! ### Lemmas -/

theorem decorated_windows (fa fb : Encoding → Encoding) (ra : ∀ e, (fa e).ranges = some [] ∧ (fa e).overflowing = [])
    (rb : ∀ e, (fb e).ranges = some [] ∧ (fb e).overflowing = []) (e p : Encoding) (ho : e.overflowing = []) :
    ∃ r, ({ fa e with overflowing := e.overflowing.map fa } : Encoding).mergeWith
        { fb p with overflowing := p.overflowing.map fb } false = .ok r ∧
      List.Forall₂ (fun w o : Encoding => ∀ f, o.arr f = (fa e).arr f ++ (fb w).arr f) (p :: p.overflowing) (r :: r.overflowing) := by
  have h1 : RangesOk { fa e with overflowing := e.overflowing.map fa } := rangesOk_node _ (ra e).1 (by simp [ho])
  have h2 : RangesOk { fb p with overflowing := p.overflowing.map fb } := by
    refine rangesOk_node _ (rb p).1 ?_
    intro o h
    obtain ⟨x, -, rfl⟩ := List.mem_map.mp h
    exact rangesOk_leaf _ (rb x).1 (rb x).2
  obtain ⟨r, hr⟩ := mergeWith_isOk h1 h2 false
  refine ⟨r, hr, .cons (fun f => ?_) ?_⟩
  · rw [merge_plain_arr hr f]
  · have hov := C07_merge_overflow _ _ _ _ hr
    unfold overflowPairs at hov
    simp only [ho, List.map_nil, List.flatMap_nil, List.nil_append, List.map_map] at hov
    clear hr h1 h2
    generalize p.overflowing = l at hov
    generalize r.overflowing = l' at hov
    induction l generalizing l' with
    | nil => cases hov; exact .nil
    | cons w l ih =>
      cases hov with
      | cons h1 h2 =>
        refine .cons ?_ (ih _ h2)
        intro f
        simp only [Function.comp] at h1
        rw [merge_plain_arr h1 f]

theorem roberta_pair_windows (rp : Roberta) (hrt : rp.trimOffsets = true) (e p : Encoding) (ha : e.Aligned) (ho : e.overflowing = [])
    (hpa : p.Aligned) (hpo : ∀ o ∈ p.overflowing, o.Aligned) :
    ∃ t u r, TrimmedTo true rp.addPrefixSpace e t ∧
      List.Forall₂ (TrimmedTo true rp.addPrefixSpace) (p :: p.overflowing) (u :: u.overflowing) ∧
      rp.process e (some p) true = .ok (some r) ∧
      List.Forall₂ (fun w r' : Encoding => ∀ f, r'.arr f = robertaSingle rp t f ++ robertaPair rp w f)
        (u :: u.overflowing) (r :: r.overflowing) := by
  have hoa : ∀ o ∈ e.overflowing, o.Aligned := by simp [ho]
  obtain ⟨t, h1, h2⟩ := processOffsetsDeep_ok e rp.addPrefixSpace ha hoa
  obtain ⟨ht, hto⟩ := h2.aligned ha hoa
  obtain ⟨u, h3, h4⟩ := processOffsetsDeep_ok p rp.addPrefixSpace hpa hpo
  obtain ⟨hu, huo⟩ := h4.aligned hpa hpo
  cases trimmed_to ha hoa h2 with
  | cons hx0 hxs =>
  rw [ho] at hxs
  have l1 : t.overflowing = [] := List.length_eq_zero_iff.mp (forall₂_length hxs)
  obtain ⟨r, hr, hw⟩ := decorated_windows rp.addSpecialToken rp.pairAddSpecialToken (fun _ => ⟨rfl, rfl⟩) (fun _ => ⟨rfl, rfl⟩) t u l1
  refine ⟨t, u, r, hx0, trimmed_to hpa hpo h4, ?_, ?_⟩
  · unfold Roberta.process
    simp only [hrt, if_true, h1, h3, Res.bind_ok, optMapRes, Bool.not_true, Bool.false_eq_true, if_false]
    rw [hr]
    rfl
  · have hal : ∀ w ∈ u :: u.overflowing, w.Aligned := by
      intro w hw
      rcases List.mem_cons.mp hw with rfl | hw
      · exact hu
      · exact huo w hw
    clear hr h4
    generalize u :: u.overflowing = l at hw hal
    generalize r :: r.overflowing = l' at hw
    induction hw with
    | nil => exact .nil
    | cons h _ ih =>
      refine .cons ?_ (ih (fun w hw => hal w (List.mem_cons_of_mem _ hw)))
      intro f
      rw [h f, roberta_single_arr rp t ht, roberta_pair_arr rp _ (hal _ (by simp))]

/-! ### C97 -/

/-- C97 (RoBERTa, a question and a long text): with the strategy that cuts only the second text, the result and its overflowing
parts are `<s> Q' </s> </s> w' </s>` for the overlapping windows `w` of the second text that fill what the question leaves, the
question and each window with trimmed offsets; none has more than `L` tokens. -/
theorem C97_question_roberta_partial (t : Tokenizer) (hpad : t.padding = none) (rp : Roberta) (hrt : rp.trimOffsets = true)
    (hproc : t.processor = some rp.toProcessor) (L stride : Nat) (htr : t.trunc = some ⟨L, .onlySecond, stride⟩)
    (ot : OffsetType) (q c : InputSequence) (eq ec : Encoding) (hq : t.tk.encodeSingle q 0 ot = .ok eq)
    (hc : t.tk.encodeSingle c 1 ot = .ok ec) (hs : eq.ids.length + 4 + stride < L) :
    ∃ eq' r ws, TrimmedTo true rp.addPrefixSpace eq eq' ∧ t.encodeWith ot (.dual q c) true = .ok (some r) ∧
      Sliding (L - 4 - eq.ids.length) stride ec ws ∧
      List.Forall₂ (fun w r' => ∃ w', TrimmedTo true rp.addPrefixSpace w w' ∧ ∀ f, r'.arr f =
          bosEos rp f (eq'.arr f) ++ [specialEntry rp.sep 1 f] ++ w'.arr f ++ [specialEntry rp.sep 1 f])
        ws (r :: r.overflowing) ∧
      ∀ r' ∈ r :: r.overflowing, ∀ f, (r'.arr f).length ≤ L := by
  obtain ⟨rows, rfl⟩ := encodeSingle_ofRows hq
  obtain ⟨rows', rfl⟩ := encodeSingle_ofRows hc
  have ha := ofRows_aligned rows' 1
  obtain ⟨p', h3, h4⟩ := truncateMut_sliding ha rfl (L - 4 - (ofRows rows 0).ids.length) stride (by omega)
  obtain ⟨hpa, hpo, _⟩ := CutTo.usable (ofRows_delivered rows' 1) _ (stride : Int) (by omega) (by omega) (by omega) h3
  have htrunc : truncateEncodings (ofRows rows 0) (some (ofRows rows' 1)) ⟨(L : Int) - 4, .onlySecond, stride⟩ =
      .ok (ofRows rows 0, some p') := by
    unfold truncateEncodings
    rw [if_neg (by simp; omega)]
    simp only
    split
    · next hlt =>
      unfold Encoding.truncateMut at h3
      rw [C01_truncate_noop _ _ _ (by omega) (by omega) (by omega)] at h3
      cases h3
      rfl
    · next hge =>
      simp only [truncateTarget]
      rw [if_pos (by omega)]
      have : ((ofRows rows' 1).ids.length : Int) - ((ofRows rows 0).ids.length + (ofRows rows' 1).ids.length - ((L : Int) - 4)) =
          ((L - 4 - (ofRows rows 0).ids.length : Nat) : Int) := by omega
      rw [this, h3]
      rfl
  obtain ⟨x, u, r, k1, k2, k3, k4⟩ := roberta_pair_windows rp hrt (ofRows rows 0) p' (ofRows_aligned rows 0) rfl hpa hpo
  have hpl : ∀ w ∈ p' :: p'.overflowing, ∀ f, plainArr w f = w.arr f := fun w hw f => h4.plain hw f
  have hall : List.Forall₂ (fun w r' : Encoding => ∃ w', TrimmedTo true rp.addPrefixSpace w w' ∧ ∀ f, r'.arr f =
      bosEos rp f (x.arr f) ++ [specialEntry rp.sep 1 f] ++ w'.arr f ++ [specialEntry rp.sep 1 f])
      (p' :: p'.overflowing) (r :: r.overflowing) := by
    refine forall₂_comp k2 (S := fun w r' : Encoding => ∀ f, r'.arr f = robertaSingle rp x f ++ robertaPair rp w f) k4 ?_
    intro w hw w' r' hw' hr'
    refine ⟨w', hw', fun f => ?_⟩
    rw [hr' f, robertaSingle, robertaPair, k1.plain (fun f => ofRows_plain rows 0 f), hw'.plain (hpl w hw)]
    simp only [bosEos, List.append_assoc]
  refine ⟨x, r, p' :: p'.overflowing, k1, ?_, h4, hall, ?_⟩
  · simp only [Tokenizer.encodeWith, hq, hc, Res.bind_ok, htr, hpad, hproc, postProcess, postTruncate, Roberta.toProcessor,
      Option.isSome_some, Roberta.addedTokens]
    rw [if_pos (by simp)]
    have : truncateEncodings (ofRows rows 0) (some (ofRows rows' 1))
      ⟨(L : Int) - ((if True then 4 else 2 : Nat) : Int), .onlySecond, stride⟩ = .ok (ofRows rows 0, some p') := htrunc
    rw [this]
    simp only [Res.bind_ok, k3]
  · intro r' hr' f
    obtain ⟨w, hw, w', hww, hwr⟩ := forall₂_mem_right hall hr'
    rw [hwr f, bosEos]
    have h8 := h4.short hw f
    have h9 := hww.length f
    have h10 := k1.length f
    have h11 := ofRows_aligned rows 0 f
    simp only [List.length_append, List.length_cons, List.length_nil]
    omega

/-! ### C138 -/

/-- C138 (RobertaProcessing that trims offsets, a question and a long text): where the file without its limits and post-processor
gives `Q` for the question, the file gives `<s> Q' </s> </s> w' </s>` for the overlapping windows `w` of the text, all with
trimmed offsets; none has more than `L` tokens. -/
theorem C138_question_roberta_partial (E : FileEnv) (c : FileConfig) (q : List (Str × Val)) (L stride : Nat)
    (pq : List (Str × Val)) (cls sep : Str × Int) (a : Bool) (hq : c.truncation = some q) (hcut : CutsSecond q L stride)
    (hpad : c.padding = none) (hpost : c.postProcessor = some pq) (hty : TypeIs pq "RobertaProcessing")
    (hcls : TokenIs pq "cls" cls) (hsep : TokenIs pq "sep" sep) (htrim : get pq "trim_offsets" = .bool true)
    (hprefix : get pq "add_prefix_space" = .bool a) (b : Built) (hb : fromReader E (some (unprocessed c)) = .ok b) :
    ∃ b', fromReader E (some c) = .ok b' ∧ ∀ (x y : InputSequence) (question text : Encoding),
      b.tok.tk.encodeSingle x 0 .byte = .ok question → b.tok.tk.encodeSingle y 1 .byte = .ok text →
      question.ids.length + 4 + stride < L →
      ∃ question' r ws, Trims true a question question' ∧ b'.tok.encode (.dual x y) true = .ok (some r) ∧
        Sliding (L - 4 - question.ids.length) stride text ws ∧
        List.Forall₂ (fun w r' => ∃ w', Trims true a w w' ∧
          r'.ids = [cls.2] ++ question'.ids ++ [sep.2, sep.2] ++ w'.ids ++ [sep.2] ∧
          r'.tokens = [cls.1] ++ question'.tokens ++ [sep.1, sep.1] ++ w'.tokens ++ [sep.1] ∧
          r'.offsets = [(0, 0)] ++ question'.offsets ++ [(0, 0), (0, 0)] ++ w'.offsets ++ [(0, 0)]) ws (r :: r.overflowing) ∧
        ∀ r' ∈ r :: r.overflowing, r'.ids.length ≤ L := by
  obtain ⟨h1, u1, u2, u3⟩ := reader_processor hb
    (by rw [hpost]; exact fromSection_some (C70_postProcessor pq _ (.roberta pq sep cls true a hty hsep hcls htrim hprefix)))
  refine ⟨_, by rw [reader_limits, h1, hq, C52_truncation_partial q L stride .onlySecond hcut.length hcut.stride hcut.strategy]; rfl, ?_⟩
  intro x y question text hx hy hs
  obtain ⟨eq', r, ws, k1, k2, k3, k4, k5⟩ := C97_question_roberta_partial
    { b.tok with processor := some (procFn (.roberta sep cls true a)), trunc := some ⟨L, .onlySecond, stride⟩, padding := createPadding c.padding }
    (by dsimp only; rw [hpad]; rfl) ⟨⟨sep.1, sep.2⟩, ⟨cls.1, cls.2⟩, true, a⟩ rfl (by dsimp only; rw [procFn]) L stride rfl .byte x y
    question text hx hy hs
  refine ⟨eq', r, ws, trims_of k1, k2, k3, ?_, fun r' hr' => k5 r' hr' .ids⟩
  refine k4.imp ?_
  rintro w r' ⟨w', hw, hr⟩
  refine ⟨w', trims_of hw, ?_, ?_, ?_⟩
  · have := hr .ids
    simpa [Encoding.arr, bosEos, specialEntry] using this
  · have := hr .tokens
    simpa [Encoding.arr, bosEos, specialEntry] using this
  · have := hr .offsets
    simpa [Encoding.arr, bosEos, specialEntry] using this

/-! ### A case -/

/-- At most seven tokens, an overlap of one, only the second text is cut. -/
def questionSectionLong : List (Str × Val) :=
  [("max_length".toList, .float 7), ("strategy".toList, .str "OnlySecond".toList), ("stride".toList, .float 1)]

/-- The question "h" leaves two tokens for the text "h h h". -/
example : ∃ (b' : Built) (r : Encoding),
    fromReader caseFileEnv (some { trimmedFile exampleFileBytes (robertaTrims false) with truncation := some questionSectionLong }) = .ok b' ∧
    b'.tok.encode (.dual (.raw (encStr ['h'])) (.raw (encStr "h h h".toList))) true = .ok (some r) ∧
    ∀ r' ∈ r :: r.overflowing, r'.ids.length ≤ 7 := by
  have h : okAnd (fromReader caseFileEnv (some (unprocessed (trimmedFile exampleFileBytes (robertaTrims false))))) (fun b =>
      okAnd (b.tok.tk.encodeSingle (.raw (encStr ['h'])) 0 .byte) (fun e =>
        okAnd (b.tok.tk.encodeSingle (.raw (encStr "h h h".toList)) 1 .byte) (fun d =>
          decide (e.ids.length = 1 ∧ d.ids.length = 3)))) = true := by decide +kernel
  obtain ⟨b, hb, h⟩ := okAnd_spec h
  obtain ⟨e, he, h⟩ := okAnd_spec h
  obtain ⟨d, hd, h⟩ := okAnd_spec h
  obtain ⟨k1, _⟩ := of_decide_eq_true h
  obtain ⟨b', h1, h2⟩ := C138_question_roberta_partial caseFileEnv
    { trimmedFile exampleFileBytes (robertaTrims false) with truncation := some questionSectionLong } questionSectionLong 7 1
    (robertaTrims false) (['<', 's', '>'], 257) (['<', '/', 's', '>'], 258) false rfl ⟨by rfl, by rfl, by rfl⟩ rfl rfl
    (by unfold TypeIs; rfl) (by unfold TokenIs; rfl) (by unfold TokenIs; rfl) (by rfl) (by rfl) b hb
  obtain ⟨_, r, _, _, h3, _, _, h4⟩ := h2 _ _ e d he hd (by omega)
  exact ⟨b', r, h1, h3, h4⟩

example : okAnd (fromReader caseFileEnv (some { trimmedFile exampleFileBytes (robertaTrims false) with truncation := some questionSectionLong })) (fun b =>
    okAnd (b.tok.encodePair (encStr ['h']) (encStr "h h h".toList) [true]) (fun o =>
      decide (o.map (fun r => (r :: r.overflowing).map (·.offsets)) =
        some [[(0, 0), (0, 1), (0, 0), (0, 0), (0, 1), (2, 3), (0, 0)], [(0, 0), (0, 1), (0, 0), (0, 0), (2, 3), (4, 5), (0, 0)]]))) = true := by
  decide +kernel

end Tok.Whole
