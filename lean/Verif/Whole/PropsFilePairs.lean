import Verif.Whole.PropsFileSpecial
import Verif.Processor.PropsSequence

/-!
# C134: the special tokens of a file go around what the tokenizer gives without them
-/

namespace Tok.Whole

open Tok.PreTok Tok.Added Tok.Config

/-! ### Specification -/

/-- Tokens with their ids and type ids, as a template names them. -/
def named (l : List (Str × Int × Int)) : List Piece := l.map (fun p => .special p.1 p.2.2)

/-- The section "post_processor" puts tokens (with ids and type ids) before the first text of a pair, between the texts and
after the second one, and gives the texts these type ids. -/
inductive PairAdds : Option (List (Str × Val)) → List (Str × Int × Int) → List (Str × Int × Int) → List (Str × Int × Int) → Int →
    Int → Prop
  | none : PairAdds none [] [] [] 0 1
  | bert (q : List (Str × Val)) (cls sep : Str × Int) : TypeIs q "BertProcessing" → TokenIs q "cls" cls → TokenIs q "sep" sep →
      PairAdds (some q) [(cls.1, cls.2, 0)] [(sep.1, sep.2, 0)] [(sep.1, sep.2, 1)] 0 1
  | roberta (q : List (Str × Val)) (cls sep : Str × Int) (a : Bool) : TypeIs q "RobertaProcessing" → TokenIs q "cls" cls →
      TokenIs q "sep" sep → get q "trim_offsets" = .bool true → get q "add_prefix_space" = .bool a →
      PairAdds (some q) [(cls.1, cls.2, 0)] [(sep.1, sep.2, 0), (sep.1, sep.2, 1)] [(sep.1, sep.2, 1)] 0 1
  | byteLevel (q : List (Str × Val)) (a t : Bool) : TypeIs q "ByteLevel" → FlagIs q "add_prefix_space" a →
      FlagIs q "trim_offsets" t → PairAdds (some q) [] [] [] 0 1
  | template (q : List (Str × Val)) (before mid after : List (Str × Int × Int)) (tyA tyB : Int) (before₁ after₁ : List (Str × Int))
      (ty : Int) (toks : List SpecialToken) : TypeIs q "TemplateProcessing" →
      get q "single" = .arr ((surround before₁ after₁ ty).map pieceVal) →
      get q "pair" = .arr ((named before ++ [Piece.seq false tyA] ++ named mid ++ [Piece.seq true tyB] ++ named after).map pieceVal) →
      get q "special_tokens" = .obj (toks.map tokenVal) → (toks.map (·.id)).Nodup →
      (∀ p ∈ before₁ ++ after₁, ⟨p.1, [p.2], [p.1]⟩ ∈ toks) →
      (∀ p ∈ before ++ mid ++ after, ⟨p.1, [p.2.1], [p.1]⟩ ∈ toks) → PairAdds (some q) before mid after tyA tyB

/-- The tokens of an encoding with their ids and a type id. -/
def entriesOf (e : Encoding) (ty : Int) : List (Str × Int × Int) := (e.tokens.zip e.ids).map (fun p => (p.1, p.2, ty))

/-- The encoding has these tokens, ids and type ids. -/
def HasEntries (r : Encoding) (l : List (Str × Int × Int)) : Prop :=
  r.tokens = l.map (·.1) ∧ r.ids = l.map (·.2.1) ∧ r.typeIds = l.map (·.2.2)

/-! ### Lemmas -/

theorem encodeOne_rows {t : Tk} {s : List UInt8} {typeId word : Int} {ot : OffsetType} {e : Encoding}
    (h : t.encodeOne s typeId word ot = .ok e) : ∃ rows, ∀ ty, t.encodeOne s ty word ot = .ok (ofRows rows ty) := by
  unfold Tk.encodeOne Tk.doTokenize at h ⊢
  obtain ⟨n, h1, h⟩ := Res.bind_eq_ok.mp h
  obtain ⟨p, h2, h⟩ := Res.bind_eq_ok.mp h
  obtain ⟨q, h3, h⟩ := Res.bind_eq_ok.mp h
  simp only [h1, h2, h3, Res.bind_ok]
  unfold PTS.intoEncoding at h ⊢
  split at h
  · next h0 => exact ⟨[], fun ty => by rw [if_pos h0]; rfl⟩
  · split at h
    · cases h
    · next h0 h1 =>
      obtain ⟨rows, hr, h⟩ := Res.bind_eq_ok.mp h
      refine ⟨rows, fun ty => ?_⟩
      rw [if_neg h0, if_neg h1, hr]
      rfl

theorem encodeRaw_rows {t : Tk} {s : List UInt8} {typeId : Int} {ot : OffsetType} {e : Encoding}
    (h : t.encodeSingle (.raw s) typeId ot = .ok e) : ∃ rows, ∀ ty, t.encodeSingle (.raw s) ty ot = .ok (ofRows rows ty) := by
  unfold Tk.encodeSingle at h ⊢
  simp only at h ⊢
  cases hy : t.encodeOne s typeId (-1) ot with
  | err => rw [hy] at h; cases h
  | panic => rw [hy] at h; cases h
  | ok y =>
    obtain ⟨rows, hr⟩ := encodeOne_rows hy
    refine ⟨rows, fun ty => ?_⟩
    rw [hr]
    simp only [Res.bind_ok]
    rw [default_ofRows ty]
    have h2 := merge_ofRows ty [rows] []
    simpa using h2

theorem entriesOf_rows (rows : List Row) (ty ty' : Int) :
    entriesOf (ofRows rows ty) ty' = rows.map (fun x => (x.token.value, x.token.id, ty')) := by
  unfold entriesOf ofRows
  dsimp only
  rw [List.zip_map', List.map_map]
  rfl

theorem entriesOf_same {e r : Encoding} (h : Around [] [] e r) (ty : Int) : entriesOf r ty = entriesOf e ty := by
  unfold entriesOf
  rw [h.1, h.2]
  simp

theorem entries_tokens {e : Encoding} (h : e.tokens.length = e.ids.length) {ty : Int} : (entriesOf e ty).map (·.1) = e.tokens := by
  unfold entriesOf
  rw [List.map_map]
  exact List.map_fst_zip (by omega)

theorem entries_ids {e : Encoding} (h : e.tokens.length = e.ids.length) {ty : Int} : (entriesOf e ty).map (·.2.1) = e.ids := by
  unfold entriesOf
  rw [List.map_map]
  exact List.map_snd_zip (by omega)

theorem entries_types {e : Encoding} (h : e.tokens.length = e.ids.length) {ty : Int} :
    (entriesOf e ty).map (·.2.2) = List.replicate e.ids.length ty := by
  unfold entriesOf
  rw [List.map_map]
  simp [Function.comp_def, List.map_const', h]

theorem pieceArr_named {tab : TokenTable} {e : Encoding} {p : Option Encoding} {f : Field} (l : List (Str × Int × Int))
    (h : ∀ x ∈ l, tab x.1 = some ⟨x.1, [x.2.1], [x.1]⟩) (g : Str × Int × Int → f.Ty)
    (hg : ∀ x ∈ l, specialArr ⟨x.1, [x.2.1], [x.1]⟩ x.2.2 f = [g x]) (special : Bool) :
    (named l).flatMap (pieceArr tab e p special f) = (asked special l).map g := by
  cases special with
  | false =>
    unfold named
    rw [List.flatMap_map]
    simp [pieceArr, asked]
  | true =>
  simp only [asked, if_true]
  induction l with
  | nil => rfl
  | cons x l ih =>
    unfold named at ih ⊢
    rw [List.map_cons, List.flatMap_cons, ih (fun q hq => h q (by simp [hq])) (fun q hq => hg q (by simp [hq])), List.map_cons]
    simp only [pieceArr, if_true, h x (by simp), hg x (by simp)]
    rfl

theorem pair_surrounds {o : Option (List (Str × Val))} {b m a : List (Str × Int × Int)} {tyA tyB : Int}
    (h : PairAdds o b m a tyA tyB) : ∃ before after, Surrounds o before after := by
  cases h with
  | none => exact ⟨[], [], .inl ⟨rfl, rfl, rfl⟩⟩
  | bert q cls sep h1 h2 h3 => exact ⟨_, _, .inr ⟨q, rfl, .one _ _ _ (.plain _ _ _ (.bert q cls sep h1 h2 h3))⟩⟩
  | roberta q cls sep a h1 h2 h3 h4 h5 => exact ⟨_, _, .inr ⟨q, rfl, .one _ _ _ (.plain _ _ _ (.roberta q cls sep a h1 h2 h3 h4 h5))⟩⟩
  | byteLevel q a t h1 h2 h3 => exact ⟨_, _, .inr ⟨q, rfl, .one _ _ _ (.plain _ _ _ (.byteLevel q a t h1 h2 h3))⟩⟩
  | template q _ _ _ _ _ b1 a1 ty toks h1 h2 h3 h4 h5 h6 h7 =>
    exact ⟨_, _, .inr ⟨q, rfl, .one _ _ _ (.template q b1 a1 ty _ toks h1 h2 h3 h4 h5 h6)⟩⟩

theorem merged_entries {x y : Encoding} {rows rows' : List Row} (hx : RangesOk x) (hy : RangesOk y)
    (h : ∀ f : Field, f ≠ .offsets → x.arr f = (ofRows rows 0).arr f) (h' : ∀ f : Field, f ≠ .offsets → y.arr f = (ofRows rows' 1).arr f) :
    ∃ r, x.mergeWith y false = .ok r ∧
      HasEntries r (entriesOf (ofRows rows 0) 0 ++ entriesOf (ofRows rows' 1) 1) := by
  obtain ⟨r, hr⟩ := mergeWith_isOk hx hy false
  have hm := merge_plain_arr hr
  refine ⟨r, hr, ?_⟩
  rw [entriesOf_rows, entriesOf_rows]
  refine ⟨?_, ?_, ?_⟩
  · have := hm .tokens
    rw [h _ (by simp), h' _ (by simp)] at this
    simpa [Encoding.arr, ofRows, Function.comp_def] using this
  · have := hm .ids
    rw [h _ (by simp), h' _ (by simp)] at this
    simpa [Encoding.arr, ofRows, Function.comp_def] using this
  · have := hm .typeIds
    rw [h _ (by simp), h' _ (by simp)] at this
    simpa [Encoding.arr, ofRows, Function.comp_def, List.map_const'] using this

theorem trimmed_rows (rows : List Row) (ty : Int) (ap : Bool) : ∃ d, processOffsetsDeep (ofRows rows ty) ap = .ok d ∧ RangesOk d ∧
    ∀ f : Field, f ≠ .offsets → d.arr f = (ofRows rows ty).arr f := by
  obtain ⟨d, d3, d4, _, d5, d6⟩ := processOffsets_trimmed (ofRows rows ty) (ofRows_aligned _ _) ap
  refine ⟨d, ?_, rangesOk_leaf _ ?_ ?_, d4⟩
  · unfold processOffsetsDeep
    rw [d3]
    simp only [Res.bind_ok, d5]
    have : d.overflowing = [] := by rw [d5]; rfl
    cases d
    dsimp only at this
    subst this
    rfl
  · rw [d6]; rfl
  · rw [d5]; rfl

theorem template_pair {tp : TemplateProc} {b m a : List (Str × Int × Int)} {tyA tyB : Int}
    (hc : tp.pair = named b ++ [Piece.seq false tyA] ++ named m ++ [Piece.seq true tyB] ++ named a)
    (htab : ∀ p ∈ b ++ m ++ a, tp.tab p.1 = some ⟨p.1, [p.2.1], [p.1]⟩) {e f : Encoding} (he : Fresh e) (hf : Fresh f)
    (hel : e.tokens.length = e.ids.length) (hfl : f.tokens.length = f.ids.length) (special : Bool) :
    ∃ r, tp.process e (some f) special = .ok (some r) ∧
      HasEntries r (asked special b ++ entriesOf e tyA ++ asked special m ++ entriesOf f tyB ++ asked special a) := by
  have hc : tp.chosen (some f).isSome = named b ++ [Piece.seq false tyA] ++ named m ++ [Piece.seq true tyB] ++ named a := by
    simp only [TemplateProc.chosen, Option.isSome_some, if_true, hc]
  obtain ⟨r, k1, k2⟩ := C24_template tp e (some f) special he
    (by
      intro p hp
      cases hp
      exact hf)
    (by
      rw [hc]
      refine ⟨fun _ _ => rfl, fun _ id ty h => ?_⟩
      simp only [named, List.mem_append, List.mem_map, List.mem_singleton, Piece.special.injEq, reduceCtorEq, or_false] at h
      rcases h with (⟨p, hp, rfl, _⟩ | ⟨p, hp, rfl, _⟩) | ⟨p, hp, rfl, _⟩
      · exact ⟨_, htab p (by simp [hp])⟩
      · exact ⟨_, htab p (by simp [hp])⟩
      · exact ⟨_, htab p (by simp [hp])⟩)
    (by
      rw [hc]
      exact .inl ⟨false, tyA, by simp⟩)
  rw [hc] at k2
  have hb : ∀ p ∈ b, tp.tab p.1 = some ⟨p.1, [p.2.1], [p.1]⟩ := fun p hp => htab p (by simp [hp])
  have hm : ∀ p ∈ m, tp.tab p.1 = some ⟨p.1, [p.2.1], [p.1]⟩ := fun p hp => htab p (by simp [hp])
  have ha : ∀ p ∈ a, tp.tab p.1 = some ⟨p.1, [p.2.1], [p.1]⟩ := fun p hp => htab p (by simp [hp])
  refine ⟨r, k1, ?_, ?_, ?_⟩
  · have := k2 .tokens
    simp only [List.flatMap_append] at this
    rw [pieceArr_named (f := .tokens) b hb (fun p => p.1) (fun _ _ => rfl) special, pieceArr_named (f := .tokens) m hm (fun p => p.1)
      (fun _ _ => rfl) special, pieceArr_named (f := .tokens) a ha (fun p => p.1) (fun _ _ => rfl) special] at this
    simp only [List.map_append, entries_tokens hel, entries_tokens hfl]
    simpa [pieceArr, seqArr, Encoding.arr] using this
  · have := k2 .ids
    simp only [List.flatMap_append] at this
    rw [pieceArr_named (f := .ids) b hb (fun p => p.2.1) (fun _ _ => rfl) special, pieceArr_named (f := .ids) m hm (fun p => p.2.1)
      (fun _ _ => rfl) special, pieceArr_named (f := .ids) a ha (fun p => p.2.1) (fun _ _ => rfl) special] at this
    simp only [List.map_append, entries_ids hel, entries_ids hfl]
    simpa [pieceArr, seqArr, Encoding.arr] using this
  · have := k2 .typeIds
    simp only [List.flatMap_append] at this
    rw [pieceArr_named (f := .typeIds) b hb (fun p => p.2.2) (fun _ _ => rfl) special, pieceArr_named (f := .typeIds) m hm
      (fun p => p.2.2) (fun _ _ => rfl) special, pieceArr_named (f := .typeIds) a ha (fun p => p.2.2) (fun _ _ => rfl) special] at this
    simp only [List.map_append, entries_types hel, entries_types hfl]
    simpa [pieceArr, seqArr, Encoding.arr] using this

theorem pair_post {o : Option (List (Str × Val))} {b m a : List (Str × Int × Int)} {tyA tyB : Int}
    (h : PairAdds o b m a tyA tyB) :
    ∃ pc, fromSection createProc o = .ok pc ∧ ∀ (special : Bool) (rows rows' : List Row), ∃ r,
      postProcess none (pc.map procFn) none (ofRows rows 0) (some (ofRows rows' 1)) special = .ok (some r) ∧
      HasEntries r (asked special b ++ entriesOf (ofRows rows 0) tyA ++ asked special m ++ entriesOf (ofRows rows' 1) tyB ++
        asked special a) := by
  have ha : ∀ (rows : List Row) (ty : Int), (∀ o ∈ (ofRows rows ty).overflowing, o.Aligned) := by
    intro rows ty o ho
    cases ho
  cases h with
  | none =>
    refine ⟨none, rfl, fun special rows rows' => ?_⟩
    obtain ⟨r, hr, h⟩ := merged_entries (ofRows_rangesOk rows 0) (ofRows_rangesOk rows' 1) (fun _ _ => rfl) (fun _ _ => rfl)
    refine ⟨r, ?_, ?_⟩
    · simp [postProcess, postTruncate, defaultProcess, hr]
    · cases special <;> simpa [asked] using h
  | bert q cls sep h1 h2 h3 =>
    refine ⟨_, fromSection_some (C70_postProcessor q _ (.bert q sep cls h1 h3 h2)), fun special rows rows' => ?_⟩
    cases special with
    | false =>
      obtain ⟨r, hr, h⟩ := merged_entries (ofRows_rangesOk rows 0) (ofRows_rangesOk rows' 1) (fun _ _ => rfl) (fun _ _ => rfl)
      refine ⟨r, ?_, by simpa [asked] using h⟩
      simp [postProcess, postTruncate, procFn, Bert.toProcessor, Bert.process, defaultProcess, hr]
    | true =>
    simp only [asked, if_true]
    obtain ⟨r, k1, k2, _⟩ := C22_bert_pair (Bert.mk ⟨sep.1, sep.2⟩ ⟨cls.1, cls.2⟩) (ofRows rows 0) (ofRows rows' 1)
    refine ⟨r, ?_, ?_⟩
    · simp only [Option.map_some, postProcess, postTruncate, procFn, Bert.toProcessor, Res.bind_ok, k1]
    · rw [entriesOf_rows, entriesOf_rows]
      refine ⟨?_, ?_, ?_⟩
      · have := k2 .tokens
        simpa [Encoding.arr, ofRows, Function.comp_def, bertSingle, bertPair, plainArr, specialEntry] using this
      · have := k2 .ids
        simpa [Encoding.arr, ofRows, Function.comp_def, bertSingle, bertPair, plainArr, specialEntry] using this
      · have := k2 .typeIds
        simpa [Encoding.arr, ofRows, Function.comp_def, bertSingle, bertPair, plainArr, specialEntry, List.map_const'] using this
  | roberta q cls sep ap h1 h2 h3 h4 h5 =>
    refine ⟨_, fromSection_some (C70_postProcessor q _ (.roberta q sep cls true ap h1 h3 h2 h4 h5)), fun special rows rows' => ?_⟩
    cases special with
    | false =>
      obtain ⟨d, g1, g2, g3⟩ := trimmed_rows rows 0 ap
      obtain ⟨d', g4, g5, g6⟩ := trimmed_rows rows' 1 ap
      obtain ⟨r, hr, h⟩ := merged_entries g2 g5 g3 g6
      refine ⟨r, ?_, by simpa [asked] using h⟩
      simp [postProcess, postTruncate, procFn, Roberta.toProcessor, Roberta.process, defaultProcess, optMapRes, g1, g4, hr]
    | true =>
    simp only [asked, if_true]
    obtain ⟨t, u, r, t1, t2, k1, k2, _⟩ := C23_roberta_pair_partial (Roberta.mk ⟨sep.1, sep.2⟩ ⟨cls.1, cls.2⟩ true ap) rfl
      (ofRows rows 0) (ofRows rows' 1) (ofRows_aligned _ _) (ha _ _) (ofRows_aligned _ _) (ha _ _)
    have htrim : ∀ (rows : List Row) (ty : Int) t, Trimmed ap (ofRows rows ty) t → ∀ f : Field, f ≠ .offsets →
        t.arr f = (ofRows rows ty).arr f := by
      intro rows ty t k0 f hf
      obtain ⟨⟨d, d1, d2⟩, _⟩ := k0
      obtain ⟨d', d3, d4, _⟩ := processOffsets_trimmed (ofRows rows ty) (ofRows_aligned _ _) ap
      rw [d3] at d1
      cases d1
      rw [d2, ← d4 f hf]
    have e1 := htrim _ _ _ t1
    have e2 := htrim _ _ _ t2
    have i1 : t.ids = rows.map (·.token.id) := e1 .ids (by simp)
    have i2 : u.ids = rows'.map (·.token.id) := e2 .ids (by simp)
    have v1 : t.tokens = rows.map (·.token.value) := e1 .tokens (by simp)
    have v2 : u.tokens = rows'.map (·.token.value) := e2 .tokens (by simp)
    have y1 : t.typeIds = List.replicate rows.length 0 := e1 .typeIds (by simp)
    have y2 : u.typeIds = List.replicate rows'.length 1 := e2 .typeIds (by simp)
    refine ⟨r, ?_, ?_⟩
    · simp only [Option.map_some, postProcess, postTruncate, procFn, Roberta.toProcessor, Res.bind_ok, k1]
    · rw [entriesOf_rows, entriesOf_rows]
      refine ⟨?_, ?_, ?_⟩
      · have := k2 .tokens
        simpa [Encoding.arr, Function.comp_def, robertaSingle, robertaPair, plainArr, specialEntry, v1, v2] using this
      · have := k2 .ids
        simpa [Encoding.arr, Function.comp_def, robertaSingle, robertaPair, plainArr, specialEntry, i1, i2] using this
      · have := k2 .typeIds
        simpa [Encoding.arr, Function.comp_def, robertaSingle, robertaPair, plainArr, specialEntry, y1, y2, List.map_const'] using this
  | byteLevel q ap t h1 h2 h3 =>
    refine ⟨_, fromSection_some (C70_postProcessor q _ (.byteLevel q ap t h1 h2 h3)), fun special rows rows' => ?_⟩
    obtain ⟨r, x, y, k1, k2, k3, k4, _⟩ := C102_pair t ap special (ofRows rows 0) (ofRows rows' 1) (ofRows_fresh _ _) (ofRows_aligned _ _)
      (ha _ _) (ofRows_fresh _ _) (ofRows_aligned _ _) (ha _ _)
    refine ⟨r, ?_, ?_⟩
    · simp only [Option.map_some, postProcess, postTruncate, procFn, Res.bind_ok, k1]
    · have h0 : asked special ([] : List (Str × Int × Int)) = [] := by cases special <;> rfl
      rw [entriesOf_rows, entriesOf_rows, h0]
      refine ⟨?_, ?_, ?_⟩
      · have := k4 .tokens
        rw [k2.same .tokens (by simp), k3.same .tokens (by simp)] at this
        simpa [Encoding.arr, ofRows, Function.comp_def, seqArr] using this
      · have := k4 .ids
        rw [k2.same .ids (by simp), k3.same .ids (by simp)] at this
        simpa [Encoding.arr, ofRows, Function.comp_def, seqArr] using this
      · have := k4 .typeIds
        rw [k2.same .typeIds (by simp), k3.same .typeIds (by simp)] at this
        simpa [Encoding.arr, ofRows, Function.comp_def, seqArr, List.map_const'] using this
  | template q _ _ _ _ _ b1 a1 ty toks h1 h2 h3 h4 h5 h6 h7 =>
    obtain ⟨tp, g1, g2, g3, g4, g5⟩ := C52_processor q _ _ toks h2 h3 h4 h5
    refine ⟨_, fromSection_some (C70_postProcessor q _ (.template q tp h1 g1)), fun special rows rows' => ?_⟩
    obtain ⟨r, k1, k2⟩ := template_pair g3 (fun p hp => g4 _ (h7 p hp)) (ofRows_fresh rows 0) (ofRows_fresh rows' 1)
      (by simp [ofRows]) (by simp [ofRows]) special
    refine ⟨r, ?_, k2⟩
    simp only [Option.map_some, postProcess, postTruncate, procFn, TemplateProc.toProcessor, Res.bind_ok, k1]

theorem byteLevel_pair (trim a : Bool) (rows rows' : List Row) :
    ∃ r, (byteLevelProcessor trim a).process (ofRows rows 0) (some (ofRows rows' 1)) true = .ok (some r) ∧ Fresh r ∧
      r.tokens = (ofRows rows 0).tokens ++ (ofRows rows' 1).tokens ∧ r.ids = (ofRows rows 0).ids ++ (ofRows rows' 1).ids := by
  have ha : ∀ (rows : List Row) (ty : Int), (∀ o ∈ (ofRows rows ty).overflowing, o.Aligned) := by
    intro rows ty o ho
    cases ho
  obtain ⟨r, x, y, k1, k2, k3, k4, _⟩ := C102_pair trim a true (ofRows rows 0) (ofRows rows' 1) (ofRows_fresh _ _)
    (ofRows_aligned _ _) (ha _ _) (ofRows_fresh _ _) (ofRows_aligned _ _) (ha _ _)
  refine ⟨r, k1, ?_, ?_, ?_⟩
  · have hr : RangesOk r := by
      obtain ⟨p, q, l, x, h1, h2, h0, h3, h4, _⟩ := byteOne trim a 0 (ofRows rows 0) (ofRows_fresh _ _) (ofRows_aligned _ _) (ha _ _)
      obtain ⟨p', q', l', y, h1', h2', h0', h3', h4', _⟩ := byteOne trim a 1 (ofRows rows' 1) (ofRows_fresh _ _)
        (ofRows_aligned _ _) (ha _ _)
      obtain ⟨r', m1, m2⟩ := mergeEncodings_ok [x, y] (by simp) (by
        intro z hz
        simp only [List.mem_cons, List.not_mem_nil, or_false] at hz
        rcases hz with rfl | rfl
        · exact h4
        · exact h4') false
      suffices r = r' by rw [this]; exact m2
      cases trim with
      | false =>
        simp only [Bool.false_eq_true, if_false, Res.ok.injEq] at h2 h2'
        subst h2 h2'
        simp only [byteLevelProcessor, byteLevelProcess, prepareEncodings, h1, h1', Res.bind_ok, Bool.false_eq_true,
          if_false, setIdsLoop, h0, h3, show (0 : Int) + 1 = 1 from rfl, h0', h3', m1] at k1
        cases k1; rfl
      | true =>
        simp only [if_true] at h2 h2'
        simp only [byteLevelProcessor, byteLevelProcess, prepareEncodings, h1, h1', Res.bind_ok, if_true, mapRes, h2, h2',
          setIdsLoop, h0, h3, show (0 : Int) + 1 = 1 from rfl, h0', h3', m1] at k1
        cases k1; rfl
    cases hr with
    | mk _ l g1 g2 g3 =>
      refine ⟨⟨l, g1, g2⟩, fun o ho => ?_⟩
      cases g3 o ho with
      | mk _ l' g4 g5 g6 => exact ⟨g6, .inl ⟨l', g4, g5⟩⟩
  · have := k4 .tokens
    rw [k2.same .tokens (by simp), k3.same .tokens (by simp)] at this
    simpa [Encoding.arr, seqArr] using this
  · have := k4 .ids
    rw [k2.same .ids (by simp), k3.same .ids (by simp)] at this
    simpa [Encoding.arr, seqArr] using this

theorem file_post {E : FileEnv} {c : FileConfig} {b : Built} (h : fromReader E (some c) = .ok b) (htr : c.truncation = none)
    (hpad : c.padding = none) : ∃ pc, fromSection createProc c.postProcessor = .ok pc ∧ b.tok.trunc = none ∧ b.tok.padding = none ∧
      b.tok.processor = pc.map procFn := by
  unfold fromReader at h
  obtain ⟨_, _, h⟩ := Res.bind_eq_ok.mp h
  obtain ⟨_, _, h⟩ := Res.bind_eq_ok.mp h
  obtain ⟨_, _, h⟩ := Res.bind_eq_ok.mp h
  obtain ⟨pc, h4, h⟩ := Res.bind_eq_ok.mp h
  obtain ⟨_, _, h⟩ := Res.bind_eq_ok.mp h
  obtain ⟨_, _, h⟩ := Res.bind_eq_ok.mp h
  obtain ⟨_, _, h⟩ := Res.bind_eq_ok.mp h
  obtain ⟨_, _, h⟩ := Res.bind_eq_ok.mp h
  obtain ⟨tr, h5, h⟩ := Res.bind_eq_ok.mp h
  rw [htr] at h5
  cases h5
  cases h
  refine ⟨pc, h4, rfl, ?_, rfl⟩
  rw [hpad]
  rfl

theorem single_rows {E : FileEnv} {c : FileConfig} {b : Built} {before after : List (Str × Int)} {A : List UInt8} {e : Encoding}
    (hb : fromReader E (some c) = .ok b) (htr : c.truncation = none) (hpad : c.padding = none)
    (hproc : Surrounds c.postProcessor before after) (he : b.tok.encodeSingle A [] = .ok (some e)) :
    ∃ rows, (∀ ty, b.tok.tk.encodeSingle (.raw A) ty .byte = .ok (ofRows rows ty)) ∧ Around [] [] (ofRows rows 0) e := by
  obtain ⟨pc, h1, h2, h3, h4⟩ := file_post hb htr hpad
  obtain ⟨pc', g1, g2⟩ := surrounds_asked hproc
  rw [h1] at g1
  cases g1
  unfold Tokenizer.encodeSingle Tokenizer.encode Tokenizer.encodeWith at he
  obtain ⟨x, hx, he⟩ := Res.bind_eq_ok.mp he
  obtain ⟨rows, hr⟩ := encodeRaw_rows hx
  rw [hr] at hx
  cases hx
  obtain ⟨r, k1, k2⟩ := g2 false rows
  rw [h2, h3, h4] at he
  have he' := k1.symm.trans he
  cases he'
  exact ⟨rows, hr, k2⟩

/-! ### The property -/

/-- C134 (one text): the special tokens of a file go around what the tokenizer gives without them, whatever the other sections
of the file are, and a text that cannot be encoded without them cannot be encoded with them. Missing: truncation and padding,
templates before other post-processors. -/
theorem C134_single_partial (E : FileEnv) (c : FileConfig) (b : Built) (hb : fromReader E (some c) = .ok b)
    (htr : c.truncation = none) (hpad : c.padding = none) (before after : List (Str × Int))
    (hproc : Surrounds c.postProcessor before after) (A : List UInt8) :
    (∀ e, b.tok.encodeSingle A [] = .ok (some e) → ∃ r, b.tok.encodeSingle A [true] = .ok (some r) ∧
      r.ids = before.map (·.2) ++ e.ids ++ after.map (·.2) ∧ r.tokens = before.map (·.1) ++ e.tokens ++ after.map (·.1)) ∧
    (b.tok.encodeSingle A [] = .err → b.tok.encodeSingle A [true] = .err) ∧
    (b.tok.encodeSingle A [] = .panic → b.tok.encodeSingle A [true] = .panic) ∧ b.tok.encodeSingle A [] ≠ .ok none := by
  obtain ⟨pc, h1, h2, h3, h4⟩ := file_post hb htr hpad
  obtain ⟨pc', g1, g2⟩ := surrounds_asked hproc
  rw [h1] at g1
  cases g1
  have key : ∀ opts : List Bool, b.tok.encodeSingle A opts =
      (b.tok.tk.encodeSingle (.raw A) 0 .byte >>= fun e => postProcess none (pc.map procFn) none e none (opts.headD false)) := by
    intro opts
    rw [← h2, ← h3, ← h4]
    rw [h2, h3]
    simp only [Tokenizer.encodeSingle, Tokenizer.encode, Tokenizer.encodeWith, h2, h3]
  rw [key, key]
  cases hx : b.tok.tk.encodeSingle (.raw A) 0 .byte with
  | err => simp
  | panic => simp
  | ok x =>
    obtain ⟨rows, hr⟩ := encodeRaw_rows hx
    rw [hr] at hx
    cases hx
    obtain ⟨r, k1, k2⟩ := g2 false rows
    obtain ⟨r', l1, l2⟩ := g2 true rows
    simp only [Res.bind_ok, List.headD_nil, List.headD_cons, k1, l1]
    refine ⟨fun e he => ?_, nofun, nofun, nofun⟩
    cases he
    have a1 := k2.1
    have a2 := k2.2
    simp only [asked, Bool.false_eq_true, if_false, List.map_nil, List.nil_append, List.append_nil] at a1 a2
    refine ⟨r', rfl, ?_, ?_⟩
    · rw [a1]; exact l2.1
    · rw [a2]; exact l2.2

/-- C134 (two texts): the tokens of the first text, of the second text and the special tokens of the file are in the order of the
template, with its type ids. Missing: truncation and padding, sequences of post-processors. -/
theorem C134_pair_partial (E : FileEnv) (c : FileConfig) (b : Built) (hb : fromReader E (some c) = .ok b)
    (htr : c.truncation = none) (hpad : c.padding = none) (before mid after : List (Str × Int × Int)) (tyA tyB : Int)
    (hproc : PairAdds c.postProcessor before mid after tyA tyB) (A B : List UInt8) (e f : Encoding)
    (he : b.tok.encodeSingle A [] = .ok (some e)) (hf : b.tok.encodeSingle B [] = .ok (some f)) :
    (∃ r, b.tok.encodePair A B [true] = .ok (some r) ∧
      HasEntries r (before ++ entriesOf e tyA ++ mid ++ entriesOf f tyB ++ after)) ∧
    ∃ r, b.tok.encodePair A B [] = .ok (some r) ∧ HasEntries r (entriesOf e tyA ++ entriesOf f tyB) := by
  obtain ⟨b1, a1, hs⟩ := pair_surrounds hproc
  obtain ⟨rows, r1, r2⟩ := single_rows hb htr hpad hs he
  obtain ⟨rows', r3, r4⟩ := single_rows hb htr hpad hs hf
  obtain ⟨pc, h1, h2, h3, h4⟩ := file_post hb htr hpad
  obtain ⟨pc', g1, g2⟩ := pair_post hproc
  rw [h1] at g1
  cases g1
  have key : ∀ special : Bool, ∃ r, b.tok.encodePair A B [special] = .ok (some r) ∧
      HasEntries r (asked special before ++ entriesOf e tyA ++ asked special mid ++ entriesOf f tyB ++ asked special after) := by
    intro special
    obtain ⟨r, k1, k2⟩ := g2 special rows rows'
    refine ⟨r, ?_, ?_⟩
    · simp only [Tokenizer.encodePair, List.headD_cons, Tokenizer.encode, Tokenizer.encodeWith, r1, r3, Res.bind_ok, h2, h3, h4, k1]
    · rw [entriesOf_same r2, entriesOf_rows] at *
      rw [entriesOf_same r4, entriesOf_rows] at *
      simpa only [entriesOf_rows] using k2
  constructor
  · exact key true
  · obtain ⟨r, k1, k2⟩ := key false
    exact ⟨r, k1, by simpa [asked] using k2⟩

/-- C134 is violated by a sequence of post-processors: each of them is given the second text, so that a file with "ByteLevel" and
a template for the special tokens gives the second text twice. -/
theorem C134_sequence_violated (E : FileEnv) (c : FileConfig) (b : Built) (hb : fromReader E (some c) = .ok b)
    (htr : c.truncation = none) (hpad : c.padding = none) (q q₁ q₂ : List (Str × Val)) (hq : c.postProcessor = some q)
    (hty : TypeIs q "Sequence") (hps : get q "processors" = .arr [.obj q₁, .obj q₂]) (a t : Bool)
    (hbl : TypeIs q₁ "ByteLevel" ∧ FlagIs q₁ "add_prefix_space" a ∧ FlagIs q₁ "trim_offsets" t)
    (before mid after : List (Str × Int × Int)) (tyA tyB : Int)
    (hproc : PairAdds (some q₂) before mid after tyA tyB) (htp : TypeIs q₂ "TemplateProcessing")
    (A B : List UInt8) (e f : Encoding)
    (he : b.tok.encodeSingle A [] = .ok (some e)) (hf : b.tok.encodeSingle B [] = .ok (some f)) :
    ∃ r, b.tok.encodePair A B [true] = .ok (some r) ∧
      HasEntries r (before ++ entriesOf e tyA ++ entriesOf f tyA ++ mid ++ entriesOf f tyB ++ after) := by
  have hne : ∀ s : String, TypeIs q₂ s → s = "TemplateProcessing" := by
    intro s hs
    have h1 : get q₂ "type" = .str s.toList := hs
    have h2 : get q₂ "type" = .str "TemplateProcessing".toList := htp
    rw [h1] at h2
    injection h2 with h2
    exact String.toList_inj.mp h2
  cases hproc with
  | bert _ cls sep h _ _ => exact absurd (hne _ h) (by decide)
  | roberta _ cls sep a h _ _ _ _ => exact absurd (hne _ h) (by decide)
  | byteLevel _ a t h _ _ => exact absurd (hne _ h) (by decide)
  | template _ _ _ _ _ _ b1 a1 ty toks h1 h2 h3 h4 h5 h6 h7 =>
    have hs : Surrounds c.postProcessor (b1 ++ []) ([] ++ a1) :=
      .inr ⟨q, hq, .sequence q [(q₁, [], [])] q₂ b1 a1 hty hps
        (by
          intro x hx
          cases List.mem_singleton.mp hx
          exact .byteLevel q₁ a t hbl.1 hbl.2.1 hbl.2.2)
        (.template q₂ b1 a1 ty _ toks h1 h2 h3 h4 h5 h6)⟩
    obtain ⟨rows, r1, r2⟩ := single_rows hb htr hpad hs he
    obtain ⟨rows', r3, r4⟩ := single_rows hb htr hpad hs hf
    obtain ⟨pc, p1, p2, p3, p4⟩ := file_post hb htr hpad
    obtain ⟨tp, g1, g2, g3, g4, g5⟩ := C52_processor q₂ _ _ toks h2 h3 h4 h5
    have hd : ProcDesc q (.sequence [.byteLevel a t, .template tp]) := by
      refine .sequence q [q₁, q₂] _ hty hps rfl ?_
      intro i x d hx hd
      match i with
      | 0 => cases hx; cases hd; exact .byteLevel q₁ a t hbl.1 hbl.2.1 hbl.2.2
      | 1 => cases hx; cases hd; exact .template q₂ tp h1 g1
      | i + 2 => cases hx
    have hpc := fromSection_some (C70_postProcessor q _ hd)
    rw [hq, hpc] at p1
    cases p1
    obtain ⟨x, k1, k2, k3, k4⟩ := byteLevel_pair t a rows rows'
    have hl : x.tokens.length = x.ids.length := by
      rw [k3, k4]
      simp [ofRows]
    obtain ⟨r, l1, l2⟩ := template_pair g3 (fun p hp => g4 _ (h7 p hp)) k2 (ofRows_fresh rows' 1) hl (by simp [ofRows]) true
    refine ⟨r, ?_, ?_⟩
    · simp only [Tokenizer.encodePair, List.headD_cons, Tokenizer.encode, Tokenizer.encodeWith, r1, r3, Res.bind_ok, p2, p3, p4,
        Option.map_some, postProcess, postTruncate, procFn, procFns, sequenceProcessor, sequenceProcess, k1,
        TemplateProc.toProcessor, l1]
    · have hx : entriesOf x tyA = entriesOf e tyA ++ entriesOf f tyA := by
        rw [entriesOf_same r2, entriesOf_same r4]
        unfold entriesOf
        rw [k3, k4, List.zip_append (by simp [ofRows]), List.map_append]
        rfl
      rw [hx] at l2
      have hf2 : entriesOf f tyB = entriesOf (ofRows rows' 1) tyB := by rw [entriesOf_same r4]; rfl
      rw [hf2]
      simpa [asked] using l2

/-! ### A case -/

example : PairAdds (some exampleBertTemplate) [(clsT, 0, 0)] [(sepT, 1, 0)] [(sepT, 1, 1)] 0 1 :=
  .template _ _ _ _ _ _ [(clsT, 0)] [(sepT, 1)] 0 [⟨clsT, [0], [clsT]⟩, ⟨sepT, [1], [sepT]⟩] (by unfold TypeIs; rfl) (by rfl)
    (by rfl) (by rfl) (by decide) (by simp) (by simp)

example : PairAdds (some exampleRoberta) [(['<', 's', '>'], 257, 0)] [(['<', '/', 's', '>'], 258, 0), (['<', '/', 's', '>'], 258, 1)]
    [(['<', '/', 's', '>'], 258, 1)] 0 1 :=
  .roberta exampleRoberta (['<', 's', '>'], 257) (['<', '/', 's', '>'], 258) false (by unfold TypeIs; rfl) (by unfold TokenIs; rfl)
    (by unfold TokenIs; rfl) (by rfl) (by rfl)

/-- The section "post_processor" of a file: ByteLevel, then a template that puts the token "<s>" in front of each text. -/
def examplePairTemplate : List (Str × Val) :=
  [("type".toList, .str "TemplateProcessing".toList),
   ("single".toList, .arr ((surround [(['<', 's', '>'], 257)] [] 0).map pieceVal)),
   ("pair".toList, .arr ((named [(['<', 's', '>'], 257, 0)] ++ [Piece.seq false 0] ++ named [(['<', 's', '>'], 257, 1)] ++
      [Piece.seq true 1] ++ named []).map pieceVal)),
   ("special_tokens".toList, .obj ([⟨['<', 's', '>'], [257], [['<', 's', '>']]⟩].map tokenVal))]

def examplePairSequence : List (Str × Val) :=
  [("type".toList, .str "Sequence".toList), ("processors".toList, .arr [.obj exampleFileBytes, .obj examplePairTemplate])]

theorem examplePair_adds : PairAdds (some examplePairTemplate) [(['<', 's', '>'], 257, 0)] [(['<', 's', '>'], 257, 1)] [] 0 1 :=
  .template _ _ _ _ _ _ [(['<', 's', '>'], 257)] [] 0 [⟨['<', 's', '>'], [257], [['<', 's', '>']]⟩] (by unfold TypeIs; rfl) (by rfl)
    (by rfl) (by rfl) (by decide) (by simp) (by simp)

/-- A file with any of these post-processors. -/
def examplePairFile (q : List (Str × Val)) : FileConfig :=
  { addedTokens := exampleBosTokens, preTokenizer := some exampleFileBytes, postProcessor := some q,
    decoder := some exampleFileBytes, model := some exampleFileModel }

/-- These files can be read, and "he" can be encoded. -/
theorem examplePair_file (E : FileEnv) (hL : E.isL ' ' = false) (hN : E.isN ' ' = false) (ho : ∀ l, (E.order l).Perm l)
    (q : List (Str × Val)) (before after : List (Str × Int)) (hq : Surrounds (some q) before after) :
    ∃ b e, fromReader E (some (examplePairFile q)) = .ok b ∧ b.tok.encodeSingle (encStr ['h', 'e']) [] = .ok (some e) := by
  obtain ⟨pc, p1, p2⟩ := surrounds_asked hq
  obtain ⟨b, rows, tb, h1, h2, _⟩ := byte_file (E := E) hL hN ho (c := examplePairFile q) (s := ['h', 'e']) rfl exampleFile_section rfl
    (DecDesc.byteLevel _ false true (by unfold TypeIs; rfl) (.inl (by rfl)) (.inl (by rfl))) rfl
    (PreDesc.byteLevel _ false true (by unfold TypeIs; rfl) (.inl (by rfl)) (.inl (by rfl))) p1 rfl rfl rfl
    (by
      intro x hx
      rcases List.mem_cons.mp hx with rfl | hx
      · exact ⟨by decide, by decide⟩
      · cases List.mem_singleton.mp hx
        exact ⟨by decide, by decide⟩) (by simp)
  obtain ⟨r, k1, _⟩ := p2 false rows
  exact ⟨b, r, h1, (h2 []).trans k1⟩

/-- With the sequence the tokens of "he" as the second text are there twice. -/
example (E : FileEnv) (hL : E.isL ' ' = false) (hN : E.isN ' ' = false) (ho : ∀ l, (E.order l).Perm l) :
    ∃ b e r, fromReader E (some (examplePairFile examplePairSequence)) = .ok b ∧
      b.tok.encodeSingle (encStr ['h', 'e']) [] = .ok (some e) ∧
      b.tok.encodePair (encStr ['h', 'e']) (encStr ['h', 'e']) [true] = .ok (some r) ∧
      HasEntries r ([(['<', 's', '>'], 257, 0)] ++ entriesOf e 0 ++ entriesOf e 0 ++ [(['<', 's', '>'], 257, 1)] ++ entriesOf e 1 ++
        []) := by
  obtain ⟨b, e, h1, h2⟩ := examplePair_file E hL hN ho examplePairSequence ([(['<', 's', '>'], 257)] ++ []) ([] ++ [])
    (.inr ⟨_, rfl, .sequence _ [(exampleFileBytes, [], [])] _ [(['<', 's', '>'], 257)] [] (by unfold TypeIs; rfl) (by rfl)
    (by
      intro x hx
      cases List.mem_singleton.mp hx
      exact .byteLevel _ false true (by unfold TypeIs; rfl) (.inl (by rfl)) (.inl (by rfl)))
    (.template _ _ _ 0 _ [⟨['<', 's', '>'], [257], [['<', 's', '>']]⟩] (by unfold TypeIs; rfl) (by rfl) (by rfl) (by rfl)
      (by decide) (by simp))⟩)
  obtain ⟨r, h3, h4⟩ := C134_sequence_violated E _ b h1 rfl rfl examplePairSequence exampleFileBytes examplePairTemplate rfl
    (by unfold TypeIs; rfl) (by rfl) false true ⟨by unfold TypeIs; rfl, .inl (by rfl), .inl (by rfl)⟩ _ _ _ _ _
    examplePair_adds (by unfold TypeIs; rfl) _ _ e e h2 h2
  exact ⟨b, e, r, h1, h2, h3, h4⟩

end Tok.Whole
