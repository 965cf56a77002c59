import Verif.Whole.PropsFilePairs

/-!
# C133: pairs of texts and the tokenizer of a byte-level BPE file
-/

namespace Tok.Whole

open Tok.PreTok Tok.Added Tok.Config

theorem decodeTokens_triples {T : VocabState} (l : List (Str × Int × Int))
    (h : ∀ x ∈ l, T.idToToken x.2.1 = some x.1 ∧ T.isSpecial x.1 = true) : T.decodeTokens true (l.map (·.2.1)) = [] := by
  induction l with
  | nil => rfl
  | cons x l ih =>
    obtain ⟨g1, g2⟩ := h x (by simp)
    simp only [List.map_cons, VocabState.decodeTokens, g1, g2, ih (fun y hy => h y (by simp [hy]))]
    rfl

theorem rows_entries (rows : List Row) (ty : Int) :
    (entriesOf (ofRows rows 0) ty).map (·.1) = rows.map (·.token.value) ∧
    (entriesOf (ofRows rows 0) ty).map (·.2.1) = rows.map (·.token.id) ∧
    (entriesOf (ofRows rows 0) ty).map (·.2.2) = List.replicate rows.length ty := by
  rw [entriesOf_rows]
  simp [Function.comp_def, List.map_const']

/-- C133 (pairs): with a post-processor that puts special tokens of the file before, between and after two texts, the
tokenizer encodes every pair of texts in which no added token occurs; the tokens between the special ones are the images of
byte strings that make up the two texts, the type ids are those of the post-processor, and `Decode` without special tokens
gives the bytes of the two texts one after the other (each with the space in front, if the pre-tokenizer puts one there),
unless one of the tokens is written like a special token. -/
theorem C133_pair_partial (E : FileEnv) (hL : E.isL ' ' = false) (hN : E.isN ' ' = false) (ho : ∀ l, (E.order l).Perm l)
    (hc : E.charOrder.Perm bytesCharMap) (c : FileConfig) (m p d : List (Str × Val)) (v : List (Str × Int))
    (es : List (Str × Str)) (hm : c.model = some m) (hs : BpeSection m d v es) (hd : c.decoder = some d) (a₁ t₁ : Bool)
    (hdec : DecDesc d (.byteLevel a₁ t₁)) (hp : c.preTokenizer = some p) (a t : Bool) (hpre : PreDesc E.cfg p (.byteLevel a t))
    (before mid after : List (Str × Int × Int)) (tyA tyB : Int) (hproc : PairAdds c.postProcessor before mid after tyA tyB)
    (hao : AddedInOrder v c.addedTokens)
    (hplaces : ∀ x ∈ before ++ mid ++ after, ∃ y ∈ c.addedTokens, y.special = true ∧ y.content = x.1 ∧ y.id = x.2.1)
    (hn : c.normalizer = none) (htr : c.truncation = none) (hpad : c.padding = none)
    (A B : Str) (hadd : ∀ x ∈ c.addedTokens, x.content ≠ [] ∧ ¬ x.content <:+: A ∧ ¬ x.content <:+: B)
    (hnul : a = true → A.head? ≠ some '\x00' ∧ B.head? ≠ some '\x00') :
    ∃ (b : Built) (e : Encoding) (ta tb : List (List UInt8)), fromReader E (some c) = .ok b ∧
      b.tok.encodePair (encStr A) (encStr B) [true] = .ok (some e) ∧
      (ta.flatten = encStr (prefixed a A) ∧ ∀ x ∈ ta, x ≠ []) ∧ (tb.flatten = encStr (prefixed a B) ∧ ∀ x ∈ tb, x ≠ []) ∧
      e.tokens = before.map (·.1) ++ ta.map byteLevelImage ++ mid.map (·.1) ++ tb.map byteLevelImage ++ after.map (·.1) ∧
      e.typeIds = before.map (·.2.2) ++ List.replicate ta.length tyA ++ mid.map (·.2.2) ++ List.replicate tb.length tyB ++
        after.map (·.2.2) ∧
      ((∀ x ∈ c.addedTokens, x.special = true → x.content ∉ (ta ++ tb).map byteLevelImage) →
        b.decode e.ids true = .ok (encStr (prefixed a A ++ prefixed a B))) := by
  obtain ⟨pc, p1, p2⟩ := pair_post hproc
  obtain ⟨b, rows, ta, h1, _, h3, h4, h5, h6, h7, h8, h9, h10, _⟩ := byte_file hL hN ho hm hs hd hdec hp hpre p1 hn htr hpad
    (s := A) (fun x hx => ⟨(hadd x hx).1, (hadd x hx).2.1⟩) (fun h => (hnul h).1)
  obtain ⟨b', rows', tb, g1, _, _, g4, g5, g6, g7, _, _, g10, _⟩ := byte_file hL hN ho hm hs hd hdec hp hpre p1 hn htr hpad
    (s := B) (fun x hx => ⟨(hadd x hx).1, (hadd x hx).2.2⟩) (fun h => (hnul h).2)
  rw [h1] at g1
  cases g1
  obtain ⟨pc', q1, q2, q3, q4⟩ := file_post h1 htr hpad
  rw [p1] at q1
  cases q1
  obtain ⟨rows2, k2⟩ := encodeRaw_rows g10
  have k0 : ofRows rows2 0 = ofRows rows' 0 := Res.ok.inj ((k2 0).symm.trans g10)
  have kv : rows2.map (·.token.value) = rows'.map (·.token.value) := congrArg Encoding.tokens k0
  have ki : rows2.map (·.token.id) = rows'.map (·.token.id) := congrArg Encoding.ids k0
  have kl : rows2.length = rows'.length := by simpa using congrArg List.length kv
  obtain ⟨r, r1, r2, r3, r4⟩ := p2 true rows rows2
  have e1 : ∀ ty, entriesOf (ofRows rows2 1) ty = entriesOf (ofRows rows2 0) ty := fun ty => by
    rw [entriesOf_rows, entriesOf_rows]
  have la : rows.length = ta.length := by simpa using congrArg List.length h6
  have lb : rows'.length = tb.length := by simpa using congrArg List.length g6
  simp only [asked, if_true, e1, List.map_append, rows_entries, kv, ki, kl, la, lb, h6, g6] at r2 r3 r4
  have hx : ∀ x ∈ before ++ mid ++ after, b.state.idToToken x.2.1 = some x.1 ∧ b.state.isSpecial x.1 = true := by
    intro x hx
    obtain ⟨y, hy, y1, y2, y3⟩ := hplaces x hx
    refine ⟨by rw [← y3, ← y2]; exact h9 hao y hy, (h8 _).2 ⟨?_, y, hy, y1, y2⟩⟩
    rw [← y2]; exact (hadd y hy).1
  refine ⟨b, r, ta, tb, h1, ?_, ⟨h4, h5⟩, ⟨g4, g5⟩, r2, r4, fun hsp => ?_⟩
  · simp only [Tokenizer.encodePair, List.headD_cons, Tokenizer.encode, Tokenizer.encodeWith, h10, k2, Res.bind_ok, q2, q3, q4, r1]
  · have hdecode : byteLevelDecode (charBytes E.charOrder) (((ta ++ tb).map byteLevelImage).map encStr) =
        encStr (prefixed a A ++ prefixed a B) := by
      apply C26_decode E.charOrder hc
      rw [encStr_append, ← h4, ← g4, ← List.flatten_append]
      exact images_joined (ta ++ tb)
    have hr : ∀ l : List Row, (∀ q ∈ l, b.state.idToToken q.token.id = some q.token.value) →
        (∀ q ∈ l, q.token.value ∈ (ta ++ tb).map byteLevelImage) →
        b.state.decodeTokens true (l.map (·.token.id)) = l.map (·.token.value) := by
      intro l hl hv
      apply decodeTokens_known l
      intro q hq
      refine ⟨hl q hq, fun _ => ?_⟩
      cases hq' : b.state.isSpecial q.token.value with
      | false => rfl
      | true =>
        obtain ⟨_, x, hx, hx1, hx2⟩ := (h8 _).1 hq'
        exact absurd (by rw [hx2]; exact hv q hq) (hsp x hx hx1)
    unfold Built.decode
    rw [h3, r3]
    simp only [decodeTokens_append]
    rw [decodeTokens_triples before (fun x h => hx x (by simp [h])), decodeTokens_triples mid (fun x h => hx x (by simp [h])),
      decodeTokens_triples after (fun x h => hx x (by simp [h])),
      hr rows h7 (fun q hq => by
        rw [List.map_append, ← h6]; exact List.mem_append_left _ (List.mem_map_of_mem hq)),
      hr rows' g7 (fun q hq => by
        rw [List.map_append, ← g6]; exact List.mem_append_right _ (List.mem_map_of_mem hq)), h6, g6]
    rw [List.map_append] at hdecode
    simp only [List.nil_append, List.append_nil, decodeFn, hdecode]

/-! ### A case -/

/-- A file with RobertaProcessing and the texts "he" and "hé". -/
example (E : FileEnv) (hL : E.isL ' ' = false) (hN : E.isN ' ' = false) (ho : ∀ l, (E.order l).Perm l)
    (hc : E.charOrder.Perm bytesCharMap) :
    ∃ b e ta tb, fromReader E (some (examplePairFile exampleRoberta)) = .ok b ∧
      b.tok.encodePair (encStr ['h', 'e']) (encStr ['h', 'é']) [true] = .ok (some e) ∧
      e.tokens = [['<', 's', '>']] ++ ta ++ [['<', '/', 's', '>'], ['<', '/', 's', '>']] ++ tb ++ [['<', '/', 's', '>']] ∧
      e.typeIds = [0] ++ List.replicate ta.length 0 ++ [0, 1] ++ List.replicate tb.length 1 ++ [1] := by
  obtain ⟨b, e, ta, tb, h1, h2, _, _, h3, h4, _⟩ := C133_pair_partial E hL hN ho hc (examplePairFile exampleRoberta) _ _ _ _ _ rfl
    exampleFile_section rfl _ _ (DecDesc.byteLevel _ false true (by unfold TypeIs; rfl) (.inl (by rfl)) (.inl (by rfl))) rfl _ _
    (PreDesc.byteLevel _ false true (by unfold TypeIs; rfl) (.inl (by rfl)) (.inl (by rfl)))
    [(['<', 's', '>'], 257, 0)] [(['<', '/', 's', '>'], 258, 0), (['<', '/', 's', '>'], 258, 1)] [(['<', '/', 's', '>'], 258, 1)] 0 1
    (.roberta _ (['<', 's', '>'], 257) (['<', '/', 's', '>'], 258) false (by unfold TypeIs; rfl) (by unfold TokenIs; rfl)
      (by unfold TokenIs; rfl) (by rfl) (by rfl)) exampleBos_order
    (by
      intro x hx
      simp only [List.append_eq, List.cons_append, List.nil_append, List.mem_cons, List.not_mem_nil, or_false] at hx
      rcases hx with rfl | rfl | rfl | rfl
      · exact ⟨_, .head _, rfl, rfl, rfl⟩
      all_goals exact ⟨_, .tail _ (.head _), rfl, rfl, rfl⟩) rfl rfl rfl ['h', 'e'] ['h', 'é']
    (by
      intro x hx
      rcases List.mem_cons.mp hx with rfl | hx
      · exact ⟨by decide, by decide, by decide⟩
      · cases List.mem_singleton.mp hx
        exact ⟨by decide, by decide, by decide⟩) (by simp)
  refine ⟨b, e, _, _, h1, h2, h3, ?_⟩
  rw [h4, List.length_map, List.length_map]
  rfl

end Tok.Whole
