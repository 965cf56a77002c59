import Verif.Whole.PropsFileBert
import Verif.Whole.PropsFileBytePair

/-!
# C129: pairs of texts and the tokenizer of a BERT file
-/

namespace Tok.Whole

open Tok.PreTok Tok.Added Tok.Config Tok.Regex
open Tok.Norm (NStr Tables)

/-- C129 (pairs): a BERT file whose post-processor puts `[CLS]` before a pair of texts and `[SEP]` after each of them makes a
tokenizer that encodes two texts to `[CLS]`, the tokens of the first text, `[SEP]`, the tokens of the second text and `[SEP]`,
with the type ids of the post-processor; `Decode` without special tokens gives the words of both texts that have pieces. The
tokens of a word are its pieces, or the unknown token, which is a special token of the file if there are such words. -/
theorem C129_pair_partial (E : FileEnv) (hE : BertEnv E.toEnv) (c : FileConfig) (m n p d : List (Str × Val))
    (v : List (Str × Int)) (max cls sep : Int) (hm : c.model = some m) (hs : WordPieceSection m d v max cls sep)
    (unk : Option Str) (hunk : IsOpt m "unk_token" .str unk)
    (hn : c.normalizer = some n) (cl l ch a : Bool) (hnorm : NormDesc E.cfg n (.bert cl l ch a))
    (hp : c.preTokenizer = some p) (hpre : PreDesc E.cfg p .bert)
    (ty₁ ty₂ ty₃ tyA tyB : Int)
    (hproc : PairAdds c.postProcessor [(clsT, cls, ty₁)] [(sepT, sep, ty₂)] [(sepT, sep, ty₃)] tyA tyB)
    (hd : c.decoder = some d) (cleanup : Bool) (hdec : DecDesc d (.wordPiece "##".toList cleanup))
    (htr : c.truncation = none) (hpad : c.padding = none)
    (hspec : ∀ w ∈ [clsT, sepT], ∃ x ∈ c.addedTokens, x.special = true ∧ x.content = w)
    (A A' B B' : Str) (hA : Plain E.tables l A A') (hB : Plain E.tables l B B')
    (haA : ∀ x ∈ c.addedTokens, BertToken A A' x) (haB : ∀ x ∈ c.addedTokens, BertToken B B' x)
    (hw : (∀ w ∈ piecesOf (bertWords E.punc) A A' ++ piecesOf (bertWords E.punc) B B',
        (w.length : Int) ≤ max ∧ ∃ ps, Greedy (vocabPieces v max) true w ps) ∨
      ((∃ i, (unk.getD "[UNK]".toList, i) ∈ v) ∧
        ∃ x ∈ c.addedTokens, x.special = true ∧ x.content = unk.getD "[UNK]".toList)) :
    ∃ (b : Built) (r : Encoding) (wa wb : List (Str × Option (List Str))), fromReader E (some c) = .ok b ∧
      b.tok.encodePair (encStr A) (encStr B) [true] = .ok (some r) ∧
      wa.map (·.1) = piecesOf (bertWords E.punc) A A' ∧ wb.map (·.1) = piecesOf (bertWords E.punc) B B' ∧
      (∀ x ∈ wa ++ wb, Spells v max x.1 x.2) ∧
      (∃ ta tb, ta = (wa.map (fun x => spelling (unk.getD "[UNK]".toList) x.2)).flatten ∧
        tb = (wb.map (fun x => spelling (unk.getD "[UNK]".toList) x.2)).flatten ∧
        r.tokens = clsT :: ta ++ [sepT] ++ tb ++ [sepT] ∧
        r.typeIds = ty₁ :: List.replicate ta.length tyA ++ [ty₂] ++ List.replicate tb.length tyB ++ [ty₃]) ∧
      b.decode r.ids true = .ok (encStr
        (if cleanup then tidy (((wa ++ wb).filter (·.2.isSome)).map (·.1))
          else joinSpace (((wa ++ wb).filter (·.2.isSome)).map (·.1)))) := by
  obtain ⟨pc, p1, p2⟩ := pair_post hproc
  obtain ⟨b, rows, wa, h1, h2, h3, h4, h5, h6, h7, h8, h9, h10, h11, h12, h13, _⟩ := bert_words_file E hE c m n p d v max cls sep hm hs
    unk hunk hn cl l ch a hnorm hp hpre pc p1 hd cleanup hdec htr hpad A A' hA haA hspec
    (hw.imp (fun h w hw => h w (by simp [hw])) id)
  obtain ⟨b', rows', wb, g1, g2, _, _, _, g6, g7, g8, g9, g10, _, _, _, _⟩ := bert_words_file E hE c m n p d v max cls sep hm hs
    unk hunk hn cl l ch a hnorm hp hpre pc p1 hd cleanup hdec htr hpad B B' hB haB hspec
    (hw.imp (fun h w hw => h w (by simp [hw])) id)
  rw [h1] at g1
  cases g1
  obtain ⟨rows2, q2⟩ := encodeRaw_rows g2
  have q0 : ofRows rows2 0 = ofRows rows' 0 := Res.ok.inj ((q2 0).symm.trans g2)
  rw [← q0] at g8 g10
  obtain ⟨r, r1, r2, r3, r4⟩ := p2 true rows rows2
  have e1 : ∀ ty, entriesOf (ofRows rows2 1) ty = entriesOf (ofRows rows2 0) ty := fun ty => by
    rw [entriesOf_rows, entriesOf_rows]
  have la : rows.length = (ofRows rows 0).tokens.length := by simp [ofRows]
  have lb : rows2.length = (ofRows rows2 0).tokens.length := by simp [ofRows]
  simp only [asked, if_true, e1, List.map_append, rows_entries, la, lb, List.map_cons, List.map_nil] at r2 r3 r4
  have hv : ∀ rows : List Row, rows.map (·.token.value) = (ofRows rows 0).tokens := fun _ => rfl
  have hi : ∀ rows : List Row, rows.map (·.token.id) = (ofRows rows 0).ids := fun _ => rfl
  rw [hv, hv, h8, g8] at r2
  rw [hi, hi] at r3
  rw [h8, g8] at r4
  refine ⟨b, r, wa, wb, h1, ?_, h6, g6, fun x hx => (List.mem_append.mp hx).elim (h7 x) (g7 x), ⟨_, _, rfl, rfl, r2, r4⟩, ?_⟩
  · simp only [Tokenizer.encodePair, List.headD_cons, Tokenizer.encode, Tokenizer.encodeWith, h2, q2, Res.bind_ok, h3, h4, h5, r1]
  · obtain ⟨k1, k2⟩ := spelled_known (wds := wa ++ wb) (fun x hx => (List.mem_append.mp hx).elim (h9 x) (g9 x))
    simp only [Built.decode, h13]
    rw [r3, decodeTokens_append, decodeTokens_append, decodeTokens_append, decodeTokens_append, h10, g10, h11, h12, ← k1]
    simp only [List.nil_append, List.append_nil]
    have := bert_text E hE cleanup _ (fun g hg => (k2 g hg).1) (fun g hg => (k2 g hg).2)
    simpa only [List.map_append, List.flatten_append, List.filterMap_append] using this

/-! ### A case -/

/-- A vocabulary with a mark and the unknown token. -/
def exampleUnkVocab : List (Str × Int) := [(clsT, 0), (sepT, 1), ("[UNK]".toList, 2), (['!'], 3)]

/-- A BERT file with `[CLS]`, `[SEP]` and `[UNK]`. -/
def examplePairBert : FileConfig where
  model := some [("type".toList, .str "WordPiece".toList), ("unk_token".toList, .str "[UNK]".toList),
    ("continuing_subword_prefix".toList, .str "##".toList), ("max_input_chars_per_word".toList, .float 100),
    ("vocab".toList, vocabVal exampleUnkVocab)]
  decoder := some [("type".toList, .str "WordPiece".toList), ("prefix".toList, .str "##".toList), ("cleanup".toList, .bool true)]
  normalizer := some [("type".toList, .str "BertNormalizer".toList), ("clean_text".toList, .bool true),
    ("lowercase".toList, .bool false), ("handle_chinese_chars".toList, .bool true), ("strip_accents".toList, .bool true)]
  preTokenizer := some [("type".toList, .str "BertPreTokenizer".toList)]
  postProcessor := some exampleBertTemplate
  addedTokens := [{ id := 0, content := clsT, special := true }, { id := 1, content := sepT, special := true },
    { id := 2, content := "[UNK]".toList, special := true }]
  truncation := none
  padding := none

theorem examplePairBert_token (s : Str) (h : '[' ∉ s) : ∀ x ∈ examplePairBert.addedTokens, BertToken s s x := by
  have key : ∀ w : Str, ¬ '[' :: w <:+: s := by
    rintro w ⟨a, b, rfl⟩
    simp at h
  intro x hx
  simp only [examplePairBert, List.mem_cons, List.not_mem_nil, or_false] at hx
  rcases hx with rfl | rfl | rfl
  · exact ⟨⟨'C', _, rfl⟩, rfl, key _, key _⟩
  · exact ⟨⟨'S', _, rfl⟩, rfl, key _, key _⟩
  · exact ⟨⟨'U', _, rfl⟩, rfl, key _, key _⟩

theorem exampleUnk_mark : Spells exampleUnkVocab 100 ['!'] (some [['!']]) := by
  refine ⟨by decide, [(['!'], 3)], .cons true ['!'] [] 3 _ (by simp) rfl ?_ (.nil _), rfl⟩
  intro p r h hl
  have h2 := congrArg List.length h
  simp only [List.length_append, List.length_cons, List.length_nil] at h2 hl
  omega

theorem exampleUnk_unknown : Spells exampleUnkVocab 100 ['?'] none := by
  refine .inr fun ps h => ?_
  have h0 : ∀ (w : Str), Greedy (vocabPieces exampleUnkVocab 100) true w ps → w ≠ ['?'] := by
    rintro w (_ | ⟨_, p, rest, id, qs, hp, hid, _, _⟩) hw
    · cases hw
    · have : p = ['?'] := by
        cases p with
        | nil => exact absurd rfl hp
        | cons x p =>
          cases p with
          | nil => cases hw; rfl
          | cons y p => cases hw
      subst this
      cases hid
  exact h0 _ h rfl

/-- The texts "!" and "?!". -/
example (E : FileEnv) (hE : BertEnv E.toEnv) (h1 : ∀ c ∈ ['!', '?'], ¬ Norm.Unwanted E.tables.ctl c)
    (h2 : ∀ c ∈ ['!', '?'], E.tables.mn c = false) :
    ∃ b r, fromReader E (some examplePairBert) = .ok b ∧
      b.tok.encodePair (encStr ['!']) (encStr ['?', '!']) [true] = .ok (some r) ∧
      r.tokens = [clsT, ['!'], sepT, "[UNK]".toList, ['!'], sepT] ∧ r.typeIds = [0, 0, 0, 1, 1, 1] ∧
      b.decode r.ids true = .ok (encStr ['!', '!']) := by
  have hb := hE.punc '!' (by simp)
  have hb' := hE.punc '?' (by simp)
  have hp1 : piecesOf (bertWords E.punc) ['!'] ['!'] = [['!']] := by simp [piecesOf, bertWords, Norm.runs, isS]
  have hp2 : piecesOf (bertWords E.punc) ['?', '!'] ['?', '!'] = [['?'], ['!']] := by
    simp [piecesOf, bertWords, Norm.runs, isS, hb, hb']
  have a1 := h1 '!' (by simp)
  have a2 := h1 '?' (by simp)
  have a3 := h2 '!' (by simp)
  have a4 := h2 '?' (by simp)
  obtain ⟨b, r, wa, wb, g1, g2, g3, g4, g5, ⟨ta, tb, rfl, rfl, g6, g7⟩, g8⟩ := C129_pair_partial E hE examplePairBert _ _ _ _
    exampleUnkVocab 100 0 1 rfl
    ⟨.given _ (by rfl), by rfl, ⟨some "[UNK]".toList, by rfl⟩, .inr (by rfl), by rfl,
      ⟨by decide +kernel, by decide +kernel, by decide +kernel⟩, by decide +kernel, by decide +kernel⟩
    (some "[UNK]".toList) (by rfl) rfl true false true true (.bert _ _ _ _ _ (by unfold TypeIs; rfl) (.inl (by rfl)) (.inl (by rfl))
      (.inl (by rfl)) (.inl (by rfl))) rfl
    (.bert _ (by unfold TypeIs; rfl)) 0 0 1 0 1
    (.template _ _ _ _ _ _ [(clsT, 0)] [(sepT, 1)] 0 [⟨clsT, [0], [clsT]⟩, ⟨sepT, [1], [sepT]⟩] (by unfold TypeIs; rfl) (by rfl)
      (by rfl) (by rfl) (by decide) (by simp) (by simp))
    rfl true (.wordPiece _ _ _ (by unfold TypeIs; rfl) (by unfold StrIs; rfl) (by rfl)) rfl rfl
    (by
      intro w hw
      simp only [List.mem_cons, List.not_mem_nil, or_false] at hw
      rcases hw with rfl | rfl
      · exact ⟨_, .head _, rfl, rfl⟩
      · exact ⟨_, .tail _ (.head _), rfl, rfl⟩)
    ['!'] ['!'] ['?', '!'] ['?', '!']
    ⟨by simpa using a1, by decide, fun _ => rfl, nofun, by simpa using a3⟩
    ⟨by simpa using ⟨a2, a1⟩, by decide, fun _ => rfl, nofun, by simpa using ⟨a4, a3⟩⟩
    (examplePairBert_token _ (by simp)) (examplePairBert_token _ (by simp))
    (.inr ⟨⟨2, by decide +kernel⟩, _, .tail _ (.tail _ (.head _)), rfl, rfl⟩)
  rw [hp1] at g3
  rw [hp2] at g4
  obtain ⟨⟨_, o⟩, rfl, e⟩ := List.map_eq_singleton_iff.mp g3
  cases e
  obtain ⟨⟨_, o₁⟩, wb', rfl, e, k4⟩ := List.map_eq_cons_iff.mp g4
  cases e
  obtain ⟨⟨_, o₂⟩, rfl, e⟩ := List.map_eq_singleton_iff.mp k4
  cases e
  cases spells_unique (g5 (['!'], o) (by simp)) exampleUnk_mark
  cases spells_unique (g5 (['?'], o₁) (by simp)) exampleUnk_unknown
  cases spells_unique (g5 (['!'], o₂) (by simp)) exampleUnk_mark
  exact ⟨b, r, g1, g2, g6, g7, g8⟩

end Tok.Whole
