import Verif.Whole.PropsFileLlama
import Verif.Whole.PropsFilePairs

/-!
# C136: the decoder of a tokenizer file
-/

namespace Tok.Whole

open Tok.PreTok Tok.Added Tok.Config Tok.Regex
open Tok.Norm

/-! ### Specification -/

/-- What a BPE decoder makes of a token: the end-of-word suffix becomes `new`. -/
def SuffixShown (suf new p r : Str) : Prop :=
  (∃ q, p = q ++ suf ∧ OnlyAtEnd suf q ∧ r = q ++ new) ∨ (¬ suf <:+: p ∧ r = p)

/-- A word piece after the first: without the prefix, or with a space before it. -/
def pieceShown (pre t : Str) : Str := if pre <+: t then t.drop pre.length else ' ' :: t

/-- The same with clean-up: no space before marks and endings. -/
def pieceClean (pre t : Str) : Str :=
  if pre <+: t then t.drop pre.length else if ∃ p ∈ drawn, p <+: t then t else ' ' :: t

/-- What the decoder of a file makes of tokens: the texts that joined are the decoded text. -/
inductive Decoded (E : FileEnv) : DecCfg → List Bytes → List Bytes → Prop
  | bpe (suf : Str) (ts : List Str) (t : Str) (rs : List Str) (r : Str) : suf ≠ [] → List.Forall₂ (SuffixShown suf [' ']) ts rs →
      SuffixShown suf [] t r → Decoded E (.bpe suf) ((ts ++ [t]).map encStr) ((rs ++ [r]).map encStr)
  | byteLevel (a t : Bool) (bs : List Bytes) : E.charOrder.Perm bytesCharMap →
      Decoded E (.byteLevel a t) (bs.map (fun b => encStr (byteLevelImage b))) bs
  | wordPiece (pre t : Str) (ts : List Str) :
      Decoded E (.wordPiece pre false) ((t :: ts).map encStr) ((t :: ts.map (pieceShown pre)).map encStr)
  | cleaned (pre t : Str) (ts : List Str) : (∀ x ∈ t :: ts, ' ' ∉ x) →
      Decoded E (.wordPiece pre true) ((t :: ts).map encStr) ((t :: ts.map (pieceClean pre)).map encStr)
  | metaspace (r : Char) (ts : List Str) : Decoded E (.metaspace [r] false) (ts.map encStr)
      ((ts.map (List.map (fun c => if c = r then ' ' else c))).map encStr)
  | prefixed (r : Char) (t : Str) (ts : List Str) : Decoded E (.metaspace [r] true) ((t :: ts).map encStr)
      ((t.filter (· ≠ r) :: ts.map (List.map (fun c => if c = r then ' ' else c))).map encStr)
  | ctc (pad delim : Str) (ts : List Str) : pad ≠ [] → delim ≠ [] → (∀ t ∈ ts, t = pad ∨ ¬ pad <:+: t) →
      Decoded E (.ctc pad delim false) (ts.map encStr) (((withoutRepeats ts).filter (fun t => t ≠ pad ∧ t ≠ [])).map encStr)
  | ctcWords (pad delim : Str) (ts : List Str) : pad ≠ [] → delim ≠ [] → (∀ t ∈ ts, t = pad ∨ ¬ pad <:+: t) →
      (∀ t ∈ ts, t = delim ∨ ¬ delim <:+: t) → (∀ t ∈ ts, ' ' ∉ t) → Decoded E (.ctc pad delim true) (ts.map encStr)
        ((((withoutRepeats ts).filter (fun t => t ≠ pad ∧ t ≠ [])).map (fun t => if t = delim then [' '] else t)).map encStr)
  | replace (w content : Str) (uss : List (List (Str × Bool))) : w ≠ [] → (∀ us ∈ uss, WordCut w us) →
      Decoded E (.replace false w content) (uss.map (fun us => encStr (textOf us)))
        (uss.map (fun us => encStr (replacedText content us)))
  | fuse (ts : List Str) : Decoded E .fuse (ts.map encStr) [encStr ts.flatten]
  | strip (x : Char) (start stop : Nat) (ps : List (Nat × Str × Nat)) :
      (∀ p ∈ ps, p.2.1.head? ≠ none ∧ p.2.1.head? ≠ some x ∧ p.2.1.getLast? ≠ some x) →
      Decoded E (.strip [x] start stop) (ps.map (fun p => encStr (List.replicate p.1 x ++ p.2.1 ++ List.replicate p.2.2 x)))
        (ps.map (fun p => encStr (List.replicate (p.1 - start) x ++ p.2.1 ++ List.replicate (p.2.2 - stop) x)))
  | byteFallback (ts out : List Bytes) : ByteDecoded ts out → Decoded E .byteFallback ts out
  | none (ts : List Bytes) : Decoded E (.sequence []) ts ts
  | first (c : DecCfg) (l : List DecCfg) (ts us out : List Bytes) : Decoded E c ts us → Decoded E (.sequence l) us out →
      Decoded E (.sequence (c :: l)) ts out

/-! ### Helpers -/

theorem replaceAll_free {w new t : Str} (hw : w ≠ []) (h : ¬ w <:+: t) : replaceAll w new t = t := by
  simp only [replaceAll, hw, if_false]
  have := replaceNE_skip w new t [] (fun k _ hp => h (by
    rw [List.append_nil] at hp
    exact hp.isInfix.trans (List.drop_suffix k t).isInfix))
  simpa [replaceNE] using this

theorem replaceAll_whole {w new : Str} (hw : w ≠ []) : replaceAll w new w = new := by
  simp only [replaceAll, hw, if_false, replaceNE_self _ _ hw]

theorem suffix_shown {suf new p r : Str} (hs : suf ≠ []) (h : SuffixShown suf new p r) : replaceAll suf new p = r := by
  rcases h with ⟨q, rfl, h1, rfl⟩ | ⟨h1, rfl⟩
  · exact replaceAll_end _ hs h1
  · exact replaceAll_free hs h1

theorem bpe_shown {suf : Str} (hs : suf ≠ []) {t r : Str} (ht : SuffixShown suf [] t r) {ts rs : List Str}
    (h : List.Forall₂ (SuffixShown suf [' ']) ts rs) : ∀ n i, i + ts.length + 1 = n →
      bpeDecode suf n i (ts ++ [t]) = rs ++ [r] := by
  induction h with
  | nil =>
    intro n i e
    simp only [List.nil_append, bpeDecode]
    rw [if_pos (by simpa using e), suffix_shown hs ht]
  | @cons a b ts rs h1 _ ih =>
    intro n i e
    simp only [List.length_cons] at e
    simp only [List.cons_append, bpeDecode]
    rw [if_neg (by omega), suffix_shown hs h1, ih n (i + 1) (by omega)]

theorem pieces_shown (pre : Str) (ts : List Str) : ∀ i, 0 < i → wpDecode pre none i ts = ts.map (pieceShown pre) := by
  induction ts with
  | nil => intro i _; rfl
  | cons t ts ih =>
    intro i hi
    simp only [wpDecode, List.map_cons, ih (i + 1) (by omega), pieceShown]
    rw [if_pos (by omega)]
    by_cases h : pre <+: t
    · rw [if_pos (List.isPrefixOf_iff_prefix.mpr h), if_pos h]
    · rw [if_neg (fun hh => h (List.isPrefixOf_iff_prefix.mp hh)), if_neg h]

theorem pieces_clean (pre t : Str) (h : ' ' ∉ t) : cleanupText (pieceShown pre t) = pieceClean pre t := by
  unfold pieceShown pieceClean
  split
  · exact (C39_cleanup _ (fun hh => h (List.mem_of_mem_drop hh))).1
  · exact (C39_cleanup t h).2

theorem onText_enc {f : List Str → Res (List Str)} {ts rs : List Str} (h : f ts = .ok rs) :
    onText f (ts.map encStr) = .ok (rs.map encStr) := by
  have : (ts.map encStr).map decStr = ts := by
    rw [List.map_map]
    conv => rhs; rw [← List.map_id ts]
    exact List.map_congr_left (fun t _ => decStr_enc t)
  unfold onText
  rw [this, h]
  rfl

theorem meta_later (m : Metaspace) (r : Char) (hrep : m.rep = [r]) (ts : List Str) : ∀ k, (k = 0 → m.addPrefix = false) →
    (ts.zipIdx k).map (fun p => m.decodeToken p.2 p.1) = ts.map (List.map (fun c => if c = r then ' ' else c)) := by
  induction ts with
  | nil => intro k _; rfl
  | cons t ts ih =>
    intro k hk
    rw [List.zipIdx_cons, List.map_cons, List.map_cons, ih (k + 1) (by omega), decodeToken_later m r hrep k hk]
    rfl

theorem meta_first (m : Metaspace) (r : Char) (hrep : m.rep = [r]) (ha : m.addPrefix = true) (t : Str) :
    m.decodeToken 0 t = t.filter (· ≠ r) := by
  unfold Metaspace.decodeToken
  induction t with
  | nil => rfl
  | cons c t ih =>
    rw [List.flatMap_cons, ih, hrep]
    by_cases h : c = r
    · simp [h, ha]
    · simp [h]

theorem mem_withoutRepeats {ts : List Str} {t : Str} (h : t ∈ withoutRepeats ts) : t ∈ ts := by
  obtain ⟨p, hp, rfl⟩ := List.mem_map.mp h
  exact (List.of_mem_zip (List.mem_filter.mp hp).1).1

theorem ctc_words (pad delim : Str) (hp : pad ≠ []) (hd : delim ≠ []) (ts : List Str) (h1 : ∀ t ∈ ts, t = pad ∨ ¬ pad <:+: t)
    (h2 : ∀ t ∈ ts, t = delim ∨ ¬ delim <:+: t) (h3 : ∀ t ∈ ts, ' ' ∉ t) :
    ctcChain pad delim true ts =
      ((withoutRepeats ts).filter (fun t => t ≠ pad ∧ t ≠ [])).map (fun t => if t = delim then [' '] else t) := by
  rw [C39_ctc pad delim true hd]
  have hsub : ∀ t ∈ withoutRepeats ts, t ∈ ts := fun t ht => mem_withoutRepeats ht
  revert hsub
  generalize withoutRepeats ts = us
  intro hsub
  have hnil : replaceAll delim [' '] (cleanupText []) = [] := by
    rw [(C39_cleanup [] (by simp)).1]
    exact replaceAll_free hd (fun h => hd (List.infix_nil.mp h))
  induction us with
  | nil => rfl
  | cons t us ih =>
    have ht := hsub t (by simp)
    rw [List.map_cons, List.filter_cons, List.filter_cons, ih (fun x hx => hsub x (by simp [hx]))]
    by_cases he : t = pad
    · subst he
      have : ctcText t delim true t = [] := by
        simp only [ctcText, if_true, replaceAll_whole hp, hnil]
      simp [this]
    · have hf : ¬ pad <:+: t := (h1 t ht).resolve_left he
      have : ctcText pad delim true t = if t = delim then [' '] else t := by
        simp only [ctcText, if_true, replaceAll_free hp hf, (C39_cleanup t (h3 t ht)).1]
        by_cases hdl : t = delim
        · rw [if_pos hdl, hdl, replaceAll_whole hd]
        · rw [if_neg hdl, replaceAll_free hd ((h2 t ht).resolve_left hdl)]
      rw [this]
      cases t with
      | nil => simp [Ne.symm hd]
      | cons c cs =>
        by_cases hdl : c :: cs = delim
        · simp [hdl, hd, show ¬ delim = pad from hdl ▸ he]
        · simp [hdl, he]

theorem strip_all (x : Char) (start stop : Nat) (ps : List (Nat × Str × Nat))
    (h : ∀ p ∈ ps, p.2.1.head? ≠ none ∧ p.2.1.head? ≠ some x ∧ p.2.1.getLast? ≠ some x) :
    stripChain [x] start stop (ps.map fun p => List.replicate p.1 x ++ p.2.1 ++ List.replicate p.2.2 x) =
      .ok (ps.map fun p => List.replicate (p.1 - start) x ++ p.2.1 ++ List.replicate (p.2.2 - stop) x) := by
  induction ps with
  | nil => rfl
  | cons p ps ih =>
    obtain ⟨a, m, b⟩ := p
    obtain ⟨h1, h2, h3⟩ := h _ List.mem_cons_self
    cases m with
    | nil => simp at h1
    | cons y m =>
      have hz : ∃ z, (y :: m).getLast? = some z := ⟨(y :: m).getLast (by simp), List.getLast?_eq_some_getLast (by simp)⟩
      obtain ⟨z, hz⟩ := hz
      rw [List.map_cons, List.map_cons, stripChain, C39_strip_partial x start stop a b (y :: m) y z rfl
        (fun e => h2 (by simp [e])) hz (fun e => h3 (by rw [hz, e])), ih (fun q hq => h q (List.mem_cons_of_mem _ hq))]

/-- Decoders made of what a file says give what they should. -/
theorem chain_decoded {E : FileEnv} {c : DecCfg} {ts out : List Bytes} (h : Decoded E c ts out) : chainFn E c ts = .ok out := by
  induction h with
  | bpe suf ts t rs r hs h1 h2 =>
    simp only [chainFn]
    refine onText_enc ?_
    rw [bpe_shown hs h2 h1 _ _ (by simp)]
  | byteLevel a t bs ho => simp only [chainFn, C26_decodeChain _ ho]
  | wordPiece pre t ts =>
    simp only [chainFn]
    refine onText_enc ?_
    simp only [wpDecodeChain, wpDecode, Bool.false_eq_true, if_false]
    rw [pieces_shown _ _ _ (by omega)]
    rfl
  | cleaned pre t ts h =>
    simp only [chainFn]
    refine onText_enc ?_
    simp only [if_true, wpDecodeChain, wpDecode_clean, wpDecode]
    rw [pieces_shown _ _ _ (by omega), if_neg (by simp), (C39_cleanup t (h t (by simp))).1, List.map_map]
    congr 2
    exact List.map_congr_left (fun x hx => pieces_clean pre x (h x (by simp [hx])))
  | metaspace r ts =>
    simp only [chainFn]
    refine onText_enc ?_
    exact congrArg Res.ok (meta_later _ r rfl ts 0 (fun _ => rfl))
  | prefixed r t ts =>
    simp only [chainFn]
    refine onText_enc ?_
    refine congrArg Res.ok ?_
    unfold Metaspace.decodeChain
    rw [List.zipIdx_cons, List.map_cons, meta_later _ r rfl ts 1 (by omega), meta_first _ r rfl rfl]
  | ctc pad delim ts hp hd h =>
    simp only [chainFn]
    refine onText_enc ?_
    refine congrArg Res.ok ?_
    exact C39_ctc_pads pad delim hd hp ts (fun t ht => (h t ht).imp id (fun h k hk =>
      h (hk.isInfix.trans (List.drop_suffix k t).isInfix)))
  | ctcWords pad delim ts hp hd h1 h2 h3 =>
    simp only [chainFn]
    exact onText_enc (congrArg Res.ok (ctc_words pad delim hp hd ts h1 h2 h3))
  | replace w content uss hw h =>
    simp only [chainFn]
    rw [replacePat, if_neg (by simp), Norm.C109_string, List.map_map]
    refine congrArg Res.ok (List.map_congr_left (fun us hus => ?_))
    exact replaceBytes_cut hw content (h us hus)
  | fuse ts =>
    simp only [chainFn]
    exact onText_enc (rs := [ts.flatten]) rfl
  | strip x start stop ps h =>
    simp only [chainFn]
    have := onText_enc (strip_all x start stop ps h)
    rw [List.map_map, List.map_map] at this
    exact this
  | byteFallback ts out h => simp only [chainFn]; exact C38_decode ts out h
  | none ts => simp only [chainFn, chainFns]
  | first c l ts us out _ _ ih1 ih2 =>
    simp only [chainFn] at ih2
    simp only [chainFn, chainFns, ih1, Res.bind_ok, ih2]

theorem decode_decoded {E : FileEnv} {c : DecCfg} {ts out : List Bytes} (h : Decoded E c ts out) :
    decodeFn E c ts = .ok out.flatten := by
  have key := chain_decoded h
  cases h with
  | byteLevel a t bs ho =>
    simp only [decodeFn]
    refine congrArg Res.ok (C26_decode _ ho _ _ ?_)
    clear key
    induction out with
    | nil => rfl
    | cons x bs ih =>
      rw [List.map_cons, List.flatten_cons, ih, List.flatten_cons, ← encStr_append]
      congr 1
      exact (List.map_append ..).symm
  | _ => simp only [decodeFn, key, Res.bind_ok]

theorem kept_ids (T : VocabState) (skip : Bool) (ids : List Int) : T.decodeTokens skip ids =
    (ids.filterMap T.idToToken).filter (fun t => !(skip && T.isSpecial t)) := by
  induction ids with
  | nil => rfl
  | cons i ids ih =>
    rw [VocabState.decodeTokens, List.filterMap_cons]
    cases T.idToToken i with
    | none => exact ih
    | some t => cases skip <;> cases h : T.isSpecial t <;> simp [ih, h]

theorem joinStr_intercalate (l : List Str) : VocabState.joinStr [' '] l = List.intercalate [' '] l := by
  induction l with
  | nil => rfl
  | cons a l ih =>
    cases l with
    | nil => simp [VocabState.joinStr]
    | cons b l => rw [VocabState.joinStr, ih, List.intercalate_cons_cons]

theorem file_decoder {E : FileEnv} {c : FileConfig} {b : Built} (h : fromReader E (some c) = .ok b) :
    ∃ dc, fromSection createDec c.decoder = .ok dc ∧ b.decoder = dc.map (decodeFn E) := by
  unfold fromReader at h
  obtain ⟨_, _, h⟩ := Res.bind_eq_ok.mp h
  obtain ⟨_, _, h⟩ := Res.bind_eq_ok.mp h
  obtain ⟨_, _, h⟩ := Res.bind_eq_ok.mp h
  obtain ⟨_, _, h⟩ := Res.bind_eq_ok.mp h
  obtain ⟨dc, h4, h⟩ := Res.bind_eq_ok.mp h
  obtain ⟨_, _, h⟩ := Res.bind_eq_ok.mp h
  obtain ⟨_, _, h⟩ := Res.bind_eq_ok.mp h
  obtain ⟨_, _, h⟩ := Res.bind_eq_ok.mp h
  obtain ⟨_, _, h⟩ := Res.bind_eq_ok.mp h
  cases h
  exact ⟨dc, h4, rfl⟩

/-! ### The property -/

/-- C136: the decoder that a file describes decides what decoded ids become: those that are no ids go, with the flag the special
tokens go too, and the others become what the decoder makes of their tokens, one after the other. Missing: `Replace` with a
regular expression, clean-up of tokens with spaces, tokens that contain the pad or the delimiter of CTC inside, replacements of
more than one character in `Metaspace`, and tokens of nothing but the character to be stripped (C39). -/
theorem C136_decoder_partial (E : FileEnv) (c : FileConfig) (b : Built) (hb : fromReader E (some c) = .ok b)
    (m : List (Str × Val)) (hm : c.decoder = some m) (d : DecCfg) (hd : DecDesc m d) (ids : List Int) (skip : Bool)
    (out : List Bytes)
    (hout : Decoded E d (((ids.filterMap b.state.idToToken).filter (fun t => !(skip && b.state.isSpecial t))).map encStr) out) :
    b.decode ids skip = .ok out.flatten := by
  obtain ⟨dc, h1, h2⟩ := file_decoder hb
  rw [hm, fromSection, C70_decoder_partial m d hd] at h1
  cases h1
  unfold Built.decode
  rw [h2, kept_ids]
  exact decode_decoded hout

/-- C136 (no decoder): without a decoder the tokens are joined with spaces. -/
theorem C136_no_decoder (E : FileEnv) (c : FileConfig) (b : Built) (hb : fromReader E (some c) = .ok b)
    (hm : c.decoder = none) (ids : List Int) (skip : Bool) :
    b.decode ids skip = .ok (encStr (List.intercalate [' ']
      ((ids.filterMap b.state.idToToken).filter (fun t => !(skip && b.state.isSpecial t))))) := by
  obtain ⟨dc, h1, h2⟩ := file_decoder hb
  rw [hm] at h1
  cases h1
  unfold Built.decode
  rw [h2, kept_ids]
  exact congrArg (fun s => Res.ok (encStr s)) (joinStr_intercalate _)

/-! ### A case -/

def exampleSpeechVocab : List (Str × Int) := [("<pad>".toList, 0), ("|".toList, 1), (['a'], 2), (['b'], 3)]

/-- The section "decoder": CTC, and then only one text. -/
def exampleSpeechDec : List (Str × Val) :=
  [("type".toList, .str "Sequence".toList), ("decoders".toList, .arr ([
    [("type".toList, .str "CTC".toList), ("pad_token".toList, .str "<pad>".toList), ("word_delimiter".toList, .str "|".toList),
     ("cleanup".toList, .bool true)],
    [("type".toList, .str "Fuse".toList)]].map .obj))]

/-- A file for the letters that a speech recognizer gives. -/
def exampleSpeechFile : FileConfig where
  model := some [("type".toList, .str "WordLevel".toList), ("vocab".toList, vocabVal exampleSpeechVocab)]
  decoder := some exampleSpeechDec
  normalizer := none
  preTokenizer := none
  postProcessor := none
  addedTokens := []
  truncation := none
  padding := none

theorem exampleSpeech_desc : DecDesc exampleSpeechDec (.sequence [.ctc "<pad>".toList "|".toList true, .fuse]) := by
  refine .sequence _ _ _ (by unfold TypeIs; rfl) rfl rfl ?_
  intro i x c hx hc
  match i with
  | 0 => cases hx; cases hc; exact .ctc _ _ _ _ (by unfold TypeIs; rfl) (by unfold StrIs; rfl) (by unfold StrIs; rfl) (by rfl)
  | 1 => cases hx; cases hc; exact .fuse _ (by unfold TypeIs; rfl)
  | n + 2 => cases hc

theorem exampleSpeech_decoded (E : FileEnv) : Decoded E (.sequence [.ctc "<pad>".toList "|".toList true, .fuse])
    ((["a", "a", "<pad>", "a", "|", "|", "b", "<pad>"].map String.toList).map encStr) [encStr "aa b".toList] :=
  .first _ _ _ ((["a", "a", " ", "b"].map String.toList).map encStr) _
    (.ctcWords "<pad>".toList "|".toList (["a", "a", "<pad>", "a", "|", "|", "b", "<pad>"].map String.toList) (by decide) (by decide)
      (by decide +kernel) (by decide +kernel) (by decide +kernel))
    (.first _ _ _ _ _ (.fuse (["a", "a", " ", "b"].map String.toList)) (.none _))

-- the letters "aab", twice the same and pads between them, and an id that is none
example (E : FileEnv) : ∃ b, fromReader E (some exampleSpeechFile) = .ok b ∧
    b.decode [2, 2, 0, 2, 1, 1, 17, 3, 0] false = .ok (encStr "aa b".toList) := by
  obtain ⟨b, hb⟩ : ∃ b, fromReader E (some exampleSpeechFile) = .ok b ∧
      ([2, 2, 0, 2, 1, 1, 17, 3, 0].filterMap b.state.idToToken).filter (fun t => !(false && b.state.isSpecial t)) =
        ["a", "a", "<pad>", "a", "|", "|", "b", "<pad>"].map String.toList :=
    ⟨_, fromReader_ok rfl rfl rfl rfl (congrArg (Res.bind · (fun x => .ok (some x))) (C70_decoder_partial _ _ exampleSpeech_desc)) rfl rfl rfl rfl, rfl⟩
  refine ⟨b, hb.1, ?_⟩
  have := C136_decoder_partial E _ b hb.1 _ rfl _ exampleSpeech_desc [2, 2, 0, 2, 1, 1, 17, 3, 0] false
    [encStr "aa b".toList] (by rw [hb.2]; exact exampleSpeech_decoded E)
  rw [this]
  simp

example (E : FileEnv) (ho : E.charOrder.Perm bytesCharMap) (a t : Bool) :
    Decoded E (.byteLevel a t) [encStr (byteLevelImage (encStr "é ".toList))] [encStr "é ".toList] :=
  .byteLevel a t [encStr "é ".toList] ho

example (E : FileEnv) : Decoded E (.wordPiece "##".toList true) (["it", "'s", "up", "##on", "me", "!"].map (encStr ·.toList))
    (["it", "'s", " up", "on", " me", "!"].map (encStr ·.toList)) :=
  .cleaned "##".toList "it".toList (["'s", "up", "##on", "me", "!"].map String.toList) (by decide)

example (E : FileEnv) : Decoded E (.bpe "</w>".toList) (["up", "on</w>", "me</w>"].map (encStr ·.toList))
    (["up", "on ", "me"].map (encStr ·.toList)) :=
  .bpe "</w>".toList ["up".toList, "on</w>".toList] "me</w>".toList ["up".toList, "on ".toList] "me".toList (by decide)
    (.cons (.inr ⟨by decide +kernel, rfl⟩) (.cons (.inl ⟨"on".toList, rfl, by
      intro k hk
      match k, hk with
      | 0, _ => decide
      | 1, _ => decide, rfl⟩) .nil)) (.inl ⟨"me".toList, rfl, by
      intro k hk
      match k, hk with
      | 0, _ => decide
      | 1, _ => decide, rfl⟩)

example (E : FileEnv) : Decoded E (.metaspace ['▁'] true) (["▁a", "b▁c"].map (encStr ·.toList))
    (["a", "b c"].map (encStr ·.toList)) :=
  .prefixed '▁' "▁a".toList ["b▁c".toList]

example (E : FileEnv) : Decoded E (.strip ['-'] 1 0) (["--a-b-"].map (encStr ·.toList)) (["-a-b-"].map (encStr ·.toList)) :=
  .strip '-' 1 0 [(2, "a-b".toList, 1)] (by simp)

example (E : FileEnv) : Decoded E (.replace false "--".toList "+".toList) (["a---"].map (encStr ·.toList))
    (["a+-"].map (encStr ·.toList)) :=
  .replace "--".toList "+".toList [[(['a'], false), ("--".toList, true), (['-'], false)]] (by decide) (by
    intro us hus
    cases List.mem_singleton.mp hus
    refine .gap _ _ (by simp) ?_ (by simp) (.hit _ (.gap _ _ (by simp) ?_ (by simp) .nil))
    all_goals
      intro u v h hv
      rcases u with _ | ⟨x, u⟩
      · cases h; decide
      · injection h with _ h
        rcases u with _ | ⟨y, u⟩
        · exact absurd (by simpa using h.symm) hv
        · cases h)

end Tok.Whole
