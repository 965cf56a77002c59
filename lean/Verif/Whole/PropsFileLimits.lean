import Verif.Whole.PropsFileBertPlaces
import Verif.Whole.PropsBatch

/-!
# C138: the sections "truncation" and "padding" of a file, overflowing parts and pairs

`PropsFileLength` has the length and the first tokens for single texts; here are all windows of a text, and pairs.
-/

namespace Tok.Whole

open Tok.PreTok Tok.Added Tok.Config
open Tok.Norm (okAnd okAnd_spec)

/-! ### Specification -/

/-- The file without its sections "truncation" and "padding". -/
def unlimited (c : FileConfig) : FileConfig := { c with truncation := none, padding := none }

/-- The object asks for at most `L` tokens and an overlap of `stride`, not with the strategy that cuts only the second text. -/
structure CutsAt (q : List (Str × Val)) (L stride : Nat) : Prop where
  length : get q "max_length" = .float ((L : Int) : Rat)
  stride : get q "stride" = .float ((stride : Int) : Rat)
  strategy : ∃ st, st ≠ TruncStrategy.onlySecond ∧ get q "strategy" = .str (strategyName st)

/-- The object asks for padding on the right with this token: to a fixed size, or (`none`) to the longest of the batch. -/
structure PadsTo (q : List (Str × Val)) (size : Option Int) (id ty : Int) (token : Str) : Prop where
  size : match size with
    | some n => get q "strategy" = .obj [("Fixed".toList, .float n)]
    | none => get q "strategy" = .str "BatchLongest".toList
  direction : get q "direction" = .str "Right".toList ∨ get q "direction" = .null
  id : get q "pad_id" = .float id
  ty : get q "pad_type_id" = .float ty
  token : get q "pad_token" = .str token

/-- The post-processor of the file puts these tokens before and after a text: there is none, it is BertProcessing, or it is a
template of type id 0. -/
inductive Frames : Option (List (Str × Val)) → List (Str × Int) → List (Str × Int) → Prop
  | none : Frames none [] []
  | bert (q : List (Str × Val)) (cls sep : Str × Int) : TypeIs q "BertProcessing" → TokenIs q "cls" cls → TokenIs q "sep" sep →
      Frames (some q) [cls] [sep]
  | template (q : List (Str × Val)) (before after : List (Str × Int)) (pair : List Piece) (toks : List SpecialToken) :
      TypeIs q "TemplateProcessing" → get q "single" = .arr ((surround before after 0).map pieceVal) →
      get q "pair" = .arr (pair.map pieceVal) → get q "special_tokens" = .obj (toks.map tokenVal) →
      (toks.map (·.id)).Nodup → (∀ p ∈ before ++ after, ⟨p.1, [p.2], [p.1]⟩ ∈ toks) → Frames (some q) before after

/-- `r` is `w` between the tokens. -/
structure Framed (before after : List (Str × Int)) (w r : Encoding) : Prop where
  ids : r.ids = before.map (·.2) ++ w.ids ++ after.map (·.2)
  tokens : r.tokens = before.map (·.1) ++ w.tokens ++ after.map (·.1)
  offsets : r.offsets = before.map (fun _ => (0, 0)) ++ w.offsets ++ after.map (fun _ => (0, 0))
  typeIds : r.typeIds = before.map (fun _ => 0) ++ w.typeIds ++ after.map (fun _ => 0)
  specialMask : r.specialMask = before.map (fun _ => 1) ++ w.specialMask ++ after.map (fun _ => 1)
  attentionMask : r.attentionMask = before.map (fun _ => 1) ++ w.attentionMask ++ after.map (fun _ => 1)

/-- The number of tokens that the post-processor says it adds (its method `AddedTokens`). -/
def announced (t : Tokenizer) (isPair : Bool) : Nat :=
  match t.processor with
  | none => 0
  | some p => p.addedTokens isPair

/-- The text, or both texts of the pair, have fewer than `L` tokens together with those that the post-processor adds. -/
def Below (t : Tokenizer) (L : Int) : EncodeInput → Prop
  | .single s => ∀ e, t.tk.encodeSingle s 0 .byte = .ok e → (e.ids.length : Int) + announced t false < L
  | .dual s p => ∀ e d, t.tk.encodeSingle s 0 .byte = .ok e → t.tk.encodeSingle p 1 .byte = .ok d →
      (e.ids.length : Int) + d.ids.length + announced t true < L

/-! ### Lemmas -/

theorem reader_limits (E : FileEnv) (c : FileConfig) : fromReader E (some c) = (do
    let b ← fromReader E (some (unlimited c))
    let tr ← createTruncation c.truncation
    .ok { b with tok := { b.tok with trunc := tr, padding := createPadding c.padding } }) := by
  simp only [fromReader, unlimited]
  repeat (first
    | rfl
    | (generalize createModel _ _ = x; cases x <;> simp only [Res.bind_ok, Res.bind_err, Res.bind_panic])
    | (generalize fromSection _ _ = x; cases x <;> simp only [Res.bind_ok, Res.bind_err, Res.bind_panic])
    | (generalize loadAdded _ _ = x; cases x <;> simp only [Res.bind_ok, Res.bind_err, Res.bind_panic])
    | (generalize buildSet _ _ _ _ = x; cases x <;> simp only [Res.bind_ok, Res.bind_err, Res.bind_panic, createTruncation, createPadding]))

theorem unlimited_tok {E : FileEnv} {c : FileConfig} {b : Built} (h : fromReader E (some (unlimited c)) = .ok b) :
    b.tok.trunc = none ∧ b.tok.padding = none ∧ ∃ pc, fromSection createProc c.postProcessor = .ok pc ∧ b.tok.processor = pc.map procFn := by
  simp only [fromReader, unlimited] at h
  obtain ⟨a, _, h⟩ := Res.bind_eq_ok.mp h
  obtain ⟨a, _, h⟩ := Res.bind_eq_ok.mp h
  obtain ⟨a, _, h⟩ := Res.bind_eq_ok.mp h
  obtain ⟨pc, hp, h⟩ := Res.bind_eq_ok.mp h
  obtain ⟨a, _, h⟩ := Res.bind_eq_ok.mp h
  obtain ⟨a, _, h⟩ := Res.bind_eq_ok.mp h
  obtain ⟨a, _, h⟩ := Res.bind_eq_ok.mp h
  obtain ⟨a, _, h⟩ := Res.bind_eq_ok.mp h
  obtain ⟨tr, ht, h⟩ := Res.bind_eq_ok.mp h
  cases ht
  cases h
  exact ⟨rfl, rfl, pc, hp, rfl⟩

theorem Sliding.congr {m s : Nat} {full full' : Encoding} {ws : List Encoding} (h : Sliding m s full ws)
    (e : ∀ f, full'.arr f = full.arr f) : Sliding m s full' ws := by
  have hl : full'.ids.length = full.ids.length := congrArg List.length (e .ids)
  exact ⟨fun k x hk f => by rw [h.at' k x hk f, e f], h.some', by rw [hl]; exact h.covers, fun k hk => by rw [hl]; exact h.needed k hk⟩

theorem surround_around (before after : List (Str × Int)) (ty : Int) :
    surround before after ty = around (before.map (fun p => (p.1, ty))) ty (after.map (fun p => (p.1, ty))) := by
  simp only [surround, around, List.map_map]
  rfl

theorem specials_map {tab : TokenTable} {f : Field} (l : List (Str × Int)) (ty : Int)
    (h : ∀ p ∈ l, tab p.1 = some ⟨p.1, [p.2], [p.1]⟩) (g : Str × Int → f.Ty)
    (hg : ∀ p : Str × Int, specialArr ⟨p.1, [p.2], [p.1]⟩ ty f = [g p]) :
    specials tab true f (l.map (fun p => (p.1, ty))) = l.map g := by
  simp only [specials, if_true]
  induction l with
  | nil => rfl
  | cons p l ih =>
    simp only [List.map_cons, List.flatMap_cons, h p (by simp), hg]
    rw [ih (fun q hq => h q (by simp [hq]))]
    rfl

theorem countAdded_append (a b : List Piece) (tab : TokenTable) : countAdded (a ++ b) tab = countAdded a tab + countAdded b tab := by
  induction a with
  | nil => simp [countAdded]
  | cons p a ih => cases p <;> simp only [List.cons_append, countAdded, ih] <;> omega

theorem countAdded_framed {tab : TokenTable} (l : List (Str × Int)) (ty : Int)
    (h : ∀ p ∈ l, tab p.1 = some ⟨p.1, [p.2], [p.1]⟩) : countAdded (l.map (fun p => Piece.special p.1 ty)) tab = l.length := by
  induction l with
  | nil => rfl
  | cons p l ih =>
    simp only [List.map_cons, countAdded, h p (by simp), ih (fun q hq => h q (by simp [hq])), List.length_cons, List.length_nil]
    exact Nat.add_comm _ _

/-- What truncation gives with such a post-processor. -/
theorem frames_windows {o : Option (List (Str × Val))} {before after : List (Str × Int)} (h : Frames o before after) :
    ∃ pc, fromSection createProc o = .ok pc ∧
      (∀ (t : Tokenizer), t.processor = pc.map procFn → t.trunc = none → t.padding = none → ∀ x full,
        t.encode (.single x) false = .ok (some full) → ∃ e, t.tk.encodeSingle x 0 .byte = .ok e ∧ ∀ f, full.arr f = e.arr f) ∧
      ∀ (t : Tokenizer), t.processor = pc.map procFn → t.padding = none → ∀ (L stride : Nat) st, t.trunc = some ⟨L, st, stride⟩ →
        st ≠ .onlySecond → stride + (before.length + after.length) < L → ∀ x e, t.tk.encodeSingle x 0 .byte = .ok e → ∃ r ws,
        t.encode (.single x) true = .ok (some r) ∧ Sliding (L - (before.length + after.length)) stride e ws ∧
        List.Forall₂ (Framed before after) ws (r :: r.overflowing) := by
  cases h with
  | none =>
    refine ⟨none, rfl, ?_, ?_⟩
    · intro t hp htr hpad x full hf
      simp only [Tokenizer.encode, Tokenizer.encodeWith, htr, hpad, hp] at hf
      obtain ⟨e, he, hf⟩ := Res.bind_eq_ok.mp hf
      cases hf
      exact ⟨_, he, fun _ => rfl⟩
    · intro t hp hpad L stride st htr hst hs x e he
      obtain ⟨r, h1, h2⟩ := C97_windows_plain t hpad (.inl hp) L stride st htr hst (by simpa using hs) .byte x e he
      have : t.encode (.single x) true = t.encodeWith .byte (.single x) false := by
        simp [Tokenizer.encode, Tokenizer.encodeWith, postProcess, postTruncate, htr, hpad, hp]
      refine ⟨r, r :: r.overflowing, this.trans h1, h2, ?_⟩
      generalize r :: r.overflowing = l
      induction l with
      | nil => exact .nil
      | cons w l ih => exact .cons ⟨by simp, by simp, by simp, by simp, by simp, by simp⟩ ih
  | bert q cls sep h1 h2 h3 =>
    refine ⟨_, fromSection_some (C70_postProcessor q _ (.bert q sep cls h1 h3 h2)), ?_, ?_⟩
    · intro t hp htr hpad x full hf
      simp only [Tokenizer.encode, Tokenizer.encodeWith, htr, hpad, hp] at hf
      obtain ⟨e, he, hf⟩ := Res.bind_eq_ok.mp hf
      rw [Option.map_some, procFn] at hf
      cases hf
      exact ⟨_, he, fun _ => rfl⟩
    · intro t hp hpad L stride st htr hst hs x e he
      rw [Option.map_some, procFn] at hp
      obtain ⟨r, ws, k1, k2, k3, _⟩ := C97_windows t hpad _ hp L stride st htr hst (by simpa using hs) .byte x e he
      refine ⟨r, ws, k1, k2, ?_⟩
      refine k3.imp ?_
      intro w r' hw
      exact ⟨hw .ids, hw .tokens, hw .offsets, hw .typeIds, hw .specialMask, hw .attentionMask⟩
  | template q before after pair toks h0 h1 h2 h3 h4 h5 =>
    obtain ⟨tp, g1, g2, g3, g4, g5⟩ := C52_processor q _ pair toks h1 h2 h3 h4
    have htab : ∀ p ∈ before ++ after, tp.tab p.1 = some ⟨p.1, [p.2], [p.1]⟩ := fun p hp => g4 _ (h5 p hp)
    have hb : ∀ p ∈ before, tp.tab p.1 = some ⟨p.1, [p.2], [p.1]⟩ := fun p hp => htab p (by simp [hp])
    have ha : ∀ p ∈ after, tp.tab p.1 = some ⟨p.1, [p.2], [p.1]⟩ := fun p hp => htab p (by simp [hp])
    rw [surround_around] at g2
    have hadd : tp.addedTokens false = before.length + after.length := by
      simp only [TemplateProc.addedTokens, Bool.false_eq_true, if_false, g2]
      rw [← surround_around, surround, countAdded_append, countAdded_append, countAdded_framed _ _ hb, countAdded_framed _ _ ha]
      simp [countAdded]
    refine ⟨_, fromSection_some (C70_postProcessor q _ (.template q tp h0 g1)), ?_, ?_⟩
    · intro t hp htr hpad x full hf
      simp only [Tokenizer.encode, Tokenizer.encodeWith, htr, hpad, hp] at hf
      obtain ⟨e, he, hf⟩ := Res.bind_eq_ok.mp hf
      refine ⟨e, he, ?_⟩
      obtain ⟨rows, rfl⟩ := encodeSingle_ofRows he
      obtain ⟨r, k1, k2, _⟩ := template_around tp g2 false (by simp) (ofRows rows 0) (ofRows_delivered rows 0).usable
      simp only [Option.map_some, procFn, postProcess, postTruncate, Res.bind_ok, TemplateProc.toProcessor, k1] at hf
      cases hf
      intro f
      rw [k2 f]
      cases f <;> simp [specials, seqArr, Encoding.arr, ofRows]
    · intro t hp hpad L stride st htr hst hs x e he
      rw [Option.map_some, procFn] at hp
      obtain ⟨r, ws, k1, k2, k3⟩ := C97_windows_template t hpad tp hp g2 true (by
        intro _ p hp
        simp only [List.mem_append, List.mem_map] at hp
        rcases hp with ⟨p, hp, rfl⟩ | ⟨p, hp, rfl⟩
        · exact ⟨_, hb p hp⟩
        · exact ⟨_, ha p hp⟩) L stride st htr hst (by simpa [hadd] using hs) .byte x e he
      simp only [if_true, hadd] at k2
      refine ⟨r, ws, k1, k2, k3.imp ?_⟩
      intro w r' hw
      constructor
      · simpa [specials_map (f := .ids) before 0 hb (fun p => p.2) (fun _ => rfl), Encoding.arr,
          specials_map (f := .ids) after 0 ha (fun p => p.2) (fun _ => rfl)] using hw .ids
      · simpa [specials_map (f := .tokens) before 0 hb (fun p => p.1) (fun _ => rfl), Encoding.arr,
          specials_map (f := .tokens) after 0 ha (fun p => p.1) (fun _ => rfl)] using hw .tokens
      · have := hw .offsets
        rw [specials_map (f := .offsets) before 0 hb (fun _ => (0, 0)) (fun _ => rfl),
          specials_map (f := .offsets) after 0 ha (fun _ => (0, 0)) (fun _ => rfl)] at this
        exact this
      · have := hw .typeIds
        rw [specials_map (f := .typeIds) before 0 hb (fun _ => (0 : Int)) (fun _ => rfl),
          specials_map (f := .typeIds) after 0 ha (fun _ => (0 : Int)) (fun _ => rfl)] at this
        exact this
      · have := hw .specialMask
        rw [specials_map (f := .specialMask) before 0 hb (fun _ => (1 : Int)) (fun _ => rfl),
          specials_map (f := .specialMask) after 0 ha (fun _ => (1 : Int)) (fun _ => rfl)] at this
        exact this
      · have := hw .attentionMask
        rw [specials_map (f := .attentionMask) before 0 hb (fun _ => (1 : Int)) (fun _ => rfl),
          specials_map (f := .attentionMask) after 0 ha (fun _ => (1 : Int)) (fun _ => rfl)] at this
        exact this

theorem cutsAt {q : List (Str × Val)} {L stride : Nat} (h : CutsAt q L stride) :
    ∃ st, st ≠ .onlySecond ∧ createTruncation (some q) = .ok (some ⟨L, st, stride⟩) := by
  obtain ⟨st, h1, h2⟩ := h.strategy
  exact ⟨st, h1, C52_truncation_partial q L stride st h.length h.stride h2⟩

theorem padsTo {q : List (Str × Val)} {size : Option Int} {id ty : Int} {token : Str} (h : PadsTo q size id ty token) :
    createPadding (some q) = some ⟨(match size with | some n => .fixed n | none => .batchLongest), .right, id, ty, token⟩ := by
  obtain ⟨p, h1, h2, h3, _, _, _, _, _, _, h4, h5, _, h6, _, h7, _⟩ := C52_padding q
  rw [h1]
  obtain ⟨s, d, i, t, k⟩ := p
  dsimp only at h2 h3 h4 h5 h6 h7
  rw [h4 h.direction, h5 _ h.id, h6 _ h.ty, h7 _ h.token]
  cases size with
  | some n => rw [h2 n h.size]
  | none => rw [h3 h.size]

theorem sliding_fits {m s : Nat} {full : Encoding} {ws : List Encoding} (h : Sliding m s full ws) (ha : full.Aligned)
    (hle : full.ids.length ≤ m) : ∃ w, ws = [w] ∧ ∀ f, w.arr f = full.arr f := by
  match ws, h with
  | [], h => exact absurd rfl h.some'
  | [w], h =>
    refine ⟨w, rfl, fun f => ?_⟩
    rw [h.at' 0 w rfl f, Nat.zero_mul, List.drop_zero, List.take_of_length_le (by rw [ha f]; exact hle)]
  | w :: w' :: ws, h =>
    have := h.needed 0 (by simp)
    omega

theorem cut_read {E : FileEnv} {c : FileConfig} {q : List (Str × Val)} {L stride : Nat} (hq : c.truncation = some q)
    (hcut : CutsAt q L stride) {b : Built} (hb : fromReader E (some (unlimited c)) = .ok b) :
    ∃ st, st ≠ .onlySecond ∧ fromReader E (some c) =
      .ok { b with tok := { b.tok with trunc := some ⟨L, st, stride⟩, padding := createPadding c.padding } } := by
  obtain ⟨st, h1, h2⟩ := cutsAt hcut
  refine ⟨st, h1, ?_⟩
  rw [reader_limits, hb, hq, h2]
  rfl

/-! ### C138 -/

/-- C138: a readable section "truncation" and any section "padding" leave everything else of the tokenizer as it is: the
vocabulary, the decoder, and the encoding of texts before post-processing. -/
theorem C138_rest (E : FileEnv) (c : FileConfig) (b : Built) (hb : fromReader E (some (unlimited c)) = .ok b)
    (htr : c.truncation = none ∨ ∃ (q : List (Str × Val)) (L stride : Nat), c.truncation = some q ∧ CutsAt q L stride) :
    ∃ b', fromReader E (some c) = .ok b' ∧ b'.state = b.state ∧ b'.tok.tk = b.tok.tk ∧ b'.tok.processor = b.tok.processor ∧
      ∀ ids skip, b'.decode ids skip = b.decode ids skip := by
  rcases htr with htr | ⟨q, L, stride, hq, hcut⟩
  · refine ⟨{ b with tok := { b.tok with trunc := none, padding := createPadding c.padding } }, ?_, rfl, rfl, rfl, fun _ _ => rfl⟩
    rw [reader_limits, hb, htr]
    rfl
  · obtain ⟨st, _, h⟩ := cut_read hq hcut hb
    exact ⟨_, h, rfl, rfl, rfl, fun _ _ => rfl⟩

/-- C138 (padding): with a section "padding" on the right, whatever else is in the file, the encoding of every text or pair is the
one of the file without this section, followed by the pad token up to the size; with "BatchLongest" only the overflowing parts
that are shorter than the first part get pad tokens. -/
theorem C138_padding (E : FileEnv) (c : FileConfig) (q : List (Str × Val)) (size : Option Int) (id ty : Int) (token : Str)
    (hq : c.padding = some q) (hp : PadsTo q size id ty token) (b : Built)
    (hb : fromReader E (some { c with padding := none }) = .ok b) :
    ∃ b', fromReader E (some c) = .ok b' ∧ ∀ (x : EncodeInput) (special : Bool) (e : Encoding), b.tok.encode x special = .ok (some e) →
      ∃ e', b'.tok.encode x special = .ok (some e') ∧ RightPadded (size.getD e.ids.length) id ty token e e' ∧
        List.Forall₂ (RightPadded (size.getD e.ids.length) id ty token) e.overflowing e'.overflowing := by
  rw [reader_limits] at hb
  obtain ⟨b0, h0, hb⟩ := Res.bind_eq_ok.mp hb
  obtain ⟨tr, ht, hb⟩ := Res.bind_eq_ok.mp hb
  cases hb
  refine ⟨{ b0 with tok := { b0.tok with trunc := tr, padding := createPadding c.padding } }, ?_, ?_⟩
  · rw [reader_limits, show unlimited c = unlimited { c with padding := none } from rfl, h0,
      show createTruncation c.truncation = .ok tr from ht]
    rfl
  · intro x special e he
    obtain ⟨n, e', h1, h2, h3⟩ := encode_padded { b0.tok with trunc := tr, padding := createPadding c.padding } _
      (by dsimp only; rw [hq]; exact padsTo hp) rfl (by cases size <;> simp) x special e he
    have hn : n = size.getD e.ids.length := by
      cases size with
      | some n' =>
        rcases h1 with h1 | ⟨h1, _⟩
        · cases h1; rfl
        · cases h1
      | none =>
        rcases h1 with h1 | ⟨_, m, rfl, ⟨y, hy, hm⟩, _⟩
        · cases h1
        · cases List.mem_singleton.mp hy
          rw [← hm]; rfl
    rw [hn] at h3
    exact ⟨e', h2, h3.1, h3.2⟩

theorem postTruncate_below (t : TruncParams) (P : Option PostProcessor) (e : Encoding) (pair : Option Encoding) (special : Bool)
    (h : (e.ids.length : Int) + (match pair with | some d => (d.ids.length : Int) | none => 0) +
      (match P with | none => (0 : Nat) | some p => p.addedTokens pair.isSome) < t.maxLength) :
    postTruncate (some t) P e pair special = .ok (e, pair) := by
  cases pair <;> cases P <;> simp only [postTruncate, truncateEncodings, Option.isSome_none, Option.isSome_some] at h ⊢ <;> split <;>
    rw [if_neg (by omega), if_pos (by omega)]

/-- C138 (texts and pairs that are short): with any strategy and stride, whatever else is in the file, texts and pairs with fewer
than `max_length` tokens, special tokens included, are encoded as by the file without the section "truncation": the same result
or the same failure. -/
theorem C138_short (E : FileEnv) (c : FileConfig) (q : List (Str × Val)) (L stride : Int) (st : TruncStrategy)
    (hq : c.truncation = some q) (h1 : get q "max_length" = .float L) (h2 : get q "stride" = .float stride)
    (h3 : get q "strategy" = .str (strategyName st)) (b : Built)
    (hb : fromReader E (some { c with truncation := none }) = .ok b) :
    ∃ b', fromReader E (some c) = .ok b' ∧ ∀ (x : EncodeInput) (special : Bool), Below b.tok L x →
      b'.tok.encode x special = b.tok.encode x special := by
  rw [reader_limits] at hb
  obtain ⟨b0, h0, hb⟩ := Res.bind_eq_ok.mp hb
  cases hb
  refine ⟨{ b0 with tok := { b0.tok with trunc := some ⟨L, st, stride⟩, padding := createPadding c.padding } }, ?_, ?_⟩
  · rw [reader_limits, show unlimited c = unlimited { c with truncation := none } from rfl, h0, hq,
      C52_truncation_partial q L stride st h1 h2 h3]
    rfl
  · intro x special hx
    have key : ∀ e pair, postTruncate (some ⟨L, st, stride⟩) b0.tok.processor e pair special = .ok (e, pair) →
        postProcess (some ⟨L, st, stride⟩) b0.tok.processor (createPadding c.padding) e pair special =
          postProcess none b0.tok.processor (createPadding c.padding) e pair special := by
      intro e pair h
      simp only [postProcess, h]
      rfl
    cases x with
    | single s =>
      simp only [Tokenizer.encode, Tokenizer.encodeWith]
      cases he : b0.tok.tk.encodeSingle s 0 .byte with
      | err => rfl
      | panic => rfl
      | ok e =>
        simp only [Res.bind_ok]
        refine key e none (postTruncate_below _ _ _ _ _ ?_)
        have := hx e he
        simp only [announced] at this
        revert this
        cases b0.tok.processor <;> simp
    | dual s p =>
      simp only [Tokenizer.encode, Tokenizer.encodeWith]
      cases he : b0.tok.tk.encodeSingle s 0 .byte with
      | err => rfl
      | panic => rfl
      | ok e =>
        simp only [Res.bind_ok]
        cases hd : b0.tok.tk.encodeSingle p 1 .byte with
        | err => rfl
        | panic => rfl
        | ok d =>
          simp only [Res.bind_ok]
          refine key e (some d) (postTruncate_below _ _ _ _ _ ?_)
          have := hx e d he hd
          simp only [announced] at this
          revert this
          cases b0.tok.processor <;> simp

/-- C138 (truncation): with a section "truncation" to `L` tokens that overlap by `stride`, no section "padding", and a
post-processor that puts tokens around the text, the result for every text and its overflowing parts are the overlapping windows
of the encoding that the file without the section gives without special tokens, each between the special tokens, and none has
more than `L` tokens. Partial: no pairs; post-processors as in `Frames`. -/
theorem C138_windows_partial (E : FileEnv) (c : FileConfig) (q : List (Str × Val)) (L stride : Nat)
    (before after : List (Str × Int)) (hq : c.truncation = some q) (hcut : CutsAt q L stride) (hpad : c.padding = none)
    (hpost : Frames c.postProcessor before after) (hs : stride + (before.length + after.length) < L) (b : Built)
    (hb : fromReader E (some (unlimited c)) = .ok b) :
    ∃ b', fromReader E (some c) = .ok b' ∧ ∀ (x : InputSequence) (full : Encoding), b.tok.encode (.single x) false = .ok (some full) →
      ∃ r ws, b'.tok.encode (.single x) true = .ok (some r) ∧ Sliding (L - (before.length + after.length)) stride full ws ∧
        List.Forall₂ (Framed before after) ws (r :: r.overflowing) ∧ ∀ r' ∈ r :: r.overflowing, r'.ids.length ≤ L := by
  obtain ⟨u1, u2, pc, u3, u4⟩ := unlimited_tok hb
  obtain ⟨st, hst, hread⟩ := cut_read hq hcut hb
  obtain ⟨pc', p1, p2, p3⟩ := frames_windows hpost
  rw [u3] at p1
  cases p1
  refine ⟨_, hread, ?_⟩
  intro x full hf
  obtain ⟨e, e1, e2⟩ := p2 b.tok u4 u1 u2 x full hf
  obtain ⟨r, ws, k1, k2, k3⟩ := p3 { b.tok with trunc := some ⟨L, st, stride⟩, padding := createPadding c.padding } u4
    (by dsimp only; rw [hpad]; rfl) L stride st rfl hst hs x e e1
  refine ⟨r, ws, k1, k2.congr e2, k3, ?_⟩
  intro r' hr'
  obtain ⟨w, hw, hwr⟩ := forall₂_mem_right k3 hr'
  have := k2.short hw .ids
  simp only [Encoding.arr] at this
  rw [hwr.ids]
  simp only [List.length_append, List.length_map]
  omega

/-- C138 (texts that fit): a text with at most `L` tokens, special tokens included, has the encoding that the file without the
section gives, and no overflowing parts. -/
theorem C138_fits_partial (E : FileEnv) (c : FileConfig) (q : List (Str × Val)) (L stride : Nat)
    (before after : List (Str × Int)) (hq : c.truncation = some q) (hcut : CutsAt q L stride) (hpad : c.padding = none)
    (hpost : Frames c.postProcessor before after) (hs : stride + (before.length + after.length) < L) (b : Built)
    (hb : fromReader E (some (unlimited c)) = .ok b) :
    ∃ b', fromReader E (some c) = .ok b' ∧ ∀ (x : InputSequence) (full : Encoding), b.tok.encode (.single x) false = .ok (some full) →
      full.ids.length + (before.length + after.length) ≤ L →
      ∃ r, b'.tok.encode (.single x) true = .ok (some r) ∧ Framed before after full r ∧ r.overflowing = [] := by
  obtain ⟨b', h1, h2⟩ := C138_windows_partial E c q L stride before after hq hcut hpad hpost hs b hb
  refine ⟨b', h1, ?_⟩
  intro x full hf hle
  obtain ⟨r, ws, k1, k2, k3, _⟩ := h2 x full hf
  have ha : full.Aligned := by
    obtain ⟨u1, u2, pc, u3, u4⟩ := unlimited_tok hb
    obtain ⟨pc', p1, p2, _⟩ := frames_windows hpost
    rw [u3] at p1
    cases p1
    obtain ⟨e, e1, e2⟩ := p2 b.tok u4 u1 u2 x full hf
    obtain ⟨rows, rfl⟩ := encodeSingle_ofRows e1
    intro f
    rw [e2 f, ofRows_aligned rows 0 f]
    exact (congrArg List.length (e2 .ids)).symm
  obtain ⟨w, rfl, hw⟩ := sliding_fits k2 ha (by omega)
  refine ⟨r, k1, ?_, ?_⟩
  · cases k3 with
    | cons h _ =>
      have g1 : w.ids = full.ids := hw .ids
      have g2 : w.tokens = full.tokens := hw .tokens
      have g3 : w.offsets = full.offsets := hw .offsets
      have g4 : w.typeIds = full.typeIds := hw .typeIds
      have g5 : w.specialMask = full.specialMask := hw .specialMask
      have g6 : w.attentionMask = full.attentionMask := hw .attentionMask
      exact ⟨g1 ▸ h.ids, g2 ▸ h.tokens, g3 ▸ h.offsets, g4 ▸ h.typeIds, g5 ▸ h.specialMask, g6 ▸ h.attentionMask⟩
  · have := k3.length_eq
    cases hr : r.overflowing with
    | nil => rfl
    | cons _ _ => rw [hr] at this; simp at this

/-- C138 is violated by sections "truncation" without one of the fields: the file is not read, and there is no error but a panic,
although the file without the section is fine. -/
theorem C138_fields_violated (E : FileEnv) (c : FileConfig) (q : List (Str × Val)) (hq : c.truncation = some q) (b : Built)
    (hb : fromReader E (some (unlimited c)) = .ok b)
    (h : (∀ n, get q "max_length" ≠ .float n) ∨ (∀ n, get q "stride" ≠ .float n) ∨ (∀ s, get q "strategy" ≠ .str s)) :
    fromReader E (some c) = .panic := by
  rw [reader_limits, hb, hq, C52_truncation_violated q h]
  rfl

/-- C138 is violated by padding on the left, for texts and pairs: for every text with fewer tokens than the size there is no left-padded encoding. -/
theorem C138_left_pairs_violated (E : FileEnv) (c : FileConfig) (q : List (Str × Val)) (n : Int) (htr : c.truncation = none)
    (hq : c.padding = some q) (hsize : get q "strategy" = .obj [("Fixed".toList, .float n)])
    (hdir : get q "direction" = .str "Left".toList) (b b' : Built) (hb : fromReader E (some (unlimited c)) = .ok b)
    (hb' : fromReader E (some c) = .ok b') (x : EncodeInput) (special : Bool) (e : Encoding)
    (he : b.tok.encode x special = .ok (some e)) (ha : e.Aligned) (hlt : (e.ids.length : Int) < n) (id ty : Int) (token : Str)
    (hid : get q "pad_id" = .float id) (hty : get q "pad_type_id" = .float ty) (htok : get q "pad_token" = .str token) :
    ¬ ∃ e', b'.tok.encode x special = .ok (some e') ∧ LeftPadded n id ty token e e' := by
  obtain ⟨u1, u2, _⟩ := unlimited_tok hb
  obtain ⟨p, h1, h2, _, _, _, _, _, _, h3, _, h5, _, h6, _, h7, _⟩ := C52_padding q
  rw [reader_limits, hb, htr] at hb'
  cases hb'
  obtain ⟨s, d, i, t, k⟩ := p
  dsimp only at h2 h3 h5 h6 h7
  rw [h2 n hsize, h3 hdir, h5 _ hid, h6 _ hty, h7 _ htok] at h1
  rintro ⟨e', k1, k2⟩
  have key : ∀ y : Encoding, ∀ P : Option PostProcessor, ∀ pair, postProcess none P none y pair special = .ok (some e) →
      postProcess none P (createPadding c.padding) y pair special = .ok (some e') → False := by
    intro y P pair g1 g2
    rw [hq, h1] at g2
    simp only [postProcess] at g1 g2
    obtain ⟨z, z1, g1⟩ := Res.bind_eq_ok.mp g1
    rw [z1, Res.bind_ok] at g2
    cases P <;> simp only at g1 g2
    all_goals
      obtain ⟨fin, z2, g1⟩ := Res.bind_eq_ok.mp g1
      rw [z2, Res.bind_ok] at g2
      cases g1
      simp only at g2
      obtain ⟨l, z3, g2⟩ := Res.bind_eq_ok.mp g2
      simp only [padEncodings, List.length_cons, List.length_nil, Nat.zero_add, Nat.one_ne_zero, if_false, mapRes] at z3
      obtain ⟨a, z4, z3⟩ := Res.bind_eq_ok.mp z3
      simp only [Res.bind_ok] at z3
      cases z3
      simp only [Encoding.merge, Res.bind_ok] at g2
      cases g2
      exact C04_pad_left_violated e n id ty token hlt ha ⟨_, z4, k2⟩
  cases x with
  | single s =>
    simp only [Tokenizer.encode, Tokenizer.encodeWith, u1, u2] at he k1
    obtain ⟨a, z1, he⟩ := Res.bind_eq_ok.mp he
    rw [z1, Res.bind_ok] at k1
    exact key _ _ _ he k1
  | dual s p =>
    simp only [Tokenizer.encode, Tokenizer.encodeWith, u1, u2] at he k1
    obtain ⟨a, z1, he⟩ := Res.bind_eq_ok.mp he
    obtain ⟨a', z2, he⟩ := Res.bind_eq_ok.mp he
    rw [z1, Res.bind_ok, z2, Res.bind_ok] at k1
    exact key _ _ _ he k1

/-! ### Cases -/

/-- Sections as they are in files. -/
def cutSection : List (Str × Val) :=
  [("direction".toList, .str "Right".toList), ("max_length".toList, .float 4), ("strategy".toList, .str "LongestFirst".toList),
   ("stride".toList, .float 1)]

def padSection : List (Str × Val) :=
  [("strategy".toList, .obj [("Fixed".toList, .float 8)]), ("direction".toList, .str "Right".toList), ("pad_to_multiple_of".toList, .null),
   ("pad_id".toList, .float 3), ("pad_type_id".toList, .float 0), ("pad_token".toList, .str "!".toList)]

theorem cutSection_cuts : CutsAt cutSection 4 1 := ⟨by rfl, by rfl, .longestFirst, by decide, by rfl⟩

theorem padSection_pads : PadsTo padSection (some 8) 3 0 "!".toList := ⟨by rfl, .inl (by rfl), by rfl, by rfl, by rfl⟩

theorem places_frames : Frames placesFile.postProcessor [(clsT, 0)] [(sepT, 1)] :=
  .template _ _ _ [.special clsT 0, .seq false 0, .special sepT 0, .seq true 1, .special sepT 1]
    [⟨clsT, [0], [clsT]⟩, ⟨sepT, [1], [sepT]⟩] (by unfold TypeIs; rfl) (by rfl) (by rfl) (by rfl) (by decide) (by simp)

theorem places_plain : ∃ b full, fromReader caseBertEnv (some placesFile) = .ok b ∧
    b.tok.encode (.single (.raw (encStr "Yes  no!".toList))) false = .ok (some full) ∧ full.ids = [4, 5, 2, 3] := by
  have h : okAnd (fromReader caseBertEnv (some placesFile)) (fun b =>
      okAnd (b.tok.encode (.single (.raw (encStr "Yes  no!".toList))) false) (fun o =>
        decide (o.map (·.ids) = some [4, 5, 2, 3]))) = true := by decide +kernel
  obtain ⟨b, hb, h⟩ := okAnd_spec h
  obtain ⟨o, ho, h⟩ := okAnd_spec h
  obtain ⟨full, rfl, hi⟩ := Option.map_eq_some_iff.mp (of_decide_eq_true h)
  exact ⟨b, full, hb, ho, hi⟩

/-- Four tokens in windows of two that overlap by one. -/
example : ∃ (b' : Built) (r : Encoding), fromReader caseBertEnv (some { placesFile with truncation := some cutSection }) = .ok b' ∧
    b'.tok.encode (.single (.raw (encStr "Yes  no!".toList))) true = .ok (some r) ∧ ∀ r' ∈ r :: r.overflowing, r'.ids.length ≤ 4 := by
  obtain ⟨b, full, h1, h2, _⟩ := places_plain
  obtain ⟨b', h3, h4⟩ := C138_windows_partial caseBertEnv { placesFile with truncation := some cutSection } cutSection 4 1
    [(clsT, 0)] [(sepT, 1)] rfl cutSection_cuts rfl places_frames (by decide) b h1
  obtain ⟨r, ws, h5, _, _, h6⟩ := h4 _ full h2
  exact ⟨b', r, h3, h5, h6⟩

example : okAnd (fromReader caseBertEnv (some { placesFile with truncation := some cutSection })) (fun b =>
    okAnd (b.tok.encodeSingle (encStr "Yes  no!".toList) [true]) (fun o =>
      decide (o.map (fun r => (r :: r.overflowing).map (·.ids)) = some [[0, 4, 5, 1], [0, 5, 2, 1], [0, 2, 3, 1]]))) = true := by
  decide +kernel

/-- Four pad tokens for the four tokens. -/
example : ∃ (b' : Built) (e' : Encoding), fromReader caseBertEnv (some { placesFile with padding := some padSection }) = .ok b' ∧
    b'.tok.encode (.single (.raw (encStr "Yes  no!".toList))) false = .ok (some e') ∧ e'.ids = [4, 5, 2, 3, 3, 3, 3, 3] := by
  obtain ⟨b, full, h1, h2, h3⟩ := places_plain
  obtain ⟨b', h4, h5⟩ := C138_padding caseBertEnv { placesFile with padding := some padSection } padSection (some 8) 3 0
    "!".toList rfl padSection_pads b h1
  obtain ⟨e', h6, h7, _⟩ := h5 _ false full h2
  refine ⟨b', e', h4, h6, ?_⟩
  have := h7.1 .ids
  simp only [Encoding.arr, h3] at this
  exact this

/-- "!" and the two special tokens are less than four. -/
example : ∃ (b b' : Built), fromReader caseBertEnv (some placesFile) = .ok b ∧
    fromReader caseBertEnv (some { placesFile with truncation := some cutSection }) = .ok b' ∧
    b'.tok.encode (.single (.raw (encStr ['!']))) true = b.tok.encode (.single (.raw (encStr ['!']))) true := by
  have h : okAnd (fromReader caseBertEnv (some placesFile)) (fun b => okAnd (b.tok.tk.encodeSingle (.raw (encStr ['!'])) 0 .byte)
      (fun e => decide (e.ids.length + announced b.tok false < 4))) = true := by decide +kernel
  obtain ⟨b, hb, h⟩ := okAnd_spec h
  obtain ⟨e, he, h⟩ := okAnd_spec h
  obtain ⟨b', h1, h2⟩ := C138_short caseBertEnv { placesFile with truncation := some cutSection } cutSection 4 1 .longestFirst rfl
    (by rfl) (by rfl) (by rfl) b hb
  refine ⟨b, b', hb, h1, h2 _ true ?_⟩
  intro e' he'
  rw [he] at he'
  cases he'
  have := of_decide_eq_true h
  omega

/-- Padding on the left. -/
example : ∃ (b b' : Built) (e : Encoding), fromReader caseBertEnv (some placesFile) = .ok b ∧
    fromReader caseBertEnv (some { placesFile with padding := some (("direction".toList, .str "Left".toList) :: padSection) }) = .ok b' ∧
    b.tok.encode (.single (.raw (encStr ['!']))) false = .ok (some e) ∧
    ¬ ∃ e', b'.tok.encode (.single (.raw (encStr ['!']))) false = .ok (some e') ∧ LeftPadded 8 3 0 "!".toList e e' := by
  have h : okAnd (fromReader caseBertEnv (some placesFile)) (fun b => okAnd (b.tok.encode (.single (.raw (encStr ['!']))) false)
      (fun o => decide (o.map (fun e => [e.ids.length, e.typeIds.length, e.tokens.length, e.offsets.length, e.specialMask.length,
        e.attentionMask.length, e.words.length]) = some [1, 1, 1, 1, 1, 1, 1]))) = true := by decide +kernel
  obtain ⟨b, hb, h⟩ := okAnd_spec h
  obtain ⟨o, ho, h⟩ := okAnd_spec h
  obtain ⟨e, rfl, he⟩ := Option.map_eq_some_iff.mp (of_decide_eq_true h)
  simp only [List.cons.injEq, and_true] at he
  obtain ⟨h1, h2, h3, h4, h5, h6, h7⟩ := he
  obtain ⟨b', hb', _⟩ := C138_rest caseBertEnv { placesFile with padding := some (("direction".toList, .str "Left".toList) :: padSection) }
    b hb (.inl rfl)
  refine ⟨b, b', e, hb, hb', ho, ?_⟩
  refine C138_left_pairs_violated caseBertEnv { placesFile with padding := some (("direction".toList, .str "Left".toList) :: padSection) } _ 8
    rfl rfl (by rfl) (by rfl) b b' hb hb' _ false e ho ?_ (by omega) 3 0 "!".toList
    (by rfl) (by rfl) (by rfl)
  intro f
  cases f <;> simp only [Encoding.arr] <;> omega

/-- Without "stride" the file is not read. -/
example : fromReader caseBertEnv (some { placesFile with truncation := some [("max_length".toList, .float 4)] }) = .panic := by
  obtain ⟨b, _, h1, _⟩ := places_plain
  refine C138_fields_violated caseBertEnv _ _ rfl b h1 (.inr (.inl ?_))
  intro n h
  cases h

end Tok.Whole
