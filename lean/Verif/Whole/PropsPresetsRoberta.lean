import Verif.Whole.PropsPresets
import Verif.Added.Props
import Verif.Processor.PropsByteLevel

/-!
# C104: the ready-made RoBERTa tokenizers
-/

namespace Tok.Whole

open Tok.PreTok Tok.Added Tok.Norm

/-! ### Specification -/

/-- The two special tokens. -/
def bos : Str := ['<', 's', '>']
def eos : Str := ['<', '/', 's', '>']

/-- What the vocabulary files of RoBERTa are to hold: the alphabet and merges of byte-level BPE, `<s>` with the id 0 and
`</s>` with the id 2. -/
structure RobertaFiles (vocab : List (Str × Int)) (b : BpeModel) : Prop where
  bytes : ByteTables b
  bosId : mget vocab bos = some 0
  eosId : mget vocab eos = some 2
  bosR : b.vocabR 0 = some bos
  eosR : b.vocabR 2 = some eos

/-- The text does not have either of the two special tokens in it. -/
def NoSpecials (s : Str) : Prop := ¬ bos <:+: s ∧ ¬ eos <:+: s

/-! ### Building it -/

def robertaState (vocab : List (Str × Int)) (b : BpeModel) : VocabState :=
  { vocab := vocab, vocabR := b.vocabR, fixedSize := none
    addedR := [(0, bos), (2, eos)]
    specialTokens := [specialToken bos, specialToken eos]
    specialSet := [bos, eos]
    splitRe := [(specialToken bos, 0), (specialToken eos, 2)] }

theorem addSpecials_roberta {vocab : List (Str × Int)} {b : BpeModel} (h1 : mget vocab bos = some 0)
    (h2 : mget vocab eos = some 2) :
    addSpecials { vocab := vocab, vocabR := b.vocabR, fixedSize := none } [bos, eos] = .ok (robertaState vocab b) := by
  have h1' : mget vocab ['<', 's', '>'] = some 0 := h1
  have h2' : mget vocab ['<', '/', 's', '>'] = some 2 := h2
  simp [addSpecials, VocabState.addSpecialTokens, VocabState.registerSpecial, VocabState.addTokens, VocabState.addLoop,
    VocabState.addOne, VocabState.refresh, VocabState.refreshIds, VocabState.tokenToId, VocabState.isSpecial, specialToken,
    bos, eos, h1', h2', mget, mset, robertaState]

theorem lit_none {c s : Str} (hc : c ≠ []) (h : ¬ c <:+: s) : (Pat.lit c).engine (encStr s) = [] := by
  obtain ⟨re, h1, h2⟩ := C91_plain (fun _ => false) none ⟨c, false, false, false, false⟩ rfl rfl rfl hc
  cases h1
  have h3 := h2 s
  apply List.eq_nil_iff_forall_not_mem.mpr
  intro p hp
  obtain ⟨u, w, v, e, _, rfl⟩ := h3.sound p hp
  exact h ⟨u, v, e.symm⟩

/-- What `robertaBase` returns. -/
theorem robertaBase_eq (E : Env) (H : Heap) {vocab : List (Str × Int)} {b : BpeModel} (h1 : mget vocab bos = some 0)
    (h2 : mget vocab eos = some 2) (a trim : Bool) :
    robertaBase E H vocab b a trim = .ok {
      tok := {
        tk := ⟨⟨[0, 2], fun bs => E.order (allMatches [.lit bos, .lit eos] bs)⟩, ⟨[], fun bs => E.order (allMatches [] bs)⟩, none,
          some (byteLevelPre a (gpt2Engine E.isL E.isN)), some (bpeModel H b)⟩
        trunc := none
        padding := none
        processor := some defaultRoberta.toProcessor }
      state := robertaState vocab b
      decoder := newDecoder (fun ts => .ok (bpeDecode ['Ġ'] ts.length 0 ts)) } := by
  have h := addSpecials_roberta (b := b) h1 h2
  simp only [bos, eos] at h
  unfold robertaBase
  rw [h]
  rfl

/-! ### A special token is not made of the bytes of the text -/

theorem prefix_enc (w : Str) : ∀ (u : Str) (y : List UInt8), encStr u = encStr w ++ y → w <+: u := by
  induction w with
  | nil => intro u y _; exact List.nil_prefix
  | cons c w ih =>
    intro u y h
    have hp : (encStr [c]).isPrefixOf (encStr u) = true := by
      rw [List.isPrefixOf_iff_prefix, h]
      exact ⟨encStr w ++ y, by simp⟩
    rw [isPrefixOf_enc, decide_eq_true_eq] at hp
    cases u with
    | nil => cases hp
    | cons d u =>
      simp only [List.head?_cons, Option.some.injEq] at hp
      subst hp
      rw [encStr_cons, encStr_cons, List.append_assoc] at h
      exact List.cons_prefix_cons.mpr ⟨rfl, ih u y (List.append_cancel_left h)⟩

theorem infix_enc {w u : Str} {x y : List UInt8} (hw : w ≠ []) (h : encStr u = x ++ encStr w ++ y) : w <:+: u := by
  have hpos : 0 < (encStr w).length := by
    rw [length_encStr]
    exact Nat.pos_of_ne_zero (fun h => hw (blen_eq_zero.mp h))
  have hb : Boundary u x.length := by
    apply Classical.byContradiction
    intro hn
    obtain ⟨b, e1, e2⟩ := inside_cont u x.length (by rw [← length_encStr, h]; simp; omega) hn
    obtain ⟨b', f1, f2⟩ := boundary_runeStart (s := w) (i := 0) ⟨[], w, rfl, rfl⟩ (by rw [← length_encStr]; exact hpos)
    have hz : (encStr w)[0]? = some b' := by
      cases hw' : encStr w with
      | nil => rw [hw'] at hpos; cases hpos
      | cons z zs =>
        rw [hw'] at f1
        have : idx (z :: zs) ((0 : Nat) : Int) = .ok z := rfl
        rw [this] at f1
        cases f1
        rfl
    rw [h, List.append_assoc, List.getElem?_append_right (Nat.le_refl _), Nat.sub_self, List.getElem?_append_left hpos, hz] at e1
    cases e1
    rw [e2] at f2
    cases f2
  obtain ⟨p, q, rfl, e⟩ := hb
  rw [encStr_append, List.append_assoc] at h
  have := List.append_inj h (by rw [length_encStr, e])
  obtain ⟨v, rfl⟩ := prefix_enc w q y this.2
  exact ⟨p, v, by simp⟩

theorem prefixed_infix {w : Str} {a : Bool} {s : Str} (hw : w.head? ≠ some ' ') (h : w <:+: prefixed a s) : w <:+: s := by
  unfold prefixed at h
  split at h
  · obtain ⟨u, v, e⟩ := h
    cases u with
    | nil =>
      cases w with
      | nil => exact List.nil_infix
      | cons c w =>
        simp only [List.nil_append, List.cons_append, List.cons.injEq] at e
        exact absurd (by rw [e.1]; rfl) hw
    | cons d u =>
      simp only [List.cons_append, List.cons.injEq] at e
      exact ⟨u, v, by simpa using e.2⟩
  · exact h

theorem back_inj {x y : UInt8} (h : back x = back y) : x = y := by
  by_cases hx : x = 32
  · rw [(back_space x).2 hx] at h
    rw [hx, (back_space y).1 h.symm]
  · by_cases hy : y = 32
    · rw [(back_space y).2 hy] at h
      rw [hy, (back_space x).1 h]
    · unfold back at h
      rw [if_neg hx, if_neg hy] at h
      exact C26_distinct_printable.1 _ _ h

theorem map_inj_of_inj {f : α → β} (hf : ∀ {x y}, f x = f y → x = y) : ∀ {a b : List α}, a.map f = b.map f → a = b := by
  intro a
  induction a with
  | nil => intro b h; exact (List.map_eq_nil_iff.mp h.symm).symm
  | cons x a ih =>
    intro b h
    cases b with
    | nil => cases h
    | cons y b =>
      simp only [List.map_cons, List.cons.injEq] at h
      rw [hf h.1, ih h.2]

/-- A token of the text is not written like a special token. -/
theorem image_ne {w : Str} {a : Bool} {s : Str} (hw : ∀ c ∈ w, c ≠ ' ' ∧ Printable c) (hne : w ≠ []) (h : ¬ w <:+: s)
    {tb : List (List UInt8)} (ht : tb.flatten = encStr (prefixed a s)) {x : List UInt8} (hx : x ∈ tb) :
    byteLevelImage x ≠ w := by
  intro e
  apply h
  apply prefixed_infix (a := a)
  · cases w with
    | nil => simp
    | cons c w => simp only [List.head?_cons, ne_eq, Option.some.injEq]; exact (hw c (by simp)).1
  · have hxw : x = encStr w := by
      have h1 : (encStr w).map back = w := (map_back w (fun c hc => printable_one (hw c hc).2)).2 (fun c hc => (hw c hc).2)
      have h2 : spaced w = w := by
        unfold spaced
        conv => rhs; rw [← List.map_id w]
        apply List.map_congr_left
        intro c hc
        rw [if_neg, id]
        rintro rfl
        exact absurd (hw _ hc).2 (by unfold Printable; decide)
      have h3 := spaced_image x
      rw [e, h2, ← h1] at h3
      exact (map_inj_of_inj back_inj h3).symm
    obtain ⟨l, r, rfl⟩ := List.append_of_mem hx
    apply infix_enc hne (x := l.flatten) (y := r.flatten)
    rw [← ht, hxw]
    simp

theorem decodeTokens_append {T : VocabState} {skip : Bool} (l r : List Int) :
    T.decodeTokens skip (l ++ r) = T.decodeTokens skip l ++ T.decodeTokens skip r := by
  induction l with
  | nil => rfl
  | cons i l ih =>
    simp only [List.cons_append, VocabState.decodeTokens]
    split
    · split <;> simp [ih]
    · exact ih

theorem roberta_idToToken {vocab : List (Str × Int)} {b : BpeModel} (h : RobertaFiles vocab b) (i : Int) :
    (robertaState vocab b).idToToken i = b.vocabR i := by
  simp only [VocabState.idToToken, robertaState, mget]
  by_cases h0 : i = 0
  · subst h0; simp [h.bosR]
  · by_cases h2 : i = 2
    · subst h2; simp [h.eosR]
    · have h0' : ¬ 0 = i := fun e => h0 e.symm
      have h2' : ¬ 2 = i := fun e => h2 e.symm
      simp [h0', h2']

theorem unmarked_between (vs : List Str) : unmarked (bos :: vs ++ [eos]) = bos ++ (vs.map spaced).flatten ++ eos := by
  unfold unmarked
  rw [List.dropLast_concat, List.getLast?_concat, List.map_cons, List.flatten_cons, Option.getD_some]
  rfl

theorem back_iff (u : Str) : (encStr u).map back = u ↔ ∀ c ∈ u, Printable c := by
  constructor
  · intro e
    have hlen := congrArg List.length e
    rw [List.length_map, length_encStr] at hlen
    exact (map_back u (all_one u hlen.symm)).1 e
  · intro h
    exact (map_back u (fun c hc => printable_one (h c hc))).2 h

/-! ### C104 -/

/-- C104: with special tokens, a text without `<s>` and `</s>` in it is encoded to `<s>`, tokens that spell the text, and
`</s>`. `Decode` keeping special tokens gives the text between them back exactly if all its characters are printable
ASCII; `Decode` dropping them gives the text exactly if, besides, the last token of the text has no marker. -/
theorem C104_roberta (E : Env) (hL : E.isL ' ' = false) (hN : E.isN ' ' = false) (ho : ∀ l, (E.order l).Perm l) (H : Heap)
    {vocab : List (Str × Int)} {b : BpeModel} (hf : RobertaFiles vocab b) (a trim : Bool) (s : Str)
    (hnul : a = true → s.head? ≠ some '\x00') (hs : NoSpecials s) :
    ∃ (l : Loaded) (r : Encoding) (tb : List (List UInt8)), robertaBase E H vocab b a trim = .ok l ∧ l.tok.encodeSingle (encStr s) [true] = .ok (some r) ∧
      tb.flatten = encStr (prefixed a s) ∧ (∀ x ∈ tb, x ≠ []) ∧
      r.tokens = bos :: tb.map byteLevelImage ++ [eos] ∧ r.ids.head? = some 0 ∧ r.ids.getLast? = some 2 ∧
      (l.decode r.ids false = .ok (bos ++ prefixed a s ++ eos) ↔ ∀ c ∈ s, Printable c) ∧
      (l.decode r.ids true = .ok (prefixed a s) ↔
        (∀ c ∈ s, Printable c) ∧ ∀ w, (tb.map byteLevelImage).getLast? = some w → 'Ġ' ∉ w) := by
  have hnil : E.order [] = [] := List.perm_nil.mp (ho [])
  obtain ⟨e, tb, h1, h2, h3, h4, _, rows, h6, h7⟩ := byteTk_encode (t :=
    ⟨⟨[0, 2], fun bs => E.order (allMatches [.lit bos, .lit eos] bs)⟩, ⟨[], fun bs => E.order (allMatches [] bs)⟩, none,
          some (byteLevelPre a (gpt2Engine E.isL E.isN)), some (bpeModel H b)⟩) (a := a)
    ⟨rfl, rfl, _, rfl, byteModel_bpe H hf.bytes⟩ (gpt2_proper E.isL E.isN) s
    ⟨by
      have e1 := lit_none (c := bos) (by decide) hs.1
      have e2 := lit_none (c := eos) (by decide) hs.2
      simp [allMatches, e1, e2, hnil], by simp [allMatches, hnil]⟩ hnul
    (fun hs _ h => gpt2_keeps E.isL E.isN hL hN hs h) 0
  obtain ⟨t, r, k1, k2, k3, _⟩ := C23_roberta_single_partial defaultRoberta rfl e (h6 ▸ ofRows_aligned rows 0)
    (by rw [h6]; simp [ofRows, Encoding.default])
  have ht : t.ids = e.ids ∧ t.tokens = e.tokens := k1.length
  have hids : r.ids = 0 :: rows.map (·.token.id) ++ [2] := by
    have := k3 .ids
    simp only [Encoding.arr, robertaSingle, plainArr, specialEntry, defaultRoberta] at this
    rw [this, ht.1, h6]
    rfl
  have htok : r.tokens = bos :: tb.map byteLevelImage ++ [eos] := by
    have := k3 .tokens
    simp only [Encoding.arr, robertaSingle, plainArr, specialEntry, defaultRoberta] at this
    rw [this, ht.2, h4]
    rfl
  have hvals : rows.map (·.token.value) = tb.map byteLevelImage := by rw [← h4, h6]; rfl
  have hval : ∀ q ∈ rows, ∃ x ∈ tb, q.token.value = byteLevelImage x := by
    intro q hq
    have : q.token.value ∈ rows.map (·.token.value) := List.mem_map_of_mem hq
    rw [hvals] at this
    obtain ⟨x, hx, e'⟩ := List.mem_map.mp this
    exact ⟨x, hx, e'.symm⟩
  have hknown : ∀ q ∈ rows, (robertaState vocab b).idToToken q.token.id = some q.token.value := by
    intro q hq
    obtain ⟨f, bs, ts, m1, m2, m3⟩ := h7 q hq
    cases m1
    rw [roberta_idToToken hf]
    apply bpeModel_known m2 m3
    obtain ⟨x, hx, e'⟩ := hval q hq
    intro hv
    rw [hv] at e'
    exact h3 x hx (List.map_eq_nil_iff.mp e'.symm)
  have hspec : ∀ q ∈ rows, (robertaState vocab b).isSpecial q.token.value = false := by
    intro q hq
    obtain ⟨x, hx, e'⟩ := hval q hq
    have n1 := image_ne (w := bos) (a := a) (by unfold Printable; decide) (by decide) hs.1 h2 hx
    have n2 := image_ne (w := eos) (a := a) (by unfold Printable; decide) (by decide) hs.2 h2 hx
    rw [e']
    simp [VocabState.isSpecial, robertaState, n1, n2]
  have hdec : ∀ skip, (robertaState vocab b).decodeTokens skip r.ids =
      if skip then tb.map byteLevelImage else bos :: tb.map byteLevelImage ++ [eos] := by
    intro skip
    have i0 : (robertaState vocab b).idToToken 0 = some bos := by rw [roberta_idToToken hf, hf.bosR]
    have i2 : (robertaState vocab b).idToToken 2 = some eos := by rw [roberta_idToToken hf, hf.eosR]
    have s0 : (robertaState vocab b).isSpecial bos = true := by simp [VocabState.isSpecial, robertaState]
    have s2 : (robertaState vocab b).isSpecial eos = true := by simp [VocabState.isSpecial, robertaState]
    rw [hids, decodeTokens_append]
    simp only [VocabState.decodeTokens, i0, i2, s0, s2]
    rw [decodeTokens_known rows (fun q hq => ⟨hknown q hq, fun _ => hspec q hq⟩), hvals]
    cases skip <;> simp
  refine ⟨_, r, tb, robertaBase_eq E H hf.bosId hf.eosId a trim, ?_, h2, h3, htok, by rw [hids]; rfl, by rw [hids, List.getLast?_concat], ?_, ?_⟩
  · simp only [Tokenizer.encodeSingle, Tokenizer.encode, Tokenizer.encodeWith, h1, Res.bind_ok]
    simp only [postProcess, postTruncate, Res.bind_ok]
    simp only [Roberta.toProcessor, List.headD_cons, k2, Res.bind_ok]
  · unfold Loaded.decode VocabState.decode
    dsimp only
    rw [hdec, if_neg (by simp), gpt2_decoder, unmarked_between, Res.ok.injEq, List.append_assoc, List.append_assoc,
      List.append_cancel_left_eq, List.append_cancel_right_eq, ← prefixed_printable a, ← back_iff, ← h2, List.map_flatten,
      List.map_map]
    have : tb.map (spaced ∘ byteLevelImage) = tb.map (List.map back) :=
      List.map_congr_left (fun x _ => spaced_image x)
    rw [this]
  · unfold Loaded.decode VocabState.decode
    dsimp only
    rw [hdec, if_pos rfl, gpt2_decoder, Res.ok.injEq, unmarked_iff tb _ h2, prefixed_printable]

/-- C104 (offsets) is violated: whatever `trimOffsets` is, the places of the tokens of the text are trimmed. -/
theorem C104_trim_violated (E : Env) (hL : E.isL ' ' = false) (hN : E.isN ' ' = false) (ho : ∀ l, (E.order l).Perm l)
    (H : Heap) {vocab : List (Str × Int)} {b : BpeModel} (hf : RobertaFiles vocab b) (a trim : Bool) (s : Str)
    (hnul : a = true → s.head? ≠ some '\x00') (hs : NoSpecials s) :
    ∃ (l : Loaded) (e r t : Encoding), robertaBase E H vocab b a trim = .ok l ∧
      l.tok.tk.encodeSingle (.raw (encStr s)) 0 .byte = .ok e ∧ l.tok.encodeSingle (encStr s) [true] = .ok (some r) ∧
      r.offsets = (0, 0) :: t.offsets ++ [(0, 0)] ∧ r.tokens = bos :: e.tokens ++ [eos] ∧ TrimmedIf true true e t := by
  have hnil : E.order [] = [] := List.perm_nil.mp (ho [])
  obtain ⟨e, tb, h1, h2, h3, h4, _, rows, h6, h7⟩ := byteTk_encode (t :=
    ⟨⟨[0, 2], fun bs => E.order (allMatches [.lit bos, .lit eos] bs)⟩, ⟨[], fun bs => E.order (allMatches [] bs)⟩, none,
          some (byteLevelPre a (gpt2Engine E.isL E.isN)), some (bpeModel H b)⟩) (a := a)
    ⟨rfl, rfl, _, rfl, byteModel_bpe H hf.bytes⟩ (gpt2_proper E.isL E.isN) s
    ⟨by
      have e1 := lit_none (c := bos) (by decide) hs.1
      have e2 := lit_none (c := eos) (by decide) hs.2
      simp [allMatches, e1, e2, hnil], by simp [allMatches, hnil]⟩ hnul
    (fun hs _ h => gpt2_keeps E.isL E.isN hL hN hs h) 0
  have hal : e.Aligned := h6 ▸ ofRows_aligned rows 0
  obtain ⟨t, r, ⟨⟨d, k0, kd⟩, k0'⟩, k2, k3, _⟩ := C23_roberta_single_partial defaultRoberta rfl e hal
    (by rw [h6]; simp [ofRows, Encoding.default])
  obtain ⟨d', m1, m2, m3, _, _⟩ := processOffsets_trimmed e hal true
  have hdd : d = d' := by
    have : processOffsets e defaultRoberta.addPrefixSpace = processOffsets e true := rfl
    rw [this, m1] at k0
    exact (Res.ok.inj k0).symm
  subst hdd
  refine ⟨_, e, r, d, robertaBase_eq E H hf.bosId hf.eosId a trim, h1, ?_, ?_, ?_, m3⟩
  · simp only [Tokenizer.encodeSingle, Tokenizer.encode, Tokenizer.encodeWith, h1, Res.bind_ok]
    simp only [postProcess, postTruncate, Res.bind_ok]
    simp only [Roberta.toProcessor, List.headD_cons, k2, Res.bind_ok]
  · have := k3 .offsets
    simp only [Encoding.arr, robertaSingle, plainArr, specialEntry] at this
    rw [this, kd]
    rfl
  · have := k3 .tokens
    simp only [Encoding.arr, robertaSingle, plainArr, specialEntry, defaultRoberta] at this
    have m := m2 .tokens (by simp)
    simp only [Encoding.arr] at m
    rw [this, kd, m]
    rfl

/-! ### A case -/

/-- The model of the earlier cases with the two special tokens in its vocabulary. -/
def robertaBpe : BpeModel :=
  { exampleBpe with vocabR := fun id => if id = 0 then some bos else if id = 2 then some eos else exampleBpe.vocabR id }

theorem robertaBpe_files : RobertaFiles [(bos, 0), (eos, 2)] robertaBpe := by
  refine ⟨⟨rfl, ?_, ?_⟩, rfl, rfl, rfl, rfl⟩
  · intro x
    obtain ⟨i, h1, h2⟩ := exampleBpe_bytes.alphabet x
    refine ⟨i, h1, ?_⟩
    have h3 : i = ((alphabetChar x).toNat : Int) := (Option.some.inj h1).symm
    have h4 : ∀ k : Fin 256, (alphabetChar (UInt8.ofNat k.val)).toNat ≠ 0 ∧ (alphabetChar (UInt8.ofNat k.val)).toNat ≠ 2 := by
      decide +kernel
    have h5 := h4 ⟨x.toNat, x.toNat_lt⟩
    rw [UInt8.ofNat_toNat] at h5
    have h6 : i ≠ 0 ∧ i ≠ 2 := by omega
    simp only [robertaBpe, h6.1, h6.2, if_false]
    exact h2
  · intro x y m p q h hp hq
    have h' : exampleBpe.merges x y = some m := h
    simp only [exampleBpe] at h'
    split at h'
    · next hxy =>
      cases h'
      obtain ⟨rfl, rfl⟩ := hxy
      have := exampleBpe_bytes.merges 97 98 ⟨0, -1⟩ p q h hp hq
      exact this
    · cases h'

/-- "ab b" between the special tokens comes back; the place of the marker is (3, 3) although `trimOffsets` is off. -/
example : okAnd (robertaBase caseEnv listHeap [(bos, 0), (eos, 2)] robertaBpe false false) (fun l =>
    okAnd (l.tok.encodeSingle (encStr ['a', 'b', ' ', 'b']) [true]) (fun o =>
      decide (o.map (fun r => (r.tokens, r.offsets)) =
        some ([bos, ['a', 'b'], ['Ġ'], ['b'], eos], [(0, 0), (0, 2), (3, 3), (3, 4), (0, 0)])) &&
      okAnd (l.decode ((o.map (·.ids)).getD []) false) (fun t => decide (t = bos ++ ['a', 'b', ' ', 'b'] ++ eos)))) = true := by
  decide +kernel

example (s : Str) (h : s = ['a', 'b', ' ', 'b']) : ∃ (l : Loaded) (r : Encoding),
    robertaBase caseEnv listHeap [(bos, 0), (eos, 2)] robertaBpe false false = .ok l ∧
    l.tok.encodeSingle (encStr s) [true] = .ok (some r) ∧ l.decode r.ids false = .ok (bos ++ s ++ eos) := by
  obtain ⟨l, r, tb, h1, h2, _, _, _, _, _, h3, _⟩ := C104_roberta caseEnv (by decide) rfl (fun _ => .refl _) listHeap
    robertaBpe_files false false s (by simp) (by subst h; constructor <;> decide +kernel)
  exact ⟨l, r, h1, h2, h3.2 (by subst h; unfold Printable; decide)⟩

end Tok.Whole
