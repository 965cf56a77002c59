import Verif.Whole.Presets
import Verif.Whole.Lemmas
import Verif.PreTok.PropsByteBpe
import Verif.Processor.PropsByteLevel
import Verif.Norm.PropsBounds

/-!
# C103: the ready-made GPT-2 tokenizer there and back
-/

namespace Tok.Whole

open Tok.PreTok Tok.Added Tok.Norm

/-! ### Specification -/

/-- A token with its space markers written as spaces. -/
def spaced (t : Str) : Str := t.map (fun c => if c = 'Ġ' then ' ' else c)

/-- The tokens one after the other, the markers written as spaces, except that the markers of the last token are
dropped. -/
def unmarked (ts : List Str) : Str :=
  (ts.dropLast.map spaced).flatten ++ (ts.getLast?.getD []).filter (· ≠ 'Ġ')

/-- The printable characters of ASCII. -/
def Printable (c : Char) : Prop := ' ' ≤ c ∧ c ≤ '~'

/-! ### The decoder -/

theorem replaceNE_marker (new : Str) (s : Str) :
    replaceNE ['Ġ'] new s = s.flatMap (fun c => if c = 'Ġ' then new else [c]) := by
  induction s with
  | nil => simp [replaceNE]
  | cons c cs ih =>
    rw [replaceNE]
    by_cases h : c = 'Ġ'
    · subst h
      simp [List.isPrefixOf, ih]
    · have : ¬ 'Ġ' = c := fun e => h e.symm
      simp [List.isPrefixOf, ih, h, this]

theorem bpeDecode_marker (ts : List Str) : ∀ n i, n = i + ts.length →
    (bpeDecode ['Ġ'] n i ts).flatten = unmarked ts := by
  induction ts with
  | nil => intro n i _; rfl
  | cons t ts ih =>
    intro n i hn
    simp only [bpeDecode, List.flatten_cons]
    rw [ih n (i + 1) (by simp at hn; omega), replaceAll, if_neg (by simp), replaceNE_marker]
    cases ts with
    | nil =>
      rw [if_pos (by simp at hn; omega)]
      simp only [unmarked, List.dropLast_nil, List.dropLast_singleton, List.map_nil, List.flatten_nil, List.nil_append,
        List.getLast?_nil, List.getLast?_singleton, Option.getD_none, Option.getD_some, List.filter_nil, List.append_nil]
      clear ih hn
      induction t with
      | nil => rfl
      | cons c cs ih2 =>
        by_cases h : c = 'Ġ'
        · rw [List.flatMap_cons, if_pos h, List.filter_cons_of_neg (by simp [h]), ih2]; rfl
        · rw [List.flatMap_cons, if_neg h, List.filter_cons_of_pos (by simp [h]), ih2]; rfl
    | cons u us =>
      rw [if_neg (by simp at hn; omega)]
      have : t.flatMap (fun c => if c = 'Ġ' then [' '] else [c]) = spaced t := by
        unfold spaced
        clear ih hn
        induction t with
        | nil => rfl
        | cons c cs ih2 => by_cases h : c = 'Ġ' <;> simp [h, ih2]
      rw [this]
      simp [unmarked, List.getLast?_cons_cons]

theorem gpt2_decoder (ts : List Str) :
    (newDecoder (fun ts => .ok (bpeDecode ['Ġ'] ts.length 0 ts))).decode ts = .ok (unmarked ts) := by
  simp only [newDecoder, DecoderVal.decode]
  rw [bpeDecode_marker ts ts.length 0 (by simp)]

/-! ### Bytes and characters -/

theorem alphabetChar_marker (x : UInt8) : alphabetChar x = 'Ġ' ↔ x = 32 := by
  have h : alphabetChar 32 = 'Ġ' := by decide +kernel
  constructor
  · intro e; exact C26_distinct_printable.1 _ _ (by rw [e, h])
  · rintro rfl; exact h

/-- How a byte comes back. -/
def back (x : UInt8) : Char := if x = 32 then ' ' else alphabetChar x

theorem spaced_image (bs : List UInt8) : spaced (byteLevelImage bs) = bs.map back := by
  simp only [spaced, byteLevelImage, List.map_map]
  apply List.map_congr_left
  intro x _
  simp only [Function.comp, back]
  by_cases h : x = 32
  · rw [if_pos ((alphabetChar_marker x).2 h), if_pos h]
  · rw [if_neg (fun e => h ((alphabetChar_marker x).1 e)), if_neg h]

theorem back_space (x : UInt8) : back x = ' ' ↔ x = 32 := by
  unfold back
  split
  · simp [*]
  · next h =>
    constructor
    · intro e
      have := (C26_distinct_printable.2 x).1
      rw [e] at this
      simp at this
    · intro e; exact absurd e h

theorem filter_image (bs : List UInt8) :
    (byteLevelImage bs).filter (· ≠ 'Ġ') = (bs.filter (· ≠ 32)).map back := by
  induction bs with
  | nil => rfl
  | cons x bs ih =>
    simp only [byteLevelImage, List.map_cons] at ih ⊢
    by_cases h : x = 32
    · have h' := (alphabetChar_marker x).2 h
      rw [List.filter_cons_of_neg (by simp [h']), List.filter_cons_of_neg (by simp [h])]
      exact ih
    · have h' : ¬ alphabetChar x = 'Ġ' := fun e => h ((alphabetChar_marker x).1 e)
      rw [List.filter_cons_of_pos (by simp [h']), List.filter_cons_of_pos (by simp [h])]
      simp only [List.map_cons, back, if_neg h]
      exact congrArg _ ih

theorem unmarked_images (tb : List (List UInt8)) :
    unmarked (tb.map byteLevelImage) =
      (tb.dropLast.flatten ++ (tb.getLast?.getD []).filter (· ≠ 32)).map back := by
  unfold unmarked
  rw [← List.map_dropLast, List.map_map, List.getLast?_map, List.map_append, List.map_flatten]
  congr 1
  · congr 1
    apply List.map_congr_left
    intro bs _
    exact spaced_image bs
  · cases tb.getLast? with
    | none => rfl
    | some bs => exact filter_image bs

theorem dropLast_getLast (tb : List (List UInt8)) : tb.dropLast.flatten ++ tb.getLast?.getD [] = tb.flatten := by
  induction tb with
  | nil => rfl
  | cons a l ih =>
    cases l with
    | nil => simp
    | cons b l => simp [List.getLast?_cons_cons] at ih ⊢; exact ih

theorem enc_ascii {c : Char} (h : c.utf8Size = 1) : String.utf8EncodeChar c = [c.toNat.toUInt8] ∧ c.toNat < 128 := by
  have hlt : c.toNat ≤ 127 := by
    have : c.val ≤ 0x7f := by
      apply Classical.byContradiction
      intro hn
      unfold Char.utf8Size at h
      dsimp only at h
      split at h
      · next hh => exact hn hh
      · split at h
        · cases h
        · split at h <;> cases h
    exact this
  refine ⟨?_, by omega⟩
  have hv : c.val.toNat ≤ 127 := hlt
  simp only [String.utf8EncodeChar]
  rw [if_pos hv]
  rfl

theorem count_enc (c : Char) : (String.utf8EncodeChar c).count 32 = if c = ' ' then 1 else 0 := by
  by_cases h : c = ' '
  · subst h; decide +kernel
  · rw [if_neg h, List.count_eq_zero]
    intro hm
    obtain ⟨i, e⟩ := List.mem_iff_getElem?.mp hm
    by_cases h0 : 0 < i
    · have := Norm.enc_cont c i h0 _ e
      revert this
      decide +kernel
    · obtain rfl : i = 0 := by omega
      apply h
      have big : ∀ n : Nat, 128 ≤ n → n < 256 → UInt8.ofNat n ≠ 32 := by
        intro n h1 h2 hh
        have := congrArg UInt8.toNat hh
        rw [UInt8.toNat_ofNat', Nat.mod_eq_of_lt (by omega)] at this
        have h3 : (32 : UInt8).toNat = 32 := rfl
        omega
      unfold String.utf8EncodeChar at e
      dsimp only at e
      split at e
      · next hv =>
        simp only [List.getElem?_cons_zero, Option.some.injEq] at e
        have := congrArg UInt8.toNat e
        rw [UInt8.toNat_ofNat', Nat.mod_eq_of_lt (by omega)] at this
        have h3 : (32 : UInt8).toNat = 32 := rfl
        apply Char.ext
        apply UInt32.toNat_inj.mp
        rw [this]; rfl
      · split at e
        · simp only [List.getElem?_cons_zero, Option.some.injEq] at e
          exact absurd e (big _ (by omega) (by omega))
        · split at e
          · simp only [List.getElem?_cons_zero, Option.some.injEq] at e
            exact absurd e (big _ (by omega) (by omega))
          · simp only [List.getElem?_cons_zero, Option.some.injEq] at e
            exact absurd e (big _ (by omega) (by omega))

theorem count_encStr (s : Str) : (encStr s).count 32 = s.count ' ' := by
  induction s with
  | nil => rfl
  | cons c cs ih =>
    rw [encStr_cons, List.count_append, ih, count_enc, List.count_cons]
    by_cases h : c = ' '
    · simp [h]; omega
    · simp [h]

theorem count_back (bs : List UInt8) : (bs.map back).count ' ' = bs.count 32 := by
  induction bs with
  | nil => rfl
  | cons x bs ih =>
    rw [List.map_cons, List.count_cons, List.count_cons, ih]
    by_cases h : x = 32
    · simp [h, back]
    · have : ¬ back x = ' ' := fun e => h ((back_space x).1 e)
      simp [h, this]

theorem all_one : ∀ (s : Str), s.length = blen s → ∀ c ∈ s, c.utf8Size = 1 := by
  intro s
  induction s with
  | nil => simp
  | cons c cs ih =>
    intro h d hd
    have h1 := c.utf8Size_pos
    have h2 : cs.length ≤ blen cs := Norm.length_le_blen cs
    rw [blen_cons] at h
    simp only [List.length_cons] at h
    rcases List.mem_cons.mp hd with rfl | hd
    · omega
    · exact ih (by omega) d hd

theorem back_ascii {c : Char} (h : c.utf8Size = 1) : back c.toNat.toUInt8 = c ↔ Printable c := by
  obtain ⟨_, hlt⟩ := enc_ascii h
  have key : ∀ i < 128, back i.toUInt8 = Char.ofNat i ↔ 32 ≤ i ∧ i ≤ 126 := by decide +kernel
  have := key c.toNat hlt
  rw [Char.ofNat_toNat] at this
  rw [this]
  unfold Printable
  rw [Char.le_def, Char.le_def, UInt32.le_iff_toNat_le, UInt32.le_iff_toNat_le]
  exact Iff.rfl

theorem map_back (u : Str) (h : ∀ c ∈ u, c.utf8Size = 1) :
    (encStr u).map back = u ↔ ∀ c ∈ u, Printable c := by
  induction u with
  | nil => simp
  | cons c cs ih =>
    have h1 := h c (by simp)
    rw [encStr_cons, (enc_ascii h1).1]
    simp only [List.cons_append, List.nil_append, List.map_cons, List.cons.injEq, List.forall_mem_cons]
    rw [back_ascii h1, ih (fun d hd => h d (by simp [hd]))]

theorem printable_one {c : Char} (h : Printable c) : c.utf8Size = 1 := by
  have : c.val ≤ 0x7f := by
    have h2 := h.2
    rw [Char.le_def, UInt32.le_iff_toNat_le] at h2
    rw [UInt32.le_iff_toNat_le]
    exact Nat.le_trans h2 (by decide)
  simp [Char.utf8Size, this]

/-- When the tokens give the text back. -/
theorem unmarked_iff (tb : List (List UInt8)) (u : Str) (h : tb.flatten = encStr u) :
    unmarked (tb.map byteLevelImage) = u ↔
      (∀ c ∈ u, Printable c) ∧ ∀ w, (tb.map byteLevelImage).getLast? = some w → 'Ġ' ∉ w := by
  rw [unmarked_images]
  have hl : (∀ w, (tb.map byteLevelImage).getLast? = some w → 'Ġ' ∉ w) ↔ 32 ∉ tb.getLast?.getD [] := by
    rw [List.getLast?_map]
    cases tb.getLast? with
    | none => simp
    | some bs =>
      simp only [Option.map_some, Option.some.injEq, forall_eq', Option.getD_some, byteLevelImage, List.mem_map, not_exists,
        not_and]
      constructor
      · intro k hm; exact k 32 hm ((alphabetChar_marker 32).2 rfl)
      · intro k x hx e; exact k (((alphabetChar_marker x).1 e) ▸ hx)
  rw [hl]
  have hd := dropLast_getLast tb
  rw [h] at hd
  have hfil : 32 ∉ tb.getLast?.getD [] → (tb.getLast?.getD []).filter (· ≠ 32) = tb.getLast?.getD [] := by
    intro k
    apply List.filter_eq_self.mpr
    intro x hx
    simp only [decide_eq_true_eq]
    rintro rfl
    exact k hx
  constructor
  · intro e
    have hno : 32 ∉ tb.getLast?.getD [] := by
      have c1 := congrArg (List.count ' ') e
      rw [count_back, List.count_append, ← count_encStr u, ← hd, List.count_append] at c1
      have c2 : ((tb.getLast?.getD []).filter (· ≠ 32)).count 32 = 0 := by
        apply List.count_eq_zero.mpr
        intro hm
        have := (List.mem_filter.mp hm).2
        simp at this
      rw [c2] at c1
      exact List.count_eq_zero.mp (by omega)
    rw [hfil hno, hd] at e
    have hlen := congrArg List.length e
    rw [List.length_map, length_encStr] at hlen
    exact ⟨(map_back u (all_one u hlen.symm)).1 e, hno⟩
  · rintro ⟨h1, h2⟩
    rw [hfil h2, hd]
    exact (map_back u (fun c hc => printable_one (h1 c hc))).2 h1

/-! ### Ids and tokens -/

theorem bpeModel_known {H : Heap} {b : BpeModel} {bs : List UInt8} {ts : List Token} {t : Token}
    (h : bpeModel H b bs = .ok (some ts)) (ht : t ∈ ts) (hv : t.value ≠ []) : b.vocabR t.id = some t.value := by
  unfold bpeModel at h
  obtain ⟨o, _, h⟩ := Res.bind_eq_ok.mp h
  cases o with
  | none => cases h
  | some ss =>
    cases h
    obtain ⟨x, hx, rfl⟩ := List.mem_map.mp ht
    obtain ⟨p, _, rfl⟩ := List.mem_map.mp hx
    dsimp only at hv ⊢
    cases hp : b.vocabR p.1 with
    | none => rw [hp] at hv; exact absurd rfl hv
    | some w => rfl

theorem decodeTokens_known {T : VocabState} {skip : Bool} : ∀ (rows : List Row),
    (∀ r ∈ rows, T.idToToken r.token.id = some r.token.value ∧ (skip = true → T.isSpecial r.token.value = false)) →
    T.decodeTokens skip (rows.map (·.token.id)) = rows.map (·.token.value) := by
  intro rows
  induction rows with
  | nil => intro _; rfl
  | cons r rs ih =>
    intro h
    have h1 := h r (by simp)
    simp only [List.map_cons, VocabState.decodeTokens, h1.1]
    rw [if_pos, ih (fun x hx => h x (by simp [hx]))]
    cases skip with
    | false => rfl
    | true => simp [h1.2 rfl]

theorem ofRows_fresh (rows : List Row) (typeId : Int) : Fresh (ofRows rows typeId) :=
  ⟨⟨[], rfl, by simp [GoodRanges]⟩, by simp [ofRows, Encoding.default]⟩

theorem prefixed_printable (a : Bool) (s : Str) : (∀ c ∈ prefixed a s, Printable c) ↔ ∀ c ∈ s, Printable c := by
  unfold prefixed
  split
  · simp only [List.forall_mem_cons, and_iff_right_iff_imp]
    intro _
    exact ⟨by decide, by decide⟩
  · rfl

/-! ### C103 -/

/-- C103 for the GPT-2 tokenizer: a text is encoded, `Decode` of the ids is the tokens with their markers turned into
spaces, the markers of the last token dropped; and it is the text (with the space in front, if that is wanted) exactly if
all its characters are printable ASCII and the last token has no marker. -/
theorem C103_gpt2 (E : Env) (hL : E.isL ' ' = false) (hN : E.isN ' ' = false) (H : Heap) (vocab : List (Str × Int))
    {b : BpeModel} (hb : ByteTables b) (a trim : Bool) (s : Str) (hnul : a = true → s.head? ≠ some '\x00')
    (opts : List Bool) :
    ∃ r, (gpt2 E H vocab b a trim).tok.encodeSingle (encStr s) opts = .ok (some r) ∧
      (∃ tb : List (List UInt8), tb.flatten = encStr (prefixed a s) ∧ (∀ x ∈ tb, x ≠ []) ∧
        r.tokens = tb.map byteLevelImage) ∧
      ∀ skip, (gpt2 E H vocab b a trim).decode r.ids skip = .ok (unmarked r.tokens) ∧
        ((gpt2 E H vocab b a trim).decode r.ids skip = .ok (prefixed a s) ↔
          (∀ c ∈ s, Printable c) ∧ ∀ w, r.tokens.getLast? = some w → 'Ġ' ∉ w) := by
  obtain ⟨e, tb, h1, h2, h3, h4, _, rows, h6, h7⟩ := byteTk_encode (t := (gpt2 E H vocab b a trim).tok.tk) (a := a)
    ⟨rfl, rfl, _, rfl, byteModel_bpe H hb⟩ (gpt2_proper E.isL E.isN) s ⟨rfl, rfl⟩ hnul
    (fun hs _ h => gpt2_keeps E.isL E.isN hL hN hs h) 0
  obtain ⟨r, k1, k2, _⟩ := C102_single trim a (opts.headD false) e (h6 ▸ ofRows_fresh rows 0) (h6 ▸ ofRows_aligned rows 0)
    (by rw [h6]; simp [ofRows, Encoding.default])
  have hids : r.ids = rows.map (·.token.id) := by
    have := k2.same .ids (by simp)
    simp only [Encoding.arr, seqArr] at this
    rw [this, h6]
    rfl
  have htok : r.tokens = tb.map byteLevelImage := by
    have := k2.same .tokens (by simp)
    simp only [Encoding.arr, seqArr] at this
    rw [this, h4]
  refine ⟨r, ?_, ⟨tb, h2, h3, htok⟩, ?_⟩
  · simp only [Tokenizer.encodeSingle, Tokenizer.encode, Tokenizer.encodeWith, h1, Res.bind_ok]
    simp only [postProcess, gpt2, postTruncate, Res.bind_ok, k1]
  · intro skip
    have hd : (gpt2 E H vocab b a trim).decode r.ids skip = .ok (unmarked r.tokens) := by
      have hvals : rows.map (·.token.value) = tb.map byteLevelImage := by rw [← h4, h6]; rfl
      have hknown : ∀ q ∈ rows, b.vocabR q.token.id = some q.token.value := by
        intro q hq
        obtain ⟨f, bs, ts, m1, m2, m3⟩ := h7 q hq
        cases m1
        apply bpeModel_known m2 m3
        have : q.token.value ∈ rows.map (·.token.value) := List.mem_map_of_mem hq
        rw [hvals] at this
        obtain ⟨x, hx, e'⟩ := List.mem_map.mp this
        intro hv
        rw [hv] at e'
        exact h3 x hx (List.map_eq_nil_iff.mp e')
      unfold Loaded.decode VocabState.decode
      dsimp only
      rw [hids, decodeTokens_known (T := (gpt2 E H vocab b a trim).state) rows (fun q hq => ⟨hknown q hq, fun _ => rfl⟩), htok, hvals]
      exact gpt2_decoder _
    refine ⟨hd, ?_⟩
    rw [hd, htok]
    simp only [Res.ok.injEq]
    rw [unmarked_iff tb _ h2, prefixed_printable]

/-- C103 fails: a text with a character that is not printable ASCII never comes back. -/
theorem C103_gpt2_ascii_violated (E : Env) (hL : E.isL ' ' = false) (hN : E.isN ' ' = false) (H : Heap)
    (vocab : List (Str × Int)) {b : BpeModel} (hb : ByteTables b) (trim : Bool) (s : Str) (c : Char) (hc : c ∈ s)
    (hp : ¬ Printable c) (opts : List Bool) :
    ∃ r, (gpt2 E H vocab b false trim).tok.encodeSingle (encStr s) opts = .ok (some r) ∧
      ∀ skip, (gpt2 E H vocab b false trim).decode r.ids skip ≠ .ok s := by
  obtain ⟨r, h1, _, h2⟩ := C103_gpt2 E hL hN H vocab hb false trim s (by simp) opts
  refine ⟨r, h1, fun skip h => hp (((h2 skip).2.1 ?_).1 c hc)⟩
  rw [h, (C67_places s).1]

/-- C103 fails: a text that ends with a space never comes back. -/
theorem C103_gpt2_space_violated (E : Env) (hL : E.isL ' ' = false) (hN : E.isN ' ' = false) (H : Heap)
    (vocab : List (Str × Int)) {b : BpeModel} (hb : ByteTables b) (trim : Bool) (s : Str) (opts : List Bool) :
    ∃ r, (gpt2 E H vocab b false trim).tok.encodeSingle (encStr (s ++ [' '])) opts = .ok (some r) ∧
      ∀ skip, (gpt2 E H vocab b false trim).decode r.ids skip ≠ .ok (s ++ [' ']) := by
  obtain ⟨r, h1, ⟨tb, t1, t2, t3⟩, h2⟩ := C103_gpt2 E hL hN H vocab hb false trim (s ++ [' ']) (by simp) opts
  refine ⟨r, h1, fun skip h => ?_⟩
  have h3 := ((h2 skip).2.1 (by rw [h, (C67_places _).1])).2
  rw [(C67_places _).1, encStr_append] at t1
  have h4 : encStr [' '] = [32] := by decide +kernel
  rw [h4] at t1
  have h5 : 32 ∈ tb.getLast?.getD [] := by
    rw [← dropLast_getLast] at t1
    cases hl : tb.getLast? with
    | none =>
      rw [List.getLast?_eq_none_iff.mp hl] at t1
      simp at t1
    | some x =>
      have hx := t2 x (List.mem_of_getLast? hl)
      rw [hl, Option.getD_some] at t1
      have h6 := congrArg List.getLast? t1
      rw [List.getLast?_concat, List.getLast?_append] at h6
      rw [Option.getD_some]
      cases hx' : x.getLast? with
      | none => exact absurd (List.getLast?_eq_none_iff.mp hx') hx
      | some y =>
        rw [hx'] at h6
        have h7 := List.mem_of_getLast? hx'
        simp at h6
        rw [h6] at h7
        exact h7
  cases hl : tb.getLast? with
  | none => rw [hl] at h5; cases h5
  | some x =>
    rw [hl] at h5
    apply h3 (byteLevelImage x) (by rw [t3, List.getLast?_map, hl]; rfl)
    exact List.mem_map.mpr ⟨32, h5, (alphabetChar_marker 32).2 rfl⟩

/-- C103, the part that holds: printable ASCII whose last token has no marker comes back. -/
theorem C103_gpt2_partial (E : Env) (hL : E.isL ' ' = false) (hN : E.isN ' ' = false) (H : Heap)
    (vocab : List (Str × Int)) {b : BpeModel} (hb : ByteTables b) (trim : Bool) (s : Str) (hs : ∀ c ∈ s, Printable c)
    (opts : List Bool) :
    ∃ r, (gpt2 E H vocab b false trim).tok.encodeSingle (encStr s) opts = .ok (some r) ∧
      ((∀ w, r.tokens.getLast? = some w → 'Ġ' ∉ w) →
        ∀ skip, (gpt2 E H vocab b false trim).decode r.ids skip = .ok s) := by
  obtain ⟨r, h1, _, h2⟩ := C103_gpt2 E hL hN H vocab hb false trim s (by simp) opts
  refine ⟨r, h1, fun hl skip => ?_⟩
  have := (h2 skip).2.2 ⟨hs, hl⟩
  rwa [(C67_places s).1] at this

/-! ### A case -/

/-- Latin letters, no digits, no punctuation; everything else is not used by GPT-2. -/
def caseEnv : Env where
  isL := fun c => decide ('a' ≤ c ∧ c ≤ 'z')
  isN := fun _ => false
  wordChar := fun c => decide ('a' ≤ c ∧ c ≤ 'z')
  order := id
  ws := fun _ => []
  punc := fun _ => false
  tables := {
    ctl := fun _ => false, mn := fun _ => false, space := fun _ => false, lower := id, nfd := fun s => [decStr s]
    nfkd := fun s => [decStr s], isNFC := fun _ => true, isNFKC := fun _ => true, isNFKD := fun _ => true }

/-- "ab " loses its space, "é" comes back as two other characters; "ab b" comes back, as its last token is "b". -/
example (H : Heap) : ∃ r, (gpt2 caseEnv H [] exampleBpe false true).tok.encodeSingle (encStr ['a', 'b', ' ']) [] = .ok (some r) ∧
    ∀ skip, (gpt2 caseEnv H [] exampleBpe false true).decode r.ids skip ≠ .ok ['a', 'b', ' '] :=
  C103_gpt2_space_violated caseEnv (by decide) rfl H [] exampleBpe_bytes true ['a', 'b'] []

example (H : Heap) : ∃ r, (gpt2 caseEnv H [] exampleBpe false true).tok.encodeSingle (encStr ['é']) [] = .ok (some r) ∧
    ∀ skip, (gpt2 caseEnv H [] exampleBpe false true).decode r.ids skip ≠ .ok ['é'] :=
  C103_gpt2_ascii_violated caseEnv (by decide) rfl H [] exampleBpe_bytes true ['é'] 'é' (by simp)
    (by unfold Printable; decide) []

example : okAnd ((gpt2 caseEnv listHeap [] exampleBpe false true).tok.encodeSingle (encStr ['a', 'b', ' ', 'b']) [])
    (fun o => decide (o.map (fun r => (r.tokens, r.offsets)) =
        some ([['a', 'b'], ['Ġ'], ['b']], [(0, 2), (3, 3), (3, 4)])) &&
      okAnd ((gpt2 caseEnv listHeap [] exampleBpe false true).decode ((o.map (·.ids)).getD []) true)
        (fun t => decide (t = ['a', 'b', ' ', 'b']))) = true := by decide +kernel

end Tok.Whole
