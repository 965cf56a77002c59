import Verif.PreTok.PropsByteLevel
import Verif.PreTok.PropsBpe

/-!
# The entries of an encoding behind the byte-level pre-tokenizer
-/

namespace Tok.PreTok

open Tok.Norm

/-! ### Specification -/

/-- The place of consecutive tokens, given by their bytes, from byte `p` on: from the start of the
character of the first byte to the end of the character of the last byte, where `al` gives for each
byte the place of its character. -/
def placesFrom (al : List (Int × Int)) : Nat → List (List UInt8) → List (Int × Int)
  | _, [] => []
  | p, t :: ts => (((al[p]?).getD (0, 0)).1, ((al[p + t.length - 1]?).getD (0, 0)).2) :: placesFrom al (p + t.length) ts

/-- The model cuts the image of some bytes into the images of consecutive pieces. -/
def ByteModel (f : List UInt8 → Res (Option (List Token))) : Prop :=
  ∀ bs : List UInt8, bs ≠ [] → ∃ (tb : List (List UInt8)) (ts : List Token),
    f (encStr (byteLevelImage bs)) = .ok (some ts) ∧ tb.flatten = bs ∧ (∀ t ∈ tb, t ≠ []) ∧
    ts.map (·.value) = tb.map byteLevelImage ∧ ts.map (·.offsets) = spansFrom 0 (tb.map byteLevelImage)

/-! ### Places -/

theorem placesFrom_append (al : List (Int × Int)) (a b : List (List UInt8)) : ∀ p,
    placesFrom al p (a ++ b) = placesFrom al p a ++ placesFrom al (p + a.flatten.length) b := by
  induction a with
  | nil => intro p; rfl
  | cons t a ih =>
    intro p
    rw [List.cons_append, placesFrom, ih, placesFrom, List.flatten_cons, List.length_append, Nat.add_assoc]
    rfl

theorem placesFrom_left (al am : List (Int × Int)) (ts : List (List UInt8)) (hne : ∀ t ∈ ts, t ≠ []) : ∀ p,
    p + ts.flatten.length ≤ al.length → placesFrom (al ++ am) p ts = placesFrom al p ts := by
  induction ts with
  | nil => intro p _; rfl
  | cons t ts ih =>
    intro p h
    have ht : 0 < t.length := List.length_pos_iff.mpr (hne t (by simp))
    rw [List.flatten_cons, List.length_append] at h
    rw [placesFrom, placesFrom, ih (fun x hx => hne x (by simp [hx])) _ (by omega),
      List.getElem?_append_left (by omega), List.getElem?_append_left (by omega)]

theorem placesFrom_right (al am : List (Int × Int)) (ts : List (List UInt8)) (hne : ∀ t ∈ ts, t ≠ []) : ∀ p,
    placesFrom (al ++ am) (al.length + p) ts = placesFrom am p ts := by
  induction ts with
  | nil => intro p; rfl
  | cons t ts ih =>
    intro p
    have ht : 0 < t.length := List.length_pos_iff.mpr (hne t (by simp))
    rw [placesFrom, placesFrom, Nat.add_assoc al.length, ih (fun x hx => hne x (by simp [hx])),
      List.getElem?_append_right (by omega), List.getElem?_append_right (by omega),
      show al.length + p - al.length = p by omega,
      show al.length + (p + t.length) - 1 - al.length = p + t.length - 1 by omega]

theorem placesFrom_right' (al am : List (Int × Int)) (ts : List (List UInt8)) (hne : ∀ t ∈ ts, t ≠ []) :
    placesFrom (al ++ am) al.length ts = placesFrom am 0 ts := placesFrom_right al am ts hne 0

/-! ### The tokens of one piece -/

theorem image_split (f : UInt8 → Char) (ws : List Str) : ∀ bs : List UInt8, ws.flatten = bs.map f →
    ∃ tb : List (List UInt8), tb.flatten = bs ∧ tb.map (·.map f) = ws := by
  induction ws with
  | nil =>
    intro bs h
    have : bs = [] := by simpa using h.symm
    subst this
    exact ⟨[], rfl, rfl⟩
  | cons w ws ih =>
    intro bs h
    rw [List.flatten_cons] at h
    obtain ⟨b1, b2, e1, e2, e3⟩ := List.map_eq_append_iff.mp h.symm
    obtain ⟨tb, h1, h2⟩ := ih b2 e3.symm
    exact ⟨b1 :: tb, by rw [List.flatten_cons, h1, e1], by rw [List.map_cons, h2, e2]⟩

theorem origOffsets_imaged {b : List (Str × Str)} {k : Nat} {y : NStr} (h : Imaged b k y) (hn : '\x00' ∉ rights b)
    (A T B : List UInt8) (he : encStr (rights b) = A ++ T ++ B) (hT : T ≠ []) :
    origOffsets y (((blen (byteLevelImage A) : Nat) : Int), ((blen (byteLevelImage A) + blen (byteLevelImage T) : Nat) : Int)) =
      .ok ((((alignsOf b k)[A.length]?).getD (0, 0)).1, (((alignsOf b k)[A.length + T.length - 1]?).getD (0, 0)).2) := by
  have hTi : byteLevelImage T ≠ [] := by
    unfold byteLevelImage; simpa using hT
  have hpos := length_pos_of_ne hTi
  have hTl : 0 < T.length := List.length_pos_iff.mpr hT
  have hlen : (alignsOf b 0).length = A.length + T.length + B.length := by
    rw [length_alignsOf, ← length_encStr, he, List.length_append, List.length_append]
  have hnl : y.normalized.length = blen (byteLevelImage A) + blen (byteLevelImage T) + blen (byteLevelImage B) := by
    rw [h.text, length_encStr, he, byteLevelImage_append, byteLevelImage_append, blen_append, blen_append]
  have hal := h.aligns hn
  -- the alignments of the three parts
  obtain ⟨a1, a2, a3, hsp, l1, l2⟩ : ∃ a1 a2 a3, alignsOf b 0 = a1 ++ a2 ++ a3 ∧ a1.length = A.length ∧ a2.length = T.length := by
    refine ⟨(alignsOf b 0).take A.length, ((alignsOf b 0).drop A.length).take T.length,
      ((alignsOf b 0).drop A.length).drop T.length, ?_, ?_, ?_⟩
    · rw [List.append_assoc, List.take_append_drop, List.take_append_drop]
    · rw [List.length_take]; omega
    · rw [List.length_take, List.length_drop]; omega
  have hst : y.aligns = stretch A a1 ++ stretch T a2 ++ stretch B a3 := by
    rw [hal, he, hsp, stretch_append _ _ _ _ (by simp [l1, l2]), stretch_append _ _ _ _ l1]
  have hsA : (stretch A a1).length = blen (byteLevelImage A) := length_stretch A a1 l1
  have hsT : (stretch T a2).length = blen (byteLevelImage T) := length_stretch T a2 l2
  obtain ⟨x, z, hx, hz, hexp⟩ := expand_stretch T a2 l2 hT
  have hx' : (alignsOf b 0)[A.length]? = some x := by
    rw [hsp, List.append_assoc, List.getElem?_append_right (by omega), l1, Nat.sub_self,
      List.getElem?_append_left (by omega), ← List.head?_eq_getElem?, hx]
  have hz' : (alignsOf b 0)[A.length + T.length - 1]? = some z := by
    rw [hsp, List.append_assoc, List.getElem?_append_right (by omega), l1,
      List.getElem?_append_left (by omega), show A.length + T.length - 1 - A.length = a2.length - 1 by omega,
      ← List.getLast?_eq_getElem?, hz]
  have hk : alignsOf b k = (alignsOf b 0).map (fun p => (p.1 + (k : Int), p.2 + (k : Int))) := by
    have := alignsOf_shift b k 0
    rwa [Nat.zero_add] at this
  rw [hk, List.getElem?_map, List.getElem?_map, hx', hz']
  unfold origOffsets NStr.convert
  simp only [Rng.full]
  have hla := h.lenA
  generalize blen (byteLevelImage A) = p at *
  generalize blen (byteLevelImage T) = q at *
  rw [if_neg (show ¬ (p : Int) = -1 by omega), if_neg (show ¬ ((p + q : Nat) : Int) > (y.normalized.length : Int) by omega),
    if_neg (by omega), if_neg (by omega)]
  rw [slc_ok (by omega) (by omega) (by rw [h.lenA]; omega)]
  simp only [Int.toNat_natCast, Res.bind_ok]
  have hcut : (y.aligns.take (p + q)).drop p = stretch T a2 := by
    rw [hst, ← hsA, ← hsT, ← List.length_append, List.take_left, List.drop_left]
  rw [hcut, hexp, h.shift]
  simp only [Res.bind_ok, Option.map_some, Option.getD_some, Res.ok.injEq, Prod.mk.injEq]
  omega

theorem rows_piece {b : List (Str × Str)} {k : Nat} {y : NStr} (h : Imaged b k y) (hn : '\x00' ∉ rights b) (word : Int)
    (tb : List (List UInt8)) (hne : ∀ t ∈ tb, t ≠ []) : ∀ (A : List UInt8) (ts : List Token),
    encStr (rights b) = A ++ tb.flatten → ts.map (·.offsets) = spansFrom (blen (byteLevelImage A)) (tb.map byteLevelImage) →
    ∃ rows, rowsOfTokens [] y word ts = .ok rows ∧ rows.map (·.offsets) = placesFrom (alignsOf b k) A.length tb := by
  induction tb with
  | nil =>
    intro A ts _ ho
    have : ts = [] := by simpa [spansFrom] using ho
    subst this
    exact ⟨[], rfl, rfl⟩
  | cons t tb ih =>
    intro A ts he ho
    cases ts with
    | nil => simp [spansFrom] at ho
    | cons x ts =>
      simp only [List.map_cons, spansFrom, List.cons.injEq] at ho
      obtain ⟨ho1, ho2⟩ := ho
      rw [List.flatten_cons] at he
      have hoff := origOffsets_imaged h hn A t tb.flatten (by rw [he, List.append_assoc]) (hne t (by simp))
      obtain ⟨rows, h1, h2⟩ := ih (fun x hx => hne x (by simp [hx])) (A ++ t) ts (by rw [he, List.append_assoc])
        (by rw [byteLevelImage_append, blen_append]; exact ho2)
      refine ⟨⟨x, ((((alignsOf b k)[A.length]?).getD (0, 0)).1, (((alignsOf b k)[A.length + t.length - 1]?).getD (0, 0)).2), word⟩ :: rows, ?_, ?_⟩
      · simp only [rowsOfTokens, ho1, hoff, h1, Res.bind_ok]
        rfl
      · rw [List.map_cons, h2, placesFrom, List.length_append]

/-- The tokens of all pieces. -/
theorem rows_each {f : List UInt8 → Res (Option (List Token))} (hf : ByteModel f) (wordIdx : Int)
    (ys : List NStr) : ∀ (k : Nat) (bss : List (List (Str × Str))) (i : Nat), Each Imaged k bss ys →
      (∀ b ∈ bss.flatten, b.1 ≠ [] ∧ b.2 ≠ []) →
    ∃ (ss : List Split) (rows : List Row) (tb : List (List UInt8)),
      tokenizeLoop (fun n => f n.normalized) (ys.map (fun y => ⟨y, none⟩)) = .ok ss ∧
      ss.length = ys.length ∧
      ss.any (fun s => (s.tokens.getD []).isEmpty) = false ∧
      rowsOfSplits [] wordIdx ss i = .ok rows ∧
      tb.flatten = encStr (rights bss.flatten) ∧ (∀ t ∈ tb, t ≠ []) ∧
      rows.map (·.token.value) = tb.map byteLevelImage ∧
      ('\x00' ∉ rights bss.flatten → rows.map (·.offsets) = placesFrom (alignsOf bss.flatten k) 0 tb) ∧
      ∀ r ∈ rows, ∃ bs ts, f bs = .ok (some ts) ∧ r.token ∈ ts := by
  induction ys with
  | nil =>
    intro k bss i h _
    cases bss with
    | nil => exact ⟨[], [], [], rfl, rfl, rfl, rfl, rfl, by simp, rfl, fun _ => rfl, by simp⟩
    | cons b bss => exact h.elim
  | cons y ys ih =>
    intro k bss i h hb
    cases bss with
    | nil => exact h.elim
    | cons b bss =>
      obtain ⟨h1, h2, h3⟩ := h
      rw [← Int.natCast_add] at h3
      obtain ⟨ss, rows, tb, e1, e2, e3, e4, e5, e6, e7, e8, e9⟩ := ih _ bss (i + 1) h3 (fun x hx => hb x (by simp [hx]))
      have hrb : rights b ≠ [] := (lefts_pos (fun x hx => hb x (by simp [hx])) h1).2
      obtain ⟨tb1, ts, f1, f2, f3, f4, f5⟩ := hf (encStr (rights b)) (enc_ne hrb)
      have hts : ts ≠ [] := by
        rintro rfl
        have : tb1 = [] := by simpa using f4.symm
        subst this
        exact enc_ne hrb f2.symm
      -- the rows of the first piece
      have hrow : ∃ r1, rowsOfTokens [] y (if wordIdx = -1 then (i : Int) else wordIdx) ts = .ok r1 ∧
          r1.map (·.token) = ts ∧
          ('\x00' ∉ rights b → r1.map (·.offsets) = placesFrom (alignsOf b k) 0 tb1) := by
        have hpos : ∀ t ∈ ts, 0 ≤ t.offsets.1 ∧ t.offsets.1 ≤ t.offsets.2 := by
          intro t ht
          have : t.offsets ∈ spansFrom (blen ([] : Str)) (tb1.map byteLevelImage) := by
            rw [blen_nil, ← f5]; exact List.mem_map_of_mem ht
          obtain ⟨g, w, r, _, _, e⟩ := located_spans _ (by
            intro w hw
            obtain ⟨t, ht, rfl⟩ := List.mem_map.mp hw
            unfold byteLevelImage
            simpa using f3 t ht) [] _ this
          rw [e, blen_append]
          exact ⟨by omega, by omega⟩
        obtain ⟨r1, g1⟩ := rowsOfTokens_ok (m := []) (word := if wordIdx = -1 then (i : Int) else wordIdx) h2.lenA hpos
        refine ⟨r1, g1, (rowsOfTokens_spec g1).1, ?_⟩
        intro hn
        obtain ⟨r2, g2, g3⟩ := rows_piece h2 hn (if wordIdx = -1 then (i : Int) else wordIdx) tb1 f3 [] ts
          (by rw [f2]; rfl) f5
        rw [g1] at g2
        cases g2
        exact g3
      obtain ⟨r1, g1, g2, g3⟩ := hrow
      have hval : r1.map (·.token.value) = tb1.map byteLevelImage := by
        rw [← f4, ← g2, List.map_map]; rfl
      refine ⟨⟨y, some ts⟩ :: ss, r1 ++ rows, tb1 ++ tb, ?_, by simp [e2], ?_, ?_, ?_, ?_, ?_, ?_, ?_⟩
      · simp only [List.map_cons, tokenizeLoop, h2.text, f1, e1, Res.bind_ok]
      · rw [List.any_cons, e3, Bool.or_false]
        simpa using hts
      · simp only [rowsOfSplits, Option.getD_some, g1, e4, Res.bind_ok]
      · rw [List.flatten_append, f2, e5, List.flatten_cons, rights_append, encStr_append]
      · intro t ht
        rcases List.mem_append.mp ht with ht | ht
        · exact f3 t ht
        · exact e6 t ht
      · rw [List.map_append, List.map_append, hval, e7]
      · intro hn
        rw [List.flatten_cons, rights_append] at hn
        rw [List.map_append, g3 (fun hx => hn (List.mem_append_left _ hx)), e8 (fun hx => hn (List.mem_append_right _ hx)),
          List.flatten_cons, alignsOf_append, placesFrom_append]
        have hl : tb1.flatten.length = (alignsOf b k).length := by rw [f2, length_encStr, length_alignsOf]
        rw [placesFrom_left _ _ _ f3 0 (by omega), Nat.zero_add, hl, placesFrom_right' _ _ _ e6]
      · intro r hr
        rcases List.mem_append.mp hr with hr | hr
        · exact ⟨_, ts, f1, by rw [← g2]; exact List.mem_map_of_mem hr⟩
        · exact e9 r hr

/-! ### Tokenizers -/

/-- A tokenizer without normalizer and with the byte-level pre-tokenizer. -/
structure ByteTk (t : Tk) (a : Bool) (engine : List UInt8 → List (Nat × Nat)) : Prop where
  normalizer : t.normalizer = none
  preTokenizer : t.preTokenizer = some (byteLevelPre a engine)
  model : ∃ f, t.model = some f ∧ ByteModel f

/-- No added token occurs in the text. -/
def NoAdded (t : Tk) (s : Str) : Prop :=
  t.splitRe.engine (encStr s) = [] ∧ t.splitNormalizedRe.engine (encStr s) = []

theorem split_none {re : MatchingSet} {s : Str} (h : re.engine (encStr s) = []) (hs : s ≠ []) {x : NStr}
    (hx : FPart s [] s x) : ∃ y, splitWithIndices re x = .ok [⟨some y, none⟩] ∧ FPart s [] s y := by
  obtain ⟨y, h1, h2⟩ := fpart_slice hx (a := []) (w := s) (b := []) (by simp) hs
  refine ⟨y, ?_, by simpa using h2⟩
  have hpos := length_pos_of_ne hs
  have h1' : x.slice ⟨0, ((blen s : Nat) : Int), .normalized⟩ = .ok (some y) := by simpa using h1
  simp only [splitWithIndices, fpart_text hx, h, length_encStr, findMatches]
  rw [if_neg (by omega)]
  have h0 : ¬ 0 = blen s := by omega
  simp [selectMatches, fillGaps, h0, sliceMatches, h1']

theorem extract_none {t : Tk} (hn : t.normalizer = none) {s : Str} (h : NoAdded t s) (hs : s ≠ []) :
    ∃ y, t.extractAndNormalize (encStr s) = .ok ⟨encStr s, [⟨y, none⟩]⟩ ∧ FPart s [] s y := by
  obtain ⟨x, h1, h2⟩ := split_none h.1 hs (fpart_whole s)
  obtain ⟨y, h3, h4⟩ := split_none h.2 hs h2
  refine ⟨y, ?_, h4⟩
  have hx : x.normalized ≠ [] := by rw [fpart_text h2]; exact enc_ne hs
  have hy : y.normalized ≠ [] := by rw [fpart_text h4]; exact enc_ne hs
  simp [Tk.extractAndNormalize, PTS.split, newPTS, splitLoop, h1, keepPieces, hx, Tk.normalizeOrDie, hn, h3, hy]

theorem prefixedBlocks_ne (a : Bool) (s : Str) : ∀ b ∈ prefixedBlocks a s, b.1 ≠ [] ∧ b.2 ≠ [] := by
  intro b hb
  cases s with
  | nil => cases hb
  | cons c t =>
    simp only [prefixedBlocks] at hb
    split at hb
    · rcases List.mem_cons.mp hb with rfl | hb
      · exact ⟨by simp, by simp⟩
      · exact singles_ne t b hb
    · exact singles_ne _ b hb

/-- The BPE tables know the 256 characters of the byte-level alphabet, and every merge is written as
its two parts are. -/
structure ByteTables (b : BpeModel) : Prop where
  pre : b.pre.getD [] = []
  alphabet : ∀ x : UInt8, ∃ id, b.vocab [alphabetChar x] = some id ∧ b.vocabR id = some [alphabetChar x]
  merges : ∀ x y m p q, b.merges x y = some m → b.vocabR x = some p → b.vocabR y = some q →
    b.vocabR m.newId = some (p ++ q)

theorem byteModel_bpe (H : Heap) {b : BpeModel} (hb : ByteTables b) : ByteModel (bpeModel H b) := by
  have hsym : ∀ first (x : UInt8), ∃ id, symbolId b first (alphabetChar x) = some id ∧ b.vocabR id = some [alphabetChar x] := by
    intro first x
    obtain ⟨id, e1, e2⟩ := hb.alphabet x
    refine ⟨id, ?_, e2⟩
    unfold symbolId
    rw [hb.pre]
    cases first <;> simp [e1]
  have hinit : ∀ bs : List UInt8, initialSymbols b (byteLevelImage bs) ≠ none := by
    have hone : ∀ first x, ∃ p, runeSymbol b first (alphabetChar x) = some p := by
      intro first x
      obtain ⟨id, e, _⟩ := hsym first x
      exact ⟨(id, (alphabetChar x).utf8Size), by simp [runeSymbol, e]⟩
    have hmany : ∀ bs : List UInt8, ∃ ps, (byteLevelImage bs).mapM (runeSymbol b false) = some ps := by
      intro bs
      induction bs with
      | nil => exact ⟨[], rfl⟩
      | cons x bs ih =>
        obtain ⟨ps, h⟩ := ih
        obtain ⟨p, hp⟩ := hone false x
        refine ⟨p :: ps, ?_⟩
        unfold byteLevelImage at h ⊢
        rw [List.map_cons, List.mapM_cons, hp, h]; rfl
    intro bs
    cases bs with
    | nil => simp [byteLevelImage, initialSymbols]
    | cons x bs =>
      obtain ⟨ps, h⟩ := hmany bs
      obtain ⟨p, hp⟩ := hone true x
      unfold byteLevelImage at h ⊢
      simp [initialSymbols, hp, h]
  intro bs hbs
  obtain ⟨qs, ts, e1, e2, e3, e4, _, e6⟩ := bpe_pieces H b
    (fun id w => (∀ c ∈ w, ∃ x, c = alphabetChar x) → b.vocabR id = some w) (by
      intro first r id hid hr
      obtain ⟨x, rfl⟩ := hr r (by simp)
      obtain ⟨id', k1, k2⟩ := hsym first x
      rw [hid] at k1
      cases k1
      exact k2) (by
      intro x y m p q hxy hp hq hpq
      exact hb.merges x y m p q hxy (hp fun c hc => hpq c (by simp [hc])) (hq fun c hc => hpq c (by simp [hc])))
    (byteLevelImage bs) (hinit bs)
  obtain ⟨tb, f1, f2⟩ := image_split alphabetChar (qs.map (·.2)) bs e2
  have f2' : tb.map byteLevelImage = qs.map (·.2) := f2
  refine ⟨tb, ts, e1, f1, ?_, ?_, by rw [e4, f2']⟩
  · intro x hx
    have : byteLevelImage x ∈ qs.map (·.2) := by rw [← f2']; exact List.mem_map_of_mem hx
    obtain ⟨q, hq, hqx⟩ := List.mem_map.mp this
    rintro rfl
    exact (e3 q hq).1 hqx
  · rw [e6, f2']
    apply List.map_congr_left
    intro q hq
    have hmem : ∀ c ∈ q.2, ∃ x, c = alphabetChar x := by
      intro c hc
      have : c ∈ byteLevelImage bs := by rw [← e2]; exact List.mem_flatten.mpr ⟨q.2, List.mem_map_of_mem hq, hc⟩
      obtain ⟨x, _, rfl⟩ := List.mem_map.mp this
      exact ⟨x, rfl⟩
    rw [(e3 q hq).2 hmem]
    rfl

end Tok.PreTok
