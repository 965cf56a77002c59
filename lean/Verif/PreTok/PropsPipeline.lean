import Verif.PreTok.Parts
import Verif.Encoding.MergeLemmas
import Verif.Word.Model
import Verif.Norm.Class

/-!
# C64, C65: encoding a text, from the added tokens to the offsets
-/

namespace Tok.PreTok

open Tok.Norm

/-! ### Specification -/

/-- The encoding with the given rows and type id: nothing special, nothing masked. -/
def ofRows (rows : List Row) (typeId : Int) : Encoding :=
  { Encoding.default with
    ids := rows.map (·.token.id)
    tokens := rows.map (·.token.value)
    offsets := rows.map (·.offsets)
    words := rows.map (·.word)
    typeIds := List.replicate rows.length typeId
    specialMask := List.replicate rows.length 0
    attentionMask := List.replicate rows.length 1 }

/-- The tokens a tokenizer may attach to a part `m` of the text: those its model gives for `m`, or
the single token of an added token that is written `m`. -/
def TokensFor (t : Tk) (m : Str) (ts : List Token) : Prop :=
  (∃ f, t.model = some f ∧ f (encStr m) = .ok (some ts)) ∨
  ∃ id ∈ t.splitRe.ids ++ t.splitNormalizedRe.ids, id ≠ -1 ∧ ts = [addedToken id m]

/-- The model gives, for every non-empty text, at least one token, and the offsets of each enclose
whole characters. -/
def ModelLocates (f : List UInt8 → Res (Option (List Token))) : Prop :=
  ∀ m : Str, m ≠ [] → ∃ ts, f (encStr m) = .ok (some ts) ∧ ts ≠ [] ∧ ∀ t ∈ ts, Located m t

/-- The pre-tokenizer only cuts: parts of a text in order become parts of that text in order
(leaving out text only if `gaps`), and splits that already have tokens stay. -/
def OnlyCuts (gaps : Bool) (p : PTS → Res PTS) : Prop :=
  ∀ (s : Str) (ok : Str → List Token → Prop) (pt : PTS), pt.original = encStr s →
    Cut s gaps ok [] s pt.splits →
    ∃ pt', p pt = .ok pt' ∧ pt'.original = pt.original ∧ Cut s gaps ok [] s pt'.splits ∧
      ∀ sp ∈ pt.splits, sp.tokens ≠ none → sp ∈ pt'.splits

/-- A tokenizer without normalizer whose added tokens, pre-tokenizer and model are as above. -/
structure Plain (t : Tk) (gaps : Bool) : Prop where
  normalizer : t.normalizer = none
  splitRe : ProperSet t.splitRe
  splitNormalizedRe : ProperSet t.splitNormalizedRe
  preTokenizer : ∀ p, t.preTokenizer = some p → OnlyCuts gaps p
  model : ∃ f, t.model = some f ∧ ModelLocates f

/-! ### Merging -/

theorem ofRows_merge (a b : List Row) (typeId : Int) :
    (ofRows a typeId).mergeWith (ofRows b typeId) false = .ok (ofRows (a ++ b) typeId) := by
  rw [mergeWith_eq]
  have h1 : (ofRows a typeId).overflowing = [] := rfl
  have h2 : (ofRows b typeId).overflowing = [] := rfl
  rw [h1, h2]
  simp only [mapRes, Res.bind_ok, Encoding.mergeSelf]
  have h3 : (ofRows b typeId).ranges.getD [] = [] := rfl
  rw [h3]
  simp only [mergeRanges, Res.bind_ok, Res.ok.injEq]
  unfold ofRows
  simp only [Encoding.mk.injEq, List.map_append, mergeOffsets, Bool.false_eq_true, if_false, Int.add_zero,
    List.length_append, List.replicate_append_replicate, true_and, List.map_id', List.flatten_nil, List.append_nil]
  exact ⟨rfl, trivial⟩

theorem merge_ofRows (typeId : Int) (rss : List (List Row)) : ∀ a : List Row,
    (ofRows a typeId).merge (rss.map (fun r => ofRows r typeId)) false = .ok (ofRows (a ++ rss.flatten) typeId) := by
  induction rss with
  | nil => intro a; simp [Encoding.merge]
  | cons r rss ih =>
    intro a
    rw [List.map_cons, Encoding.merge, ofRows_merge]
    simp only [Res.bind_ok]
    rw [ih, List.flatten_cons, List.append_assoc]

theorem default_ofRows (typeId : Int) : Encoding.default = ofRows [] typeId := rfl

/-! ### One sequence -/

theorem tokensFor_located {t : Tk} {gaps : Bool} (h : Plain t gaps) {m : Str} {ts : List Token} (hm : m ≠ [])
    (hts : TokensFor t m ts) : ts ≠ [] ∧ ∀ x ∈ ts, Located m x := by
  rcases hts with ⟨f, hf, he⟩ | ⟨id, _, _, rfl⟩
  · obtain ⟨g, hg, hl⟩ := h.model
    rw [hf] at hg
    cases hg
    obtain ⟨ts', e1, e2, e3⟩ := hl m hm
    rw [he] at e1
    cases e1
    exact ⟨e2, e3⟩
  · refine ⟨by simp, ?_⟩
    intro x hx
    simp only [List.mem_singleton] at hx
    subst hx
    exact ⟨[], m, [], by simp, hm, by simp [addedToken]⟩

/-- The splits after the added tokens: parts in order; the added tokens of the first pass are
among them. -/
theorem extract_cut {t : Tk} {gaps : Bool} (h : Plain t gaps) (s : Str) (hs : s ≠ []) :
    ∃ ps pt, findMatches t.splitRe.ids (blen s) (t.splitRe.engine (encStr s)) = .ok ps ∧
      t.extractAndNormalize (encStr s) = .ok pt ∧ pt.original = encStr s ∧
      Cut s false (fun m ts => m ≠ [] ∧ TokensFor t m ts) [] s pt.splits ∧
      ∀ p ∈ ps, p.id ≠ -1 → ∃ g w b y, s = g ++ w ++ b ∧ p.start = blen g ∧ p.stop = blen (g ++ w) ∧
        FPart s g w y ∧ (⟨y, some [addedToken p.id w]⟩ : Split) ∈ pt.splits := by
  have hok1 : ∀ id ∈ t.splitRe.ids, id ≠ -1 → ∀ w, w ≠ [] → w ≠ [] ∧ TokensFor t w [addedToken id w] :=
    fun id hid hne w hw => ⟨hw, .inr ⟨id, by simp [hid], hne, rfl⟩⟩
  have hok2 : ∀ id ∈ t.splitNormalizedRe.ids, id ≠ -1 → ∀ w, w ≠ [] → w ≠ [] ∧ TokensFor t w [addedToken id w] :=
    fun id hid hne w hw => ⟨hw, .inr ⟨id, by simp [hid], hne, rfl⟩⟩
  obtain ⟨ps, qs, kept, h1, h2, h3, h4, h5⟩ := splitWithIndices_part
    (ok := fun m ts => m ≠ [] ∧ TokensFor t m ts) (fpart_whole s) hs h.splitRe hok1
  have hp1 : (newPTS (encStr s)).split (fun _ n => splitWithIndices t.splitRe n) = .ok ⟨encStr s, kept⟩ := by
    simp only [PTS.split, newPTS, splitLoop, h2, h3, Res.bind_ok, List.append_nil]
  have hfn : ∀ (i : Nat) u m x, FPart s u m x → m ≠ [] → ∃ ps kept,
      (fun _ n => do
        let x ← t.normalizeOrDie n
        splitWithIndices t.splitNormalizedRe x : Nat → NStr → Res (List SplitIdx)) i x = .ok ps ∧
      keepPieces ps = .ok kept ∧ Cut s false (fun m ts => m ≠ [] ∧ TokensFor t m ts) u (u ++ m) kept := by
    intro i u m x hp hm
    obtain ⟨_, qs, kept, _, e2, e3, e4, _⟩ := splitWithIndices_part
      (ok := fun m ts => m ≠ [] ∧ TokensFor t m ts) hp hm h.splitNormalizedRe hok2
    refine ⟨qs, kept, ?_, e3, e4⟩
    simp only [Tk.normalizeOrDie, h.normalizer, Res.bind_ok, e2]
  obtain ⟨ss', k1, k2, k3⟩ := splitLoop_cut hfn h4 0
  refine ⟨ps, ⟨encStr s, ss'⟩, h1, ?_, rfl, by simpa using k2, ?_⟩
  · unfold Tk.extractAndNormalize
    rw [hp1]
    simp only [Res.bind_ok, PTS.split, k1]
  · intro p hp hid
    obtain ⟨g, w, b, y, e1, e2, e3, e4, e5⟩ := h5 p hp hid
    exact ⟨g, w, b, y, e1, e2, e3, by simpa using e4, k3 _ e5 (by simp)⟩

theorem empty_slice : ∃ x, (newNStr []).slice ⟨0, 0, .normalized⟩ = .ok (some x) ∧ x.normalized = [] :=
  ⟨_, rfl, rfl⟩

theorem extract_nil (t : Tk) : t.extractAndNormalize [] = .ok ⟨[], []⟩ := by
  obtain ⟨x, hx, hx'⟩ := empty_slice
  have h1 : ∀ re : MatchingSet, splitWithIndices re (newNStr []) = .ok [⟨some x, none⟩] := by
    intro re
    simp only [splitWithIndices, findMatches, show (newNStr []).normalized.length = 0 from rfl, if_true,
      Res.bind_ok, sliceMatches, Int.natCast_zero, hx]
  unfold Tk.extractAndNormalize
  simp only [PTS.split, newPTS, splitLoop, h1, Res.bind_ok, keepPieces, hx', if_true, List.append_nil]

theorem extract_any {t : Tk} {gaps : Bool} (h : Plain t gaps) (s : Str) :
    ∃ ps pt, findMatches t.splitRe.ids (blen s) (t.splitRe.engine (encStr s)) = .ok ps ∧
      t.extractAndNormalize (encStr s) = .ok pt ∧ pt.original = encStr s ∧
      Cut s false (fun m ts => m ≠ [] ∧ TokensFor t m ts) [] s pt.splits ∧
      ∀ p ∈ ps, p.id ≠ -1 → ∃ g w b y, s = g ++ w ++ b ∧ p.start = blen g ∧ p.stop = blen (g ++ w) ∧
        FPart s g w y ∧ (⟨y, some [addedToken p.id w]⟩ : Split) ∈ pt.splits := by
  by_cases hs : s = []
  · subst hs
    exact ⟨[⟨-1, 0, 0⟩], ⟨[], []⟩, rfl, extract_nil t, rfl, .done _, by simp⟩
  · exact extract_cut h s hs

theorem rowsOfSplits_mem {m : List (Int × Nat)} {wi : Int} {ss : List Split} {i : Nat} {rs : List Row}
    (h : rowsOfSplits m wi ss i = .ok rs) {sp : Split} (hsp : sp ∈ ss) :
    ∃ word rs', rowsOfTokens m sp.normalized word (sp.tokens.getD []) = .ok rs' ∧ ∀ r ∈ rs', r ∈ rs := by
  induction ss generalizing i rs with
  | nil => cases hsp
  | cons s ss ih =>
    simp only [rowsOfSplits] at h
    obtain ⟨r1, h1, h⟩ := Res.bind_eq_ok.mp h
    obtain ⟨rest, hr, h⟩ := Res.bind_eq_ok.mp h
    cases h
    rcases List.mem_cons.mp hsp with rfl | hsp
    · exact ⟨_, r1, h1, fun r hr => List.mem_append_left _ hr⟩
    · obtain ⟨word, rs', e1, e2⟩ := ih hr hsp
      exact ⟨word, rs', e1, fun r hr => List.mem_append_right _ (e2 r hr)⟩

theorem encodeOne_parts {t : Tk} {gaps : Bool} (h : Plain t gaps) (s : Str) (typeId word : Int) :
    ∃ (ps : List SplitPiece) (parts : List (Str × Option (List Token))),
      findMatches t.splitRe.ids (blen s) (t.splitRe.engine (encStr s)) = .ok ps ∧
      (parts.map (·.1)).flatten = s ∧ (∀ p ∈ parts, p.2 = none → gaps = true) ∧
      (∀ p ∈ parts, ∀ ts, p.2 = some ts → p.1 ≠ [] ∧ TokensFor t p.1 ts) ∧
      t.encodeOne (encStr s) typeId word .byte =
        .ok (ofRows (rowsFrom (fun k => if word = -1 then (k : Int) else word) 0 0 parts) typeId) ∧
      ∀ p ∈ ps, p.id ≠ -1 → ∃ g w b, s = g ++ w ++ b ∧ p.start = blen g ∧ p.stop = blen (g ++ w) ∧
        ∃ r ∈ rowsFrom (fun k => if word = -1 then (k : Int) else word) 0 0 parts,
          r.token = addedToken p.id w ∧ r.offsets = ((p.start : Int), (p.stop : Int)) := by
  obtain ⟨ps, pt, h0, h1, h2, h3, h4⟩ := extract_any h s
  obtain ⟨f, hf, hl⟩ := h.model
  have hpre : ∃ pt', t.doPreTokenize pt = .ok pt' ∧ pt'.original = encStr s ∧
      Cut s gaps (fun m ts => m ≠ [] ∧ TokensFor t m ts) [] s pt'.splits ∧
      ∀ sp ∈ pt.splits, sp.tokens ≠ none → sp ∈ pt'.splits := by
    unfold Tk.doPreTokenize
    cases hp : t.preTokenizer with
    | none => exact ⟨pt, rfl, h2, h3.gaps, fun sp hsp _ => hsp⟩
    | some p =>
      obtain ⟨pt', e1, e2, e3, e4⟩ := h.preTokenizer p hp s _ pt h2 h3.gaps
      exact ⟨pt', e1, by rw [e2, h2], e3, e4⟩
  obtain ⟨pt', p1, p2, p3, p4⟩ := hpre
  have hfn : ∀ m (x : NStr), m ≠ [] → x.normalized = encStr m → ∃ ts,
      (fun n : NStr => f n.normalized) x = .ok (some ts) ∧ m ≠ [] ∧ TokensFor t m ts := by
    intro m x hm hx
    obtain ⟨ts, e1, _, _⟩ := hl m hm
    exact ⟨ts, by simp only [hx, e1], hm, .inl ⟨f, hf, e1⟩⟩
  obtain ⟨ss', q1, q2, q3, q4⟩ := tokenizeLoop_cut hfn p3
  obtain ⟨parts, r1, r2, r3, r4, r5⟩ := rowsOfSplits_cut
    (fun m ts hk => tokensFor_located h hk.1 hk.2) word q2 q3 0
  simp only [blen_nil] at r4
  refine ⟨ps, parts, h0, by simpa using r1, r2, fun p hp ts hts => ⟨(r3 p hp ts hts).1, (r3 p hp ts hts).2.2⟩, ?_, ?_⟩
  · simp only [Tk.encodeOne, h1, p1, Tk.doTokenize, PTS.tokenize, hf, q1, Res.bind_ok, PTS.intoEncoding, p2]
    split
    · next he =>
      rw [he] at r4
      simp only [rowsOfSplits, Res.ok.injEq] at r4
      rw [← r4]; rfl
    · rw [if_neg (by rw [r5]; simp), r4]
      simp only [Res.bind_ok]
      rfl
  · intro p hp hid
    obtain ⟨g, w, b, y, e1, e2, e3, e4, e5⟩ := h4 p hp hid
    have hmem := q4 _ (p4 _ e5 (by simp)) (by simp)
    obtain ⟨wd, rs', k1, k2⟩ := rowsOfSplits_mem r4 hmem
    refine ⟨g, w, b, e1, e2, e3, ?_⟩
    have hw : w ≠ [] := by
      obtain ⟨ps', g1, _, g3, _⟩ := findMatches_proper h.splitRe (m := s) (by
        rintro rfl
        simp only [findMatches, blen_nil, if_true, Res.ok.injEq] at h0
        subst h0
        simp only [List.mem_singleton] at hp
        subst hp
        exact hid rfl)
      rw [h0] at g1
      cases g1
      have := (g3 p hp).1
      rintro rfl
      rw [e2, e3, List.append_nil] at this
      omega
    rw [rowsOfTokens_part (fpart_partOf e4) wd _ (by
      intro x hx
      simp only [Option.getD_some, List.mem_singleton] at hx
      subst hx
      exact ⟨[], w, [], by simp, hw, by simp [addedToken]⟩)] at k1
    cases k1
    refine ⟨_, k2 _ (by simp only [Option.getD_some, List.map_cons, List.map_nil, List.mem_singleton]; rfl), rfl, ?_⟩
    rw [e2, e3]
    simp only [addedToken, blen_append]
    congr 1

/-! ### C64 -/

/-- C64 (raw text): encoding a text succeeds. The text falls into parts, in order; parts left out
are those of a pre-tokenizer that leaves text out; every other part has the tokens the model
gives for it, or the token of an added token written like it; the entries are these tokens in
order, with the offsets of the token in its part moved to the place of the part in the text,
and the number of the part as word. -/
theorem C64_encode_partial {t : Tk} {gaps : Bool} (h : Plain t gaps) (s : Str) (typeId : Int) :
    ∃ parts : List (Str × Option (List Token)),
      (parts.map (·.1)).flatten = s ∧ (∀ p ∈ parts, p.2 = none → gaps = true) ∧
      (∀ p ∈ parts, ∀ ts, p.2 = some ts → p.1 ≠ [] ∧ TokensFor t p.1 ts) ∧
      t.encodeSingle (.raw (encStr s)) typeId .byte =
        .ok (ofRows (rowsFrom (fun k => (k : Int)) 0 0 parts) typeId) := by
  obtain ⟨ps, parts, _, h1, h2, h3, h4, _⟩ := encodeOne_parts h s typeId (-1)
  refine ⟨parts, h1, h2, h3, ?_⟩
  simp only [if_true] at h4
  simp only [Tk.encodeSingle, h4, Res.bind_ok]
  have := merge_ofRows typeId [rowsFrom (fun k => (k : Int)) 0 0 parts] []
  rw [default_ofRows typeId]
  simpa using this

/-- The spans of consecutive pieces of a text from byte `pos` on. -/
def spansFrom : Nat → List Str → List (Int × Int)
  | _, [] => []
  | pos, w :: ws => ((pos : Int), ((pos + blen w : Nat) : Int)) :: spansFrom (pos + blen w) ws

/-- The tokens cover the text: their offsets are the spans of consecutive pieces. -/
def Covers (m : Str) (ts : List Token) : Prop :=
  ∃ ws : List Str, ws.flatten = m ∧ (∀ w ∈ ws, w ≠ []) ∧ ts.map (·.offsets) = spansFrom 0 ws

theorem spansFrom_append (a b : List Str) (pos : Nat) :
    spansFrom pos (a ++ b) = spansFrom pos a ++ spansFrom (pos + blen a.flatten) b := by
  induction a generalizing pos with
  | nil => simp [spansFrom]
  | cons w a ih => simp [spansFrom, ih, Nat.add_assoc]

theorem spansFrom_shift (ws : List Str) (pos k : Nat) :
    (spansFrom k ws).map (fun o => ((pos : Int) + o.1, (pos : Int) + o.2)) = spansFrom (pos + k) ws := by
  induction ws generalizing k with
  | nil => rfl
  | cons w ws ih =>
    rw [spansFrom, List.map_cons, ih, spansFrom, Nat.add_assoc]
    push_cast
    simp

theorem covers_rows (word : Nat → Int) (parts : List (Str × Option (List Token)))
    (h : ∀ p ∈ parts, ∃ ts, p.2 = some ts ∧ Covers p.1 ts) : ∀ pos i, ∃ ws : List Str,
      ws.flatten = (parts.map (·.1)).flatten ∧ (∀ w ∈ ws, w ≠ []) ∧
      (rowsFrom word pos i parts).map (·.offsets) = spansFrom pos ws := by
  induction parts with
  | nil => intro pos i; exact ⟨[], rfl, by simp, rfl⟩
  | cons p parts ih =>
    intro pos i
    obtain ⟨m, o⟩ := p
    obtain ⟨ts, e, ws, h1, h2, h3⟩ := h (m, o) (by simp)
    simp only at e
    subst e
    obtain ⟨ws', k1, k2, k3⟩ := ih (fun q hq => h q (by simp [hq])) (pos + blen m) (i + 1)
    refine ⟨ws ++ ws', ?_, ?_, ?_⟩
    · rw [List.flatten_append, h1, k1]; simp
    · intro w hw
      rcases List.mem_append.mp hw with hw | hw
      · exact h2 w hw
      · exact k2 w hw
    · rw [rowsFrom, List.map_append, k3, spansFrom_append, h1]
      congr 1
      have := spansFrom_shift ws pos 0
      rw [← h3] at this
      simpa [Function.comp_def] using this

/-- C64 (cover): if moreover the model's tokens cover their text and the pre-tokenizer leaves
nothing out, the offsets of the encoding are the spans of consecutive pieces of the whole text:
nothing is lost, nothing overlaps, every offset is between two characters. -/
theorem C64_cover_partial {t : Tk} (h : Plain t false)
    (hm : ∀ f m ts, t.model = some f → m ≠ [] → f (encStr m) = .ok (some ts) → Covers m ts)
    (s : Str) (typeId : Int) :
    ∃ e ws, t.encodeSingle (.raw (encStr s)) typeId .byte = .ok e ∧ ws.flatten = s ∧
      (∀ w ∈ ws, w ≠ []) ∧ e.offsets = spansFrom 0 ws := by
  obtain ⟨parts, h1, h2, h3, h4⟩ := C64_encode_partial h s typeId
  obtain ⟨ws, k1, k2, k3⟩ := covers_rows (fun k => (k : Int)) parts (by
    intro p hp
    cases hts : p.2 with
    | none => exact absurd (h2 p hp hts) (by simp)
    | some ts =>
      obtain ⟨e1, e2⟩ := h3 p hp ts hts
      refine ⟨ts, rfl, ?_⟩
      rcases e2 with ⟨f, hf, he⟩ | ⟨id, _, _, rfl⟩
      · exact hm f p.1 ts hf e1 he
      · exact ⟨[p.1], by simp, by simpa using e1, by simp [addedToken, spansFrom]⟩) 0 0
  exact ⟨_, ws, h4, by rw [k1, h1], k2, k3⟩

/-- C64 (added tokens): every added token that the splitting of the text selects has an entry with
its id, its text and its place in the text. -/
theorem C64_added_partial {t : Tk} {gaps : Bool} (h : Plain t gaps) (s : Str) (typeId : Int) :
    ∃ e ps, t.encodeSingle (.raw (encStr s)) typeId .byte = .ok e ∧
      findMatches t.splitRe.ids (blen s) (t.splitRe.engine (encStr s)) = .ok ps ∧
      ∀ p ∈ ps, p.id ≠ -1 → ∃ (g w b : Str) (k : Nat), s = g ++ w ++ b ∧ p.start = blen g ∧
        p.stop = blen (g ++ w) ∧ e.ids[k]? = some p.id ∧ e.tokens[k]? = some w ∧
        e.offsets[k]? = some ((p.start : Int), (p.stop : Int)) := by
  obtain ⟨ps, parts, h0, h1, h2, h3, h4, h5⟩ := encodeOne_parts h s typeId (-1)
  simp only [if_true] at h4 h5
  refine ⟨ofRows (rowsFrom (fun k => (k : Int)) 0 0 parts) typeId, ps, ?_, h0, ?_⟩
  · simp only [Tk.encodeSingle, h4, Res.bind_ok]
    have := merge_ofRows typeId [rowsFrom (fun k => (k : Int)) 0 0 parts] []
    rw [default_ofRows typeId]
    simpa using this
  · intro p hp hid
    obtain ⟨g, w, b, e1, e2, e3, r, hr, e4, e5⟩ := h5 p hp hid
    obtain ⟨k, hk⟩ := List.mem_iff_getElem?.mp hr
    refine ⟨g, w, b, k, e1, e2, e3, ?_, ?_, ?_⟩
    · simp only [ofRows, List.getElem?_map, hk, Option.map_some, e4]; rfl
    · simp only [ofRows, List.getElem?_map, hk, Option.map_some, e4]; rfl
    · simp only [ofRows, List.getElem?_map, hk, Option.map_some, e5]

/-- The rows of the words of a pre-tokenized input: word `i` has the parts of the `i`-th word. -/
def wordRows : Nat → List (List (Str × Option (List Token))) → List Row
  | _, [] => []
  | i, parts :: rest => rowsFrom (fun _ => (i : Int)) 0 0 parts ++ wordRows (i + 1) rest

theorem encodeWords_parts {t : Tk} {gaps : Bool} (h : Plain t gaps) (typeId : Int) (ws : List Str) :
    ∀ i : Nat, ∃ pss : List (List (Str × Option (List Token))),
      pss.map (fun parts => (parts.map (·.1)).flatten) = ws ∧
      (∀ parts ∈ pss, ∀ p ∈ parts, p.2 = none → gaps = true) ∧
      (∀ parts ∈ pss, ∀ p ∈ parts, ∀ ts, p.2 = some ts → p.1 ≠ [] ∧ TokensFor t p.1 ts) ∧
      ∃ rss : List (List Row), t.encodeWords typeId .byte (ws.map encStr) i =
        .ok (rss.map (fun r => ofRows r typeId)) ∧ rss.flatten = wordRows i pss := by
  induction ws with
  | nil => intro i; exact ⟨[], rfl, by simp, by simp, [], rfl, rfl⟩
  | cons w ws ih =>
    intro i
    obtain ⟨pss, h1, h2, h3, rss, h4, h5⟩ := ih (i + 1)
    obtain ⟨_, parts, _, k1, k2, k3, k4, _⟩ := encodeOne_parts h w typeId (i : Int)
    have hi : ¬ (i : Int) = -1 := by omega
    simp only [hi, if_false] at k4
    refine ⟨parts :: pss, by rw [List.map_cons, k1, h1], ?_, ?_,
      rowsFrom (fun _ => (i : Int)) 0 0 parts :: rss, ?_, ?_⟩
    · intro q hq
      rcases List.mem_cons.mp hq with rfl | hq
      · exact k2
      · exact h2 q hq
    · intro q hq
      rcases List.mem_cons.mp hq with rfl | hq
      · exact k3
      · exact h3 q hq
    · simp only [List.map_cons, Tk.encodeWords, k4, h4, Res.bind_ok]
    · rw [List.flatten_cons, h5, wordRows]

/-- C64 (pre-tokenized input): every word falls into parts as a text does; the entries are those of
the words in order, with offsets within the word and the number of the word. -/
theorem C64_words_partial {t : Tk} {gaps : Bool} (h : Plain t gaps) (ws : List Str) (typeId : Int) :
    ∃ pss : List (List (Str × Option (List Token))),
      pss.map (fun parts => (parts.map (·.1)).flatten) = ws ∧
      (∀ parts ∈ pss, ∀ p ∈ parts, p.2 = none → gaps = true) ∧
      (∀ parts ∈ pss, ∀ p ∈ parts, ∀ ts, p.2 = some ts → p.1 ≠ [] ∧ TokensFor t p.1 ts) ∧
      t.encodeSingle (.words (ws.map encStr)) typeId .byte = .ok (ofRows (wordRows 0 pss) typeId) := by
  obtain ⟨pss, h1, h2, h3, rss, h4, h5⟩ := encodeWords_parts h typeId ws 0
  refine ⟨pss, h1, h2, h3, ?_⟩
  simp only [Tk.encodeSingle, h4, Res.bind_ok]
  rw [default_ofRows typeId, merge_ofRows, h5]
  rfl

/-! ### Values -/

/-- The token is the text between its offsets. -/
def Faithful (m : Str) (t : Token) : Prop :=
  ∃ a b, m = a ++ t.value ++ b ∧ t.value ≠ [] ∧
    t.offsets = (((blen a : Nat) : Int), ((blen (a ++ t.value) : Nat) : Int))

theorem rowsFrom_mem (word : Nat → Int) (parts : List (Str × Option (List Token))) : ∀ pos i r,
    r ∈ rowsFrom word pos i parts → ∃ pre m ts post, parts = pre ++ (m, some ts) :: post ∧ r.token ∈ ts ∧
      r.offsets = (((pos + blen (pre.map (·.1)).flatten : Nat) : Int) + r.token.offsets.1,
        ((pos + blen (pre.map (·.1)).flatten : Nat) : Int) + r.token.offsets.2) := by
  induction parts with
  | nil => intro pos i r h; cases h
  | cons p parts ih =>
    intro pos i r h
    obtain ⟨m, o⟩ := p
    have step : ∀ j, r ∈ rowsFrom word (pos + blen m) j parts → ∃ pre m' ts post,
        (m, o) :: parts = pre ++ (m', some ts) :: post ∧ r.token ∈ ts ∧
        r.offsets = (((pos + blen (pre.map (·.1)).flatten : Nat) : Int) + r.token.offsets.1,
          ((pos + blen (pre.map (·.1)).flatten : Nat) : Int) + r.token.offsets.2) := by
      intro j hj
      obtain ⟨pre, m', ts, post, e1, e2, e3⟩ := ih _ _ r hj
      refine ⟨(m, o) :: pre, m', ts, post, by rw [e1]; rfl, e2, ?_⟩
      rw [e3]
      simp only [List.map_cons, List.flatten_cons, blen_append, Nat.add_assoc]
    cases o with
    | none => exact step i h
    | some ts =>
      rw [rowsFrom, List.mem_append] at h
      rcases h with h | h
      · obtain ⟨x, hx, rfl⟩ := List.mem_map.mp h
        exact ⟨[], m, ts, parts, rfl, hx, by simp⟩
      · exact step (i + 1) h

/-- C64 (values): if every token of the model is the text between its offsets, every entry of the
encoding is the part of the text between its offsets. -/
theorem C64_values_partial {t : Tk} {gaps : Bool} (h : Plain t gaps)
    (hm : ∀ f m ts, t.model = some f → m ≠ [] → f (encStr m) = .ok (some ts) → ∀ x ∈ ts, Faithful m x)
    (s : Str) (typeId : Int) :
    ∃ e, t.encodeSingle (.raw (encStr s)) typeId .byte = .ok e ∧
      ∀ (k : Nat) v o, e.tokens[k]? = some v → e.offsets[k]? = some o →
        ∃ g b, s = g ++ v ++ b ∧ v ≠ [] ∧ o = (((blen g : Nat) : Int), ((blen (g ++ v) : Nat) : Int)) := by
  obtain ⟨parts, h1, h2, h3, h4⟩ := C64_encode_partial h s typeId
  refine ⟨_, h4, ?_⟩
  intro k v o hv ho
  simp only [ofRows, List.getElem?_map, Option.map_eq_some_iff] at hv ho
  obtain ⟨r, hr, rfl⟩ := hv
  obtain ⟨r', hr', rfl⟩ := ho
  rw [hr] at hr'
  cases hr'
  obtain ⟨pre, m, ts, post, e1, e2, e3⟩ := rowsFrom_mem _ _ _ _ r (List.mem_of_getElem? hr)
  obtain ⟨hne, hts⟩ := h3 (m, some ts) (by rw [e1]; simp) ts rfl
  have hf : Faithful m r.token := by
    rcases hts with ⟨f, hf, he⟩ | ⟨id, _, _, hid⟩
    · exact hm f m ts hf hne he _ e2
    · rw [hid, List.mem_singleton] at e2
      rw [e2]
      exact ⟨[], [], by simp [addedToken], hne, by simp [addedToken]⟩
  obtain ⟨a, b, f1, f2, f3⟩ := hf
  refine ⟨(pre.map (·.1)).flatten ++ a, b ++ (post.map (·.1)).flatten, ?_, f2, ?_⟩
  · rw [← h1, e1]
    simp only [List.map_append, List.map_cons, List.flatten_append, List.flatten_cons]
    simp only [List.append_assoc] at f1 ⊢
    rw [f1]
    simp
  · rw [e3, f3]
    simp only [blen_append, Nat.zero_add]
    congr 1
    omega

/-! ### A complete tokenizer: WordLevel -/

/-- `WordLevel.Tokenize` (wordlevel.go:142-167) as the model of a tokenizer. -/
def wordLevelModel (vocab : Str → Option Int) (unk : Str) (bs : List UInt8) : Res (Option (List Token)) := do
  let ts ← wordLevelTokenize vocab unk (decStr bs)
  .ok (some ts)

theorem wordLevel_tokens (vocab : Str → Option Int) (unk : Str) (hu : vocab unk ≠ none) (m : Str) (_ : m ≠ []) :
    ∃ id, wordLevelModel vocab unk (encStr m) = .ok (some [⟨id, m, (0, ((blen m : Nat) : Int))⟩]) := by
  unfold wordLevelModel wordLevelTokenize
  rw [decStr_enc]
  cases h : vocab m with
  | some id => exact ⟨id, rfl⟩
  | none =>
    cases h2 : vocab unk with
    | none => exact absurd h2 hu
    | some id => exact ⟨id, rfl⟩

/-- C64 (WordLevel): a tokenizer with a WordLevel model whose unknown token is in the vocabulary, no
normalizer, and added tokens and a pre-tokenizer as above, encodes every text, and every entry
is the text between its offsets. -/
theorem C64_wordlevel_partial {t : Tk} {gaps : Bool} (vocab : Str → Option Int) (unk : Str)
    (hu : vocab unk ≠ none) (hn : t.normalizer = none) (h1 : ProperSet t.splitRe)
    (h2 : ProperSet t.splitNormalizedRe) (hp : ∀ p, t.preTokenizer = some p → OnlyCuts gaps p)
    (hm : t.model = some (wordLevelModel vocab unk)) (s : Str) (typeId : Int) :
    ∃ e, t.encodeSingle (.raw (encStr s)) typeId .byte = .ok e ∧
      ∀ (k : Nat) v o, e.tokens[k]? = some v → e.offsets[k]? = some o →
        ∃ g b, s = g ++ v ++ b ∧ v ≠ [] ∧ o = (((blen g : Nat) : Int), ((blen (g ++ v) : Nat) : Int)) := by
  have hplain : Plain t gaps := by
    refine ⟨hn, h1, h2, hp, _, hm, ?_⟩
    intro m hmne
    obtain ⟨id, e⟩ := wordLevel_tokens vocab unk hu m hmne
    refine ⟨_, e, by simp, ?_⟩
    intro x hx
    simp only [List.mem_singleton] at hx
    subst hx
    exact ⟨[], m, [], by simp, hmne, by simp⟩
  refine C64_values_partial hplain ?_ s typeId
  intro f m ts hf hmne he x hx
  rw [hm] at hf
  cases hf
  obtain ⟨id, e⟩ := wordLevel_tokens vocab unk hu m hmne
  rw [e] at he
  cases he
  simp only [List.mem_singleton] at hx
  subst hx
  exact ⟨[], [], by simp, hmne, by simp⟩

end Tok.PreTok
